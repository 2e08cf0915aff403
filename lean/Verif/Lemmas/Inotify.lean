import Verif.Spec.Inotify
import Verif.Lemmas.Bits
/-! From bytes to records. -/
namespace Verif.Lemmas.In
open Verif Verif.Model Verif.Model.In Verif.Spec Verif.Lemmas

/-! ### Masks -/

theorem b_modify (m : BitVec 32) : anyBit m IN_MODIFY = m.getLsbD 1 := anyBit_pow m 1 (by omega)
theorem b_from (m : BitVec 32) : anyBit m IN_MOVED_FROM = m.getLsbD 6 := anyBit_pow m 6 (by omega)
theorem b_to (m : BitVec 32) : anyBit m IN_MOVED_TO = m.getLsbD 7 := anyBit_pow m 7 (by omega)
theorem b_create (m : BitVec 32) : anyBit m IN_CREATE = m.getLsbD 8 := anyBit_pow m 8 (by omega)
theorem b_delete (m : BitVec 32) : anyBit m IN_DELETE = m.getLsbD 9 := anyBit_pow m 9 (by omega)
theorem b_delself (m : BitVec 32) : anyBit m IN_DELETE_SELF = m.getLsbD 10 := anyBit_pow m 10 (by omega)
theorem b_moveself (m : BitVec 32) : anyBit m IN_MOVE_SELF = m.getLsbD 11 := anyBit_pow m 11 (by omega)
theorem b_ovf (m : BitVec 32) : anyBit m IN_Q_OVERFLOW = m.getLsbD 14 := anyBit_pow m 14 (by omega)
theorem b_ignored (m : BitVec 32) : anyBit m IN_IGNORED = m.getLsbD 15 := anyBit_pow m 15 (by omega)
theorem b_isdir (m : BitVec 32) : anyBit m IN_ISDIR = m.getLsbD 30 := anyBit_pow m 30 (by omega)

theorem real_eq (r : Rec) : isRealEvent r.mask = r.reportable := by
  unfold isRealEvent recvMask
  simp only [anyBit_or, b_modify, b_from, b_to, b_create, b_delete, b_delself, b_moveself, b_ignored,
    Rec.reportable, Rec.created, Rec.deleted, Rec.modified, Rec.movedFrom, Rec.movedTo, Rec.ignored,
    Rec.deleteSelf, Rec.moveSelf, Rec.bit]
  generalize r.mask.getLsbD 1 = a
  generalize r.mask.getLsbD 6 = b
  generalize r.mask.getLsbD 7 = c
  generalize r.mask.getLsbD 8 = d
  generalize r.mask.getLsbD 9 = e
  generalize r.mask.getLsbD 10 = f
  generalize r.mask.getLsbD 11 = g
  generalize r.mask.getLsbD 15 = h
  cases a <;> cases b <;> cases c <;> cases d <;> cases e <;> cases f <;> cases g <;> cases h <;> rfl

theorem parity_eq (r : Rec) : isParityLost r.mask = (r.deleteSelf && !r.moveSelf) := by
  simp [isParityLost, b_delself, b_moveself, Rec.deleteSelf, Rec.moveSelf, Rec.bit]

theorem ptype_eq (r : Rec) : ptypeOf r.mask = r.ptype := by
  simp [ptypeOf, b_isdir, Rec.ptype, Rec.onDir, Rec.bit]

theorem effect_eq (r : Rec) (h : r.reportable = true) : effectOf r.mask = r.effect := by
  simp only [Rec.reportable, Rec.created, Rec.deleted, Rec.modified, Rec.movedFrom, Rec.movedTo,
    Rec.bit] at h
  simp only [effectOf, Rec.effect, IN_MOVE, anyBit_or, b_modify, b_from, b_to, b_create, b_delete,
    Rec.created, Rec.deleted, Rec.movedFrom, Rec.movedTo, Rec.bit]
  by_cases hd : r.mask.getLsbD 8 = true
  · simp only [hd, if_true]
  · by_cases he : r.mask.getLsbD 9 = true
    · simp only [hd, he, if_true]
    · by_cases hb : (r.mask.getLsbD 6 || r.mask.getLsbD 7) = true
      · simp only [hd, he, hb, if_true]
      · have ha : r.mask.getLsbD 1 = true := by
          simp only [Bool.not_eq_true, Bool.or_eq_false_iff] at hd he hb
          rw [hd, he, hb.1, hb.2] at h
          simp at h; exact h.1
        simp only [hd, he, hb, ha, if_true]

/-! ### Bytes -/

theorem u32_le32 (x : BitVec 32) (l : List UInt8) : u32 (le32 x ++ l) 0 = .ok x := by
  simp only [u32, le32, List.drop_zero, List.cons_append]
  congr 1
  apply BitVec.eq_of_toNat_eq
  have hx := x.isLt
  simp only [UInt8.toNat_ofNat', BitVec.toNat_ofNat]
  omega

theorem u32_drop (p l : List UInt8) (k : Nat) : u32 (p ++ l) (p.length + k) = u32 l k := by
  simp [u32, List.drop_append, List.drop_of_length_le (show p.length ≤ p.length + k by omega)]

theorem le32_length (x : BitVec 32) : (le32 x).length = 4 := rfl

theorem rec_length (r : Rec) : r.bytes.length = 16 + (r.name.length + r.pad) := by
  simp [Rec.bytes, le32_length]; omega

theorem fWd_rec (p l : List UInt8) (r : Rec) (h : r.WF) : fWd (p ++ (r.bytes ++ l)) p.length = .ok r.wd := by
  have : u32 (p ++ (r.bytes ++ l)) p.length = .ok (BitVec.ofInt 32 r.wd) := by
    have := u32_drop p (r.bytes ++ l) 0
    rw [Nat.add_zero] at this
    rw [this]
    simp only [Rec.bytes, List.append_assoc]
    exact u32_le32 _ _
  simp only [fWd, this, Outcome.bind_ok, Outcome.pure_eq]
  congr 1
  rw [BitVec.toInt_ofInt]
  obtain ⟨h1, h2⟩ := h.wd
  simp only [Int.bmod_def]
  omega

theorem fMask_rec (p l : List UInt8) (r : Rec) : fMask (p ++ (r.bytes ++ l)) p.length = .ok r.mask := by
  rw [fMask, u32_drop]
  simp only [Rec.bytes, List.append_assoc]
  exact (u32_drop (le32 _) _ 0).trans (u32_le32 _ _)

theorem fCookie_rec (p l : List UInt8) (r : Rec) : fCookie (p ++ (r.bytes ++ l)) p.length = .ok r.cookie := by
  rw [fCookie, u32_drop]
  simp only [Rec.bytes, List.append_assoc]
  exact (u32_drop (le32 _) _ 4).trans ((u32_drop (le32 _) _ 0).trans (u32_le32 _ _))

theorem fLen_rec (p l : List UInt8) (r : Rec) (h : r.WF) :
    fLen (p ++ (r.bytes ++ l)) p.length = .ok (r.name.length + r.pad) := by
  rw [fLen, u32_drop]
  have : u32 (r.bytes ++ l) 12 = .ok (BitVec.ofNat 32 (r.name.length + r.pad)) := by
    simp only [Rec.bytes, List.append_assoc]
    exact (u32_drop (le32 _) _ 8).trans ((u32_drop (le32 _) _ 4).trans
      ((u32_drop (le32 _) _ 0).trans (u32_le32 _ _)))
  rw [this]
  simp only [Outcome.bind_ok, Outcome.pure_eq, BitVec.toNat_ofNat]
  rw [Nat.mod_eq_of_lt h.len]

theorem cstr_name : ∀ (n : Str) (l : List UInt8), (0 : UInt8) ∉ n → cstr (n ++ 0 :: l) = .ok n := by
  intro n
  induction n with
  | nil => intro l _; simp [cstr]
  | cons c n ih =>
    intro l h
    simp at h
    simp only [List.cons_append, cstr]
    rw [if_neg (fun hc => h.1 hc.symm), ih l h.2]
    rfl

theorem fName_rec (p l : List UInt8) (r : Rec) (h : r.WF) (hn : r.name ≠ []) :
    fName (p ++ (r.bytes ++ l)) p.length = .ok r.name := by
  obtain ⟨k, hk⟩ : ∃ k, r.pad = k + 1 := ⟨r.pad - 1, by have := h.term hn; omega⟩
  have : (p ++ (r.bytes ++ l)).drop (p.length + hdrLen) = r.name ++ (0 :: (List.replicate k 0 ++ l)) := by
    rw [List.drop_append, List.drop_of_length_le (by omega)]
    simp only [Nat.add_sub_cancel_left, List.nil_append, Rec.bytes, hk, List.append_assoc]
    rfl
  rw [fName, this, cstr_name _ _ h.noZero]

/-- The offset of the rest of a batch, or null at its end. -/
def offOf (p : List UInt8) (rs : List Rec) : Option Nat := if rs = [] then none else some p.length

theorem batch_cons (r : Rec) (rs : List Rec) : batch (r :: rs) = r.bytes ++ batch rs := rfl

theorem batch_pos (r : Rec) (rs : List Rec) : 16 ≤ (batch (r :: rs)).length := by
  rw [batch_cons, List.length_append, rec_length]; omega

theorem peek_rec (p : List UInt8) (r : Rec) (rs : List Rec) (h : r.WF) (mem : List UInt8)
    (hm : mem = p ++ (r.bytes ++ batch rs)) :
    peek mem p.length mem.length = .ok (offOf (p ++ r.bytes) rs) := by
  subst hm
  simp only [peek, fLen_rec p _ r h, Outcome.bind_ok, Outcome.pure_eq]
  congr 1
  have hl : (p ++ (r.bytes ++ batch rs)).length = p.length + (16 + (r.name.length + r.pad)) + (batch rs).length := by
    simp only [List.length_append, rec_length]; omega
  rw [hl]
  cases rs with
  | nil => simp [offOf, batch, hdrLen]; omega
  | cons r2 rs =>
    have := batch_pos r2 rs
    have hlt : p.length + hdrLen + (r.name.length + r.pad) <
      p.length + (16 + (r.name.length + r.pad)) + (batch (r2 :: rs)).length := by unfold hdrLen; omega
    rw [if_pos hlt]
    simp only [offOf, reduceCtorEq, if_false, List.length_append, rec_length, hdrLen]
    congr 1; omega

theorem join_eq (dir n : Str) (hd : Canonical dir) (hn : n ≠ []) (hs : (47 : UInt8) ∉ n) :
    pathJoin dir n = entryPath dir n := by
  unfold pathJoin entryPath
  have h1 : n.head? ≠ some 47 := by
    cases n with
    | nil => exact absurd rfl hn
    | cons c n => simp at hs ⊢; exact fun h => hs.1 h.symm
  rw [if_neg h1, if_neg hd.1]
  by_cases h2 : dir.getLast? = some 47
  · rw [if_pos h2, if_pos (hd.2 h2), hd.2 h2]
  · rw [if_neg h2, if_neg]
    intro h; rw [h] at h2; simp at h2

/-- What `parse_ev` yields for a reportable record. -/
theorem parseEv_rec (p : List UInt8) (r : Rec) (rs : List Rec) (dir : Str) (mem : List UInt8)
    (hm : mem = p ++ (r.bytes ++ batch rs)) (hr : r.WF) (hrs : ∀ x ∈ rs, x.WF)
    (hrep : r.reportable = true) (hord : Ordered (r :: rs)) (hd : Canonical dir) :
    parseEv mem dir p.length mem.length = .ok (match rs with
      | [] => (r.event dir, none)
      | r2 :: rest => if r.renamedTo r2 then (pairEvent r r2 dir dir, offOf (p ++ r.bytes ++ r2.bytes) rest)
        else (r.event dir, offOf (p ++ r.bytes) (r2 :: rest))) := by
  have hname := hr.named hrep
  have fm : fMask mem p.length = .ok r.mask := by rw [hm]; exact fMask_rec p _ r
  have fn : fName mem p.length = .ok r.name := by rw [hm]; exact fName_rec p _ r hr hname
  have fc : fCookie mem p.length = .ok r.cookie := by rw [hm]; exact fCookie_rec p _ r
  have pk := peek_rec p r rs hr mem hm
  unfold parseEv
  simp only [fm, pk, fn, fc, Outcome.bind_ok, Outcome.pure_eq, ptype_eq, effect_eq r hrep,
    join_eq dir r.name hd hname hr.noSlash]
  cases rs with
  | nil => simp [offOf, Rec.event]
  | cons r2 rest =>
    have hr2 := hrs r2 (by simp)
    have hm2 : mem = (p ++ r.bytes) ++ (r2.bytes ++ batch rest) := by
      rw [hm, batch_cons]; simp [List.append_assoc]
    have fc2 : fCookie mem (p ++ r.bytes).length = .ok r2.cookie := by rw [hm2]; exact fCookie_rec _ _ r2
    have fm2 : fMask mem (p ++ r.bytes).length = .ok r2.mask := by rw [hm2]; exact fMask_rec _ _ r2
    simp only [offOf, reduceCtorEq, if_false, fc2, fm2, Outcome.bind_ok]
    have hft : isFromTo r.mask r2.mask = (r.movedFrom && r2.movedTo) := by
      simp [isFromTo, b_from, b_to, Rec.movedFrom, Rec.movedTo, Rec.bit]
    have htf : isFromTo r2.mask r.mask = (r2.movedFrom && r.movedTo) := by
      simp [isFromTo, b_from, b_to, Rec.movedFrom, Rec.movedTo, Rec.bit]
    have hsw := hord.1
    rw [hft, htf]
    by_cases c : r2.cookie ≠ 0#32 ∧ r2.cookie = r.cookie ∧ r.effect = .rename
    · rw [if_pos c]
      by_cases c2 : (r.movedFrom && r2.movedTo) = true
      · have hren : r.renamedTo r2 = true := by
          simp only [Bool.and_eq_true] at c2
          simp only [Rec.renamedTo, c.2.2, c.2.1.symm, c2.1, c2.2, Bool.and_true, Bool.and_eq_true, beq_self_eq_true, bne_iff_ne, true_and]
          exact c.2.1 ▸ c.1
        rw [if_pos c2, if_pos hren]
        have pk2 := peek_rec (p ++ r.bytes) r2 rest hr2 mem hm2
        have hn2 : r2.name ≠ [] := by
          apply hr2.named
          have : (r2.ignored || r2.deleteSelf || r2.moveSelf) = false := by
            cases hx : (r2.ignored || r2.deleteSelf || r2.moveSelf) with
            | false => rfl
            | true =>
              have := hr2.selfOnly hx
              simp at this c2
              rw [this.2] at c2; simp at c2
          simp only [Bool.and_eq_true] at c2
          simp [Rec.reportable, c2.2, this]
        have fn2 : fName mem (p ++ r.bytes).length = .ok r2.name := by
          rw [hm2]; exact fName_rec _ _ r2 hr2 hn2
        rw [fn2, pk2]
        simp [pairEvent, join_eq dir r2.name hd hn2 hr2.noSlash, c.2.2, offOf]
      · rw [if_neg c2]
        have hnren : ¬ r.renamedTo r2 = true := by
          intro h; simp [Rec.renamedTo] at h; exact c2 (by simp [h])
        by_cases c3 : (r2.movedFrom && r.movedTo) = true
        · exfalso
          simp only [Bool.and_eq_true] at c3
          exact hsw ⟨c3.2, c3.1, c.2.1 ▸ c.1, c.2.1.symm⟩
        · rw [if_neg c3, if_neg hnren]
          simp [Rec.event]
    · rw [if_neg c]
      have hnren : ¬ r.renamedTo r2 = true := by
        intro h
        simp [Rec.renamedTo] at h
        exact c ⟨h.1.1.2 ▸ h.1.1.1.2, h.1.1.2.symm, h.1.1.1.1⟩
      rw [if_neg hnren]
      simp [Rec.event]

/-! ### The loop -/

theorem doMark_eq {σ} (S : Sys σ) (path : Str) (st : St σ) :
    (doMark S path st).1 = { st with
      dm := (markSpec S path st.dm st.sys).2.1, sys := (markSpec S path st.dm st.sys).2.2,
      out := st.out ++ (markSpec S path st.dm st.sys).1 } := by
  unfold doMark markSpec
  cases h1 : S.realpath st.sys path with
  | mk a w =>
    cases a with
    | none => simp [St.send, sendMsg, Result.str, Result.code, resultStr]
    | some real =>
      cases h2 : S.isDir w real with
      | mk b w2 =>
        cases b with
        | false => simp [h2, St.send, sendMsg, Result.str, Result.code, resultStr]
        | true =>
          cases h3 : S.addWatch w2 real with
          | mk wd w3 =>
            by_cases h4 : 0 < wd
            · simp [h2, h3, h4, Table.emplace, Table.find]
              cases List.lookup wd st.dm <;> rfl
            · simp [h2, h3, h4, St.send, sendMsg, Result.str, Result.code, resultStr]

theorem markSpec_sound {σ} (S : Sys σ) (hS : SoundSys S) (path : Str) (t : Table) (w : σ) (ht : SoundTable t) :
    SoundTable (markSpec S path t w).2.1 := by
  unfold markSpec
  simp only
  split
  · exact ht
  · rename_i real w1 h1
    have hc := hS w path real (by rw [h1])
    split
    · exact ht
    · split
      · rename_i h4
        simp only
        split
        · intro e he
          rcases List.mem_cons.1 he with rfl | he
          · exact ⟨h4, hc⟩
          · exact ht e he
        · exact ht
      · exact ht

theorem lookup_mem {t : Table} {wd : Int} {d : Str} (h : t.lookup wd = some d) : (wd, d) ∈ t := by
  induction t with
  | nil => simp at h
  | cons e t ih =>
    rw [List.lookup_cons] at h
    split at h
    · rename_i hb
      simp at h hb
      subst h; subst hb; simp
    · exact List.mem_cons_of_mem _ (ih h)

theorem gone_cons (r : Rec) (rs : List Rec) : gone (r :: rs) =
    (if (r.deleteSelf && !r.moveSelf) = true then [r.wd] else []) ++ gone rs := by
  unfold gone
  rw [List.filter_cons]
  split <;> simp

theorem reportable_not_self {r : Rec} (h : r.reportable = true) : r.deleteSelf = false := by
  simp [Rec.reportable] at h; exact h.2.1.2

theorem movedTo_not_self {r : Rec} (h : r.WF) (h2 : r.movedTo = true) : r.deleteSelf = false := by
  cases hx : r.deleteSelf with
  | false => rfl
  | true =>
    have := h.selfOnly (by simp [hx])
    simp [h2] at this

theorem loop_rec {σ} (S : Sys σ) (hS : SoundSys S) : ∀ (n : Nat) (rs : List Rec), rs.length ≤ n →
    ∀ (p mem : List UInt8) (left : Nat) (st : St σ), mem = p ++ batch rs → (∀ x ∈ rs, x.WF) → Ordered rs →
      SoundTable st.dm → rs.length ≤ left → st.rm.length + rs.length ≤ bufLen →
      loop S mem left (offOf p rs) st = .ok ({
        dm := (report S rs st.dm st.sys).2.1, sys := (report S rs st.dm st.sys).2.2,
        rm := st.rm ++ gone rs, out := st.out ++ (report S rs st.dm st.sys).1 }, .pending) := by
  intro n
  induction n with
  | zero =>
    intro rs hn p mem left st _ _ _ _ _ _
    have : rs = [] := List.length_eq_zero_iff.1 (by omega)
    subst this
    simp [offOf, loop, report, gone]
  | succ n ih =>
    intro rs hn p mem left st hm hwf hord ht hl hb
    cases rs with
    | nil => simp [offOf, loop, report, gone]
    | cons r rs =>
      have hr := hwf r (by simp)
      have hrs : ∀ x ∈ rs, x.WF := fun x hx => hwf x (by simp [hx])
      have hord' : Ordered rs := by cases rs with | nil => trivial | cons r2 rest => exact hord.2
      have hm' : mem = p ++ (r.bytes ++ batch rs) := by rw [hm, batch_cons]
      have hmnext : mem = (p ++ r.bytes) ++ batch rs := by rw [hm']; simp [List.append_assoc]
      obtain ⟨left, rfl⟩ : ∃ k, left = k + 1 := ⟨left - 1, by simp at hl; omega⟩
      simp only [List.length_cons] at hl hb hn
      have hlt : p.length < mem.length := by
        have := batch_pos r rs
        rw [hm, List.length_append]; omega
      have hrm : decide (st.rm.length < bufLen) = true := by simp; omega
      have hoff : offOf p (r :: rs) = some p.length := by simp [offOf]
      rw [hoff]
      unfold loop
      rw [if_pos hlt]
      have fw : fWd mem p.length = .ok r.wd := by rw [hm']; exact fWd_rec p _ r hr
      have fm : fMask mem p.length = .ok r.mask := by rw [hm']; exact fMask_rec p _ r
      simp only [peek_rec p r rs hr mem hm', fm, fw, Outcome.bind_ok, hrm, Bool.not_true, Bool.and_false,
        Bool.false_eq_true, if_false, Table.find, parity_eq, real_eq, b_ovf]
      unfold report
      cases hlk : st.dm.lookup r.wd with
      | none =>
        simp only
        rw [ih rs (by omega) (p ++ r.bytes) mem left _ hmnext hrs hord' _ (by omega)]
        · rw [gone_cons]
          split <;> simp [St.send, sendMsg, Result.str, Result.code, resultStr, phantomMsg]
        · split <;> simp [St.send] <;> omega
        · split <;> exact ht
      | some dir =>
        have hin := lookup_mem hlk
        have hs := ht _ hin
        have hnov : r.mask.getLsbD 14 = false := by
          cases hx : r.mask.getLsbD 14 with
          | false => rfl
          | true =>
            have := hr.ovf hx
            have h0 := hs.1
            simp only [this] at h0
            omega
        simp only [hnov, Bool.false_eq_true, if_false]
        by_cases hrep : r.reportable = true
        · have hnself := reportable_not_self hrep
          have hpe := parseEv_rec p r rs dir mem hm' hr hrs hrep hord hs.2
          simp only [hrep, if_true, hpe, Outcome.bind_ok, hnself, Bool.false_and, Bool.false_eq_true,
            if_false, Bool.not_true, b_create, b_isdir]
          -- a single record
          have single : ∀ (st1 : St σ), st1 = (if r.mask.getLsbD 30 && r.mask.getLsbD 8 then
                (doMark S (r.event dir).path st).1 else st) →
              loop S mem left (offOf (p ++ r.bytes) rs) (st1.send (r.event dir)) = .ok ({
                dm := (report S rs (if (r.created && r.onDir) = true then markSpec S (entryPath dir r.name) st.dm st.sys else ([], st.dm, st.sys)).2.1
                  (if (r.created && r.onDir) = true then markSpec S (entryPath dir r.name) st.dm st.sys else ([], st.dm, st.sys)).2.2).2.1,
                sys := (report S rs (if (r.created && r.onDir) = true then markSpec S (entryPath dir r.name) st.dm st.sys else ([], st.dm, st.sys)).2.1
                  (if (r.created && r.onDir) = true then markSpec S (entryPath dir r.name) st.dm st.sys else ([], st.dm, st.sys)).2.2).2.2,
                rm := st.rm ++ gone rs,
                out := st.out ++ ((if (r.created && r.onDir) = true then markSpec S (entryPath dir r.name) st.dm st.sys else ([], st.dm, st.sys)).1 ++
                  r.event dir :: (report S rs (if (r.created && r.onDir) = true then markSpec S (entryPath dir r.name) st.dm st.sys else ([], st.dm, st.sys)).2.1
                  (if (r.created && r.onDir) = true then markSpec S (entryPath dir r.name) st.dm st.sys else ([], st.dm, st.sys)).2.2).1) }, .pending) := by
            intro st1 hst1
            have hc : (r.mask.getLsbD 30 && r.mask.getLsbD 8) = (r.created && r.onDir) := by
              simp [Rec.created, Rec.onDir, Rec.bit, Bool.and_comm]
            rw [hc] at hst1
            by_cases hcd : (r.created && r.onDir) = true
            · simp only [hcd, if_true] at hst1 ⊢
              rw [doMark_eq] at hst1
              subst hst1
              rw [ih rs (by omega) (p ++ r.bytes) mem left _ hmnext hrs hord'
                (markSpec_sound S hS _ _ _ ht) (by omega) (by simp [St.send]; omega)]
              simp [St.send, Rec.event]
            · simp only [hcd, Bool.false_eq_true, if_false] at hst1 ⊢
              subst hst1
              rw [ih rs (by omega) (p ++ r.bytes) mem left (st1.send (r.event dir)) hmnext hrs hord' ht (by omega)
                (by simp [St.send]; omega)]
              simp [St.send]
          have hg : gone (r :: rs) = gone rs := by rw [gone_cons]; simp [hnself]
          rw [hg]
          cases rs with
          | nil => simpa [offOf] using single _ rfl
          | cons r2 rest =>
            by_cases hren : r.renamedTo r2 = true
            · simp only [hren, if_true]
              have hnc : r.created = false := by
                simp only [Rec.renamedTo, Bool.and_eq_true, beq_iff_eq] at hren
                have := hren.1.1.1.1
                unfold Rec.effect at this
                cases hx : r.created with
                | false => rfl
                | true => simp [hx] at this
              have hnc' : r.mask.getLsbD 8 = false := hnc
              simp only [hnc', Bool.and_false, Bool.false_eq_true, if_false]
              have hm2 : mem = (p ++ r.bytes ++ r2.bytes) ++ batch rest := by
                rw [hmnext, batch_cons]; simp [List.append_assoc]
              have hord2 : Ordered rest := by
                cases rest with | nil => trivial | cons r3 rest => exact hord'.2
              simp only [List.length_cons] at hl hb hn
              rw [ih rest (by omega) _ mem left (st.send (pairEvent r r2 dir dir)) hm2 (fun x hx => hrs x (by simp [hx])) hord2 ht (by omega)
                (by simp [St.send]; omega)]
              have h2t : r2.movedTo = true := by
                simp only [Rec.renamedTo, Bool.and_eq_true] at hren; exact hren.2
              rw [gone_cons, movedTo_not_self (hrs r2 (by simp)) h2t]
              simp [St.send]
            · simp only [hren, Bool.false_eq_true, if_false]
              simpa using single _ rfl
        · simp only [hrep, Bool.false_eq_true, if_false, Bool.not_false, if_true]
          rw [ih rs (by omega) (p ++ r.bytes) mem left _ hmnext hrs hord' _ (by omega)]
          · rw [gone_cons]
            split <;> simp
          · split
            · simp; omega
            · omega
          · split <;> exact ht

end Verif.Lemmas.In
