import Verif.Spec.Windows
/-! Lemmas about the Windows back end. -/
namespace Verif.Lemmas.Windows
open Verif Verif.Model Verif.Model.Windows Verif.Spec.Windows

/-! ### From bytes to records -/

theorem rd32_append (pre m : List UInt8) (o : Nat) : rd32 (pre ++ m) (pre.length + o) = rd32 m o := by
  unfold rd32
  have h : ∀ k, (pre ++ m)[pre.length + k]? = m[k]? := fun k => by
    rw [List.getElem?_append_right (by omega)]; congr 1; omega
  have e : ∀ k, pre.length + o + k = pre.length + (o + k) := fun k => by omega
  rw [e 1, e 2, e 3, h, h, h, h]

theorem rdName_append (pre m : List UInt8) : ∀ (n o : Nat), rdName (pre ++ m) (pre.length + o) n = rdName m o n := by
  intro n
  induction n with
  | zero => intro o; rfl
  | succ n ih =>
    intro o
    have h : ∀ k, (pre ++ m)[pre.length + k]? = m[k]? := fun k => by
      rw [List.getElem?_append_right (by omega)]; congr 1; omega
    simp only [rdName]
    have e1 : pre.length + o + 1 = pre.length + (o + 1) := by omega
    have e2 : pre.length + o + 2 = pre.length + (o + 2) := by omega
    rw [e1, e2, h, h, ih]

theorem le32_length (n : Nat) : (le32 n).length = 4 := rfl

theorem le16_length (s : WStr) : (le16 s).length = 2 * s.length := by
  induction s with
  | nil => rfl
  | cons c s ih => simp only [le16, List.length_cons, ih]; omega

theorem rd32_le32 (n : Nat) (h : n < 2 ^ 32) (rest : List UInt8) : rd32 (le32 n ++ rest) 0 = some n := by
  simp only [rd32, le32, List.cons_append, List.nil_append, List.getElem?_cons_zero, List.getElem?_cons_succ]
  simp only [UInt8.toNat_ofNat', Option.some.injEq]
  omega

theorem rdName_le16 (s : WStr) (rest : List UInt8) : rdName (le16 s ++ rest) 0 s.length = some s := by
  induction s with
  | nil => rfl
  | cons c s ih =>
    have h := rdName_append [UInt8.ofNat c.toNat, UInt8.ofNat (c.toNat / 256)] (le16 s ++ rest) s.length 0
    simp only [List.length_cons, le16, List.cons_append, rdName, List.getElem?_cons_zero, List.getElem?_cons_succ,
      Nat.zero_add]
    simp only [List.length_cons, List.length_nil, List.cons_append, List.nil_append, Nat.zero_add] at h
    have h2 : (1 + 1 + 0 : Nat) = 2 := rfl
    rw [h2] at h
    rw [h, ih]
    simp only [Option.some.injEq, List.cons.injEq, and_true]
    apply UInt16.toNat_inj.1
    have := c.toNat_lt
    simp only [UInt16.toNat_ofNat', UInt8.toNat_ofNat']
    omega

/-- The four fields of a record with the bytes `pre` before it. -/
theorem fields (pre : List UInt8) (nx : Nat) (r : Rec) (rest : List UInt8) (hn : nx < 2 ^ 32) (hr : r.Fits) :
    let m := pre ++ (le32 nx ++ le32 r.action ++ le32 (2 * r.name.length) ++ le16 r.name ++ rest)
    rd32 m pre.length = some nx ∧ rd32 m (pre.length + 4) = some r.action ∧
      rd32 m (pre.length + 8) = some (2 * r.name.length) ∧ rdName m (pre.length + 12) r.name.length = some r.name := by
  have hl : 2 * r.name.length < 2 ^ 32 := by
    have := hr.2
    unfold Rec.stride Rec.size at this
    omega
  simp only
  refine ⟨?_, ?_, ?_, ?_⟩
  · have := rd32_append pre (le32 nx ++ le32 r.action ++ le32 (2 * r.name.length) ++ le16 r.name ++ rest) 0
    rw [Nat.add_zero] at this
    rw [this]
    simp only [List.append_assoc]
    exact rd32_le32 nx hn _
  · rw [rd32_append]
    have := rd32_append (le32 nx) (le32 r.action ++ (le32 (2 * r.name.length) ++ (le16 r.name ++ rest))) 0
    simp only [List.append_assoc]
    rw [show (4 : Nat) = (le32 nx).length + 0 from rfl, this]
    exact rd32_le32 _ hr.1 _
  · rw [rd32_append]
    have := rd32_append (le32 nx ++ le32 r.action) (le32 (2 * r.name.length) ++ (le16 r.name ++ rest)) 0
    simp only [List.append_assoc] at this ⊢
    rw [show (8 : Nat) = (le32 nx ++ le32 r.action).length + 0 from rfl, this]
    exact rd32_le32 _ hl _
  · rw [rdName_append]
    have := rdName_append (le32 nx ++ le32 r.action ++ le32 (2 * r.name.length)) (le16 r.name ++ rest) r.name.length 0
    simp only [List.append_assoc] at this ⊢
    rw [show (12 : Nat) = (le32 nx ++ (le32 r.action ++ le32 (2 * r.name.length))).length + 0 from rfl, this]
    exact rdName_le16 _ _

/-- Records one after the other. -/
def handleAll (isDir : WStr → Option Bool) (base : WStr) : Trackers → List Rec → List WEv
  | _, [] => []
  | t, r :: rs => (onRecord isDir base t r.action r.name).2 ++ handleAll isDir base (onRecord isDir base t r.action r.name).1 rs

theorem stride_pos (r : Rec) : r.stride ≠ 0 := by unfold Rec.stride Rec.size; omega

theorem stride_ge (r : Rec) : r.size ≤ r.stride := by unfold Rec.stride; omega

/-- The loop over the bytes is the loop over the records. -/
theorem loop_records (isDir : WStr → Option Bool) (base : WStr) (ready : Nat) (hready : 16 ≤ ready) :
    ∀ (rs : List Rec) (pre rest : List UInt8) (t : Trackers) (out : List WEv) (fuel : Nat), rs ≠ [] →
      (∀ r ∈ rs, r.Fits) → rs.length ≤ fuel →
      sendLoop isDir base (pre ++ (encode rs ++ rest)) ready fuel pre.length t out =
        some (.ok (out ++ handleAll isDir base t rs)) := by
  intro rs
  induction rs with
  | nil => intro _ _ _ _ _ h; exact absurd rfl h
  | cons r rs ih =>
    intro pre rest t out fuel _ hf hfuel
    cases fuel with
    | zero => simp at hfuel
    | succ fuel =>
      have hr := hf r (by simp)
      cases rs with
      | nil =>
        have h := fields pre 0 r rest (by omega) hr
        simp only at h
        rw [sendLoop]
        simp only [encode]
        rw [if_pos hready, h.1, h.2.1, h.2.2.1]
        simp only
        have hd : 2 * r.name.length / 2 = r.name.length := by omega
        rw [if_pos (by omega), hd, h.2.2.2]
        simp [handleAll]
      | cons r' rs =>
        have h := fields pre r.stride r (List.replicate (r.stride - r.size) 0 ++ encode (r' :: rs) ++ rest) hr.2 hr
        simp only at h
        have e : pre ++ (encode (r :: r' :: rs) ++ rest) = pre ++ (le32 r.stride ++ le32 r.action ++ le32 (2 * r.name.length) ++ le16 r.name ++
            (List.replicate (r.stride - r.size) 0 ++ encode (r' :: rs) ++ rest)) := by
          simp only [encode, List.append_assoc]
        rw [e, sendLoop, if_pos hready, h.1, h.2.1, h.2.2.1]
        simp only
        have hd : 2 * r.name.length / 2 = r.name.length := by omega
        rw [if_pos (by omega), hd, h.2.2.2]
        simp only
        rw [if_neg (stride_pos r)]
        have hl : (pre ++ (le32 r.stride ++ le32 r.action ++ le32 (2 * r.name.length) ++ le16 r.name ++
            List.replicate (r.stride - r.size) 0)).length = pre.length + r.stride := by
          have := stride_ge r
          simp only [List.length_append, le32_length, le16_length, List.length_replicate]
          unfold Rec.size at this ⊢
          omega
        have e2 : pre ++ (le32 r.stride ++ le32 r.action ++ le32 (2 * r.name.length) ++ le16 r.name ++
            (List.replicate (r.stride - r.size) 0 ++ encode (r' :: rs) ++ rest)) =
            (pre ++ (le32 r.stride ++ le32 r.action ++ le32 (2 * r.name.length) ++ le16 r.name ++
            List.replicate (r.stride - r.size) 0)) ++ (encode (r' :: rs) ++ rest) := by
          simp only [List.append_assoc]
        rw [e2, ← hl, ih _ _ _ _ _ (by simp) (fun x hx => hf x (by simp [hx])) (by simpa using hfuel)]
        rw [handleAll.eq_def (isDir := isDir) (base := base) t (r :: r' :: rs)]
        simp only [List.append_assoc]

/-! ### Records -/

theorem suffix_one (x : UInt16) (l : WStr) : [x].isSuffixOf l = (l.getLast? == some x) := by
  rw [Bool.eq_iff_iff, List.isSuffixOf_iff_suffix, beq_iff_eq]
  constructor
  · rintro ⟨t, rfl⟩; simp
  · intro h
    obtain ⟨t, rfl⟩ := List.getLast?_eq_some_iff.1 h
    exact ⟨t, rfl⟩

theorem join_place (base name : WStr) : join base name = place base name := by
  unfold join place
  simp only [suffix_one]
  cases h : base.getLast? with
  | none => simp [List.getLast?_eq_none_iff.1 h]
  | some c =>
    have hne : base ≠ [] := by rintro rfl; simp at h
    by_cases h1 : c = 92
    · simp [h1]
    · by_cases h2 : c = 47
      · simp [h2]
      · by_cases h3 : c = 58
        · by_cases h4 : base.length = 2 <;> simp [h1, h2, h3, h4, hne]
        · simp [h1, h2, h3, hne]

theorem path_eq (base : WStr) (r : Rec) : r.path base = join base r.name := (join_place base r.name).symm
theorem pt_eq (isDir : WStr → Option Bool) (base : WStr) (r : Rec) :
    r.pt isDir base = ptypeOf isDir (join base r.name) := by
  unfold Rec.pt; rw [path_eq]; rfl
theorem renameEvent_eq (isDir : WStr → Option Bool) (base : WStr) (a b : Rec) : renameEvent isDir base a b =
    ⟨join base a.name, .rename, ptypeOf isDir (join base a.name), some (join base b.name, ptypeOf isDir (join base b.name))⟩ := by
  unfold renameEvent; rw [path_eq, path_eq, pt_eq, pt_eq]

theorem plain_step (isDir : WStr → Option Bool) (base : WStr) (t : Trackers) (r : Rec) (h : Plain r) :
    onRecord isDir base t r.action r.name = (t, [plainEvent isDir base r]) := by
  obtain ⟨h4, h5⟩ := h
  unfold onRecord
  simp only [if_neg h4, if_neg h5]
  unfold plainEvent
  rw [path_eq, pt_eq]
  unfold plainEffect effectOf
  congr 3
  by_cases h3 : r.action = 3
  · simp [h3]
  · by_cases h1 : r.action = 1
    · simp [h1]
    · by_cases h2 : r.action = 2
      · simp [h2]
      · simp only [if_neg h1, if_neg h2, if_neg h3, if_neg h4, if_neg h5]

theorem plain_all (isDir : WStr → Option Bool) (base : WStr) (t : Trackers) (ps rs : List Rec) (h : ∀ p ∈ ps, Plain p) :
    handleAll isDir base t (ps ++ rs) = ps.map (plainEvent isDir base) ++ handleAll isDir base t rs := by
  induction ps with
  | nil => rfl
  | cons p ps ih =>
    simp only [List.cons_append, handleAll, plain_step isDir base t p (h p (by simp)), List.map_cons]
    rw [ih (fun x hx => h x (by simp [hx]))]
    rfl

theorem reports_handle (isDir : WStr → Option Bool) (base : WStr) {rs : List Rec} {o : List WEv}
    (h : Reports isDir base rs o) : handleAll isDir base {} rs = o := by
  induction h with
  | nil => rfl
  | plain r rs o hp _ ih =>
    simp only [handleAll, plain_step isDir base {} r hp, ih]
    rfl
  | oldNew a b ps rs o ha hb hps _ ih =>
    unfold IsOld at ha
    unfold IsNew at hb
    rw [List.cons_append, handleAll]
    simp only [onRecord, if_pos ha]
    rw [plain_all _ _ _ _ _ hps, handleAll]
    have : ¬ b.action = 4 := by omega
    simp only [onRecord, if_neg this, if_pos hb, ih, renameEvent_eq]
    rfl
  | newOld a b ps rs o ha hb hps _ ih =>
    unfold IsOld at ha
    unfold IsNew at hb
    have : ¬ b.action = 4 := by omega
    rw [List.cons_append, handleAll]
    simp only [onRecord, if_neg this, if_pos hb]
    rw [plain_all _ _ _ _ _ hps, handleAll]
    simp only [onRecord, if_pos ha, ih, renameEvent_eq]
    rfl

/-- Plain records are always reported, in order, whatever the renames around them. -/
theorem plain_always (isDir : WStr → Option Bool) (base : WStr) : ∀ (rs : List Rec) (t : Trackers),
    (handleAll isDir base t rs).filter (fun e => e.effect != .rename) = (rs.filter (fun r => decide (Plain r))).map (plainEvent isDir base) := by
  intro rs
  induction rs with
  | nil => intro t; rfl
  | cons r rs ih =>
    intro t
    rw [handleAll, List.filter_append, ih]
    by_cases hp : Plain r
    · rw [plain_step isDir base t r hp, List.filter_cons_of_pos (p := fun r => decide (Plain r)) (by simp [hp])]
      have : (plainEvent isDir base r).effect ≠ .rename := by
        unfold plainEvent plainEffect
        simp only
        split <;> simp
      simp [this]
    · rw [List.filter_cons_of_neg (p := fun r => decide (Plain r)) (by simp [hp])]
      have h45 : r.action = 4 ∨ r.action = 5 := by
        unfold Plain at hp; omega
      have : ∀ e ∈ (onRecord isDir base t r.action r.name).2, e.effect = .rename := by
        intro e he
        unfold onRecord at he
        rcases h45 with h | h
        · simp only [h, if_true] at he
          cases hn : t.new with
          | none => rw [hn] at he; exact absurd he (by simp)
          | some q => rw [hn] at he; simp only [List.mem_singleton] at he; rw [he]
        · simp only [h] at he
          rw [if_neg (by omega), if_pos trivial] at he
          cases hn : t.old with
          | none => rw [hn] at he; exact absurd he (by simp)
          | some q => rw [hn] at he; simp only [List.mem_singleton] at he; rw [he]
      have h2 : (onRecord isDir base t r.action r.name).2.filter (fun e => e.effect != .rename) = [] := by
        rw [List.filter_eq_nil_iff]
        intro e he
        simp [this e he]
      rw [h2]
      rfl

/-- Paths in the trackers belong to earlier halves of renames. -/
theorem tells_batch (isDir : WStr → Option Bool) (base : WStr) : ∀ (rs : List Rec) (t : Trackers) (known : List WStr),
    (∀ q, t.old.map Prod.fst = some q → q ∈ known) → (∀ q, t.new.map Prod.fst = some q → q ∈ known) →
    ∀ e ∈ handleAll isDir base t rs, ∀ p, Tells e p → p ∈ known ∨ ∃ r ∈ rs, p = r.path base := by
  intro rs
  induction rs with
  | nil => intro t known _ _ e he; exact absurd he (by simp [handleAll])
  | cons r rs ih =>
    intro t known ho hn e he p hp
    rw [handleAll, List.mem_append] at he
    have lift : (p ∈ r.path base :: known ∨ ∃ x ∈ rs, p = x.path base) → (p ∈ known ∨ ∃ x ∈ r :: rs, p = x.path base) := by
      rintro (h | ⟨x, hx, h⟩)
      · rcases List.mem_cons.1 h with h | h
        · exact .inr ⟨r, by simp, h⟩
        · exact .inl h
      · exact .inr ⟨x, by simp [hx], h⟩
    apply lift
    rcases he with he | he
    · left
      by_cases hpl : Plain r
      · rw [plain_step isDir base t r hpl] at he
        simp only [List.mem_singleton] at he
        subst he
        rcases hp with h | ⟨x, h⟩
        · rw [← h]; exact List.mem_cons_self
        · simp [plainEvent] at h
      · have h45 : r.action = 4 ∨ r.action = 5 := by unfold Plain at hpl; omega
        unfold onRecord at he
        rcases h45 with h | h
        · simp only [h, if_true] at he
          cases hnn : t.new with
          | none => rw [hnn] at he; exact absurd he (by simp)
          | some q =>
            rw [hnn] at he
            simp only [List.mem_singleton] at he
            subst he
            rcases hp with h | ⟨x, h⟩
            · simp only at h; rw [← h, ← path_eq]; exact List.mem_cons_self
            · simp only [Option.some.injEq] at h
              refine List.mem_cons_of_mem _ (hn p ?_)
              rw [hnn]; injection h with h _; rw [← h]; rfl
        · simp only [h] at he
          rw [if_neg (by omega), if_pos trivial] at he
          cases hoo : t.old with
          | none => rw [hoo] at he; exact absurd he (by simp)
          | some q =>
            rw [hoo] at he
            simp only [List.mem_singleton] at he
            subst he
            rcases hp with h | ⟨x, h⟩
            · simp only at h
              refine List.mem_cons_of_mem _ (ho p ?_)
              rw [hoo, ← h]; rfl
            · simp only [Option.some.injEq, Prod.mk.injEq] at h
              rw [← h.1, ← path_eq]; exact List.mem_cons_self
    · refine ih _ (r.path base :: known) ?_ ?_ e he p hp
      · intro q hq
        unfold onRecord at hq
        simp only at hq
        split at hq
        · split at hq
          · simp at hq
          · simp only [Option.map_some, Option.some.injEq] at hq; rw [← hq, ← path_eq]; exact List.mem_cons_self
        · split at hq
          · split at hq
            · simp at hq
            · exact List.mem_cons_of_mem _ (ho q hq)
          · exact List.mem_cons_of_mem _ (ho q hq)
      · intro q hq
        unfold onRecord at hq
        simp only at hq
        split at hq
        · split at hq
          · simp at hq
          · exact List.mem_cons_of_mem _ (hn q hq)
        · split at hq
          · split at hq
            · simp at hq
            · simp only [Option.map_some, Option.some.injEq] at hq; rw [← hq, ← path_eq]; exact List.mem_cons_self
          · exact List.mem_cons_of_mem _ (hn q hq)

/-! ### Termination -/

theorem rd32_bound {m : List UInt8} {o n : Nat} (h : rd32 m o = some n) : o + 3 < m.length := by
  unfold rd32 at h
  split at h
  · rename_i hd
    exact (List.getElem?_eq_some_iff.1 hd).1
  · exact absurd h (by simp)

/-- From a reachable record the loop ends, unless a record of odd length is reached. -/
theorem loop_ends (isDir : WStr → Option Bool) (base : WStr) (m : List UInt8) (ready : Nat)
    (even : ∀ o n, Reaches m o → rd32 m (o + 8) = some n → n % 2 = 0) :
    ∀ (k o : Nat) (t : Trackers) (out : List WEv), Reaches m o → m.length < o + k →
      (sendLoop isDir base m ready (k + 1) o t out).isSome = true := by
  intro k
  induction k with
  | zero =>
    intro o t out _ hk
    rw [sendLoop]
    split
    · cases h : rd32 m o with
      | none => simp
      | some n => have := rd32_bound h; omega
    · rfl
  | succ k ih =>
    intro o t out hr hk
    rw [sendLoop]
    split
    · cases h0 : rd32 m o with
      | none => simp
      | some nx =>
        cases h1 : rd32 m (o + 4) with
        | none => simp
        | some ac =>
          cases h2 : rd32 m (o + 8) with
          | none => simp
          | some ln =>
            simp only
            rw [if_pos (even o ln hr h2)]
            split
            · rfl
            · split
              · rfl
              · rename_i hnx
                exact ih _ _ _ (.next o nx hr h0 hnx) (by omega)
    · rfl

/-- A reachable record of odd length stops the loop from ending. -/
theorem loop_stuck (isDir : WStr → Option Bool) (base : WStr) (m : List UInt8) (ready o : Nat) (nx ac ln : Nat)
    (hready : 16 ≤ ready) (h0 : rd32 m o = some nx) (h1 : rd32 m (o + 4) = some ac) (h2 : rd32 m (o + 8) = some ln)
    (hodd : ln % 2 = 1) : ∀ (fuel : Nat) (t : Trackers) (out : List WEv), sendLoop isDir base m ready fuel o t out = none := by
  intro fuel
  induction fuel with
  | zero => intro _ _; rfl
  | succ fuel ih =>
    intro t out
    rw [sendLoop, if_pos hready, h0, h1, h2]
    simp only
    rw [if_neg (by omega)]
    exact ih t out

end Verif.Lemmas.Windows
