import Verif.Lemmas.Fanotify
/-! The loop over a fanotify batch. -/
namespace Verif.Lemmas.Fa
open Verif Verif.Model Verif.Model.Fa Verif.Spec

theorem fbatch_cons (r : FRec) (rs : List FRec) : fbatch (r :: rs) = r.bytes ++ fbatch rs := rfl

theorem rec_ge (r : FRec) : 24 ≤ r.bytes.length := by rw [rec_length]; omega

theorem ends_cons {r : FRec} {rs : List FRec} (h : EndsInRename rs) : EndsInRename (r :: rs) := by
  obtain ⟨l, a, b, rfl, h⟩ := h
  exact ⟨r :: l, a, b, rfl, h⟩

/-- At offset `o` the buffer holds these records, and (if `t`) at least four more bytes if they end in a rename. -/
structure At (t : Bool) (buf : List UInt8) (rs : List FRec) (o : Nat) : Prop where
  wf : ∀ r ∈ rs, r.WF
  size : (fbatch rs).length ≤ 4096
  here : ∃ stale : List UInt8, buf.drop o = fbatch rs ++ stale ∧ (t = true → 4 ≤ stale.length ∨ ¬ EndsInRename rs)

variable {t : Bool} {buf : List UInt8} {o : Nat} {r r2 : FRec} {rs : List FRec}

theorem At.tail (h : At t buf (r :: rs) o) : At t buf rs (o + r.bytes.length) := by
  obtain ⟨hw, hs, stale, h1, h2⟩ := h
  refine ⟨fun x hx => hw x (by simp [hx]), ?_, stale, ?_, fun ht => (h2 ht).imp id (fun h hx => h (ends_cons hx))⟩
  · rw [fbatch_cons, List.length_append] at hs; omega
  · rw [← List.drop_drop, h1, fbatch_cons, List.append_assoc, List.drop_append, List.drop_eq_nil_of_le (by omega)]
    simp

theorem At.bytes (h : At t buf (r :: rs) o) : ∃ l, buf.drop o = r.bytes ++ l := by
  obtain ⟨_, _, stale, h1, _⟩ := h
  exact ⟨fbatch rs ++ stale, by rw [h1, fbatch_cons, List.append_assoc]⟩

theorem At.lt (h : At t buf (r :: rs) o) : r.bytes.length ≤ 4096 := by
  have := h.size
  rw [fbatch_cons, List.length_append] at this; omega

theorem At.len (h : At t buf (r :: rs) o) : fLen buf o = .ok r.bytes.length := by
  obtain ⟨l, hl⟩ := h.bytes
  exact fLen_rec hl (by have := h.lt; omega)

theorem At.ok (h : At t buf rs o) (hn : rs = [] → ∃ stale : List UInt8, buf.drop o = stale ∧ 4 ≤ stale.length) (len : Int) : ∃ b, eventOk buf o len = .ok b := by
  unfold eventOk
  split
  · exact ⟨_, rfl⟩
  · cases rs with
    | cons r rs => rw [h.len]; exact ⟨_, rfl⟩
    | nil =>
      obtain ⟨stale, h1, h2⟩ := hn rfl
      unfold fLen u32
      rw [h1]
      match stale, h2 with
      | a :: b :: c :: d :: _, _ => exact ⟨_, rfl⟩

theorem At.ok_cons (h : At t buf (r :: rs) o) (len : Int) : eventOk buf o len = .ok (decide ((r.bytes.length : Int) ≤ len)) := by
  unfold eventOk
  have := rec_ge r
  split
  · congr 1; symm; rw [decide_eq_false_iff_not]; omega
  · rw [h.len]
    simp only [Outcome.bind_ok, Outcome.pure_eq]
    simp [this]

theorem ok_short (len : Int) (h : len < 24) : eventOk buf o len = .ok false := by
  unfold eventOk; rw [if_pos h]

/-- Looking behind the second half of a rename. -/
theorem At.peek_ok (h : At true buf (r :: r2 :: rs) o) (hft : r.fromTo r2 = true) (len : Int) :
    ∃ b : Bool, peek buf (o + r.bytes.length) len = .ok (if b then some (o + r.bytes.length + r2.bytes.length) else none) := by
  unfold peek
  rw [h.tail.len]
  obtain ⟨b, hb⟩ := h.tail.tail.ok (by
    rintro rfl
    obtain ⟨stale, h1, h2⟩ := h.tail.tail.here
    refine ⟨stale, by simpa [fbatch] using h1, ?_⟩
    obtain ⟨stale', h3, h4⟩ := h.here
    have h5 : stale' = stale := by
      have := congrArg (List.drop (fbatch [r, r2]).length) h3
      rw [List.drop_left, List.drop_drop] at this
      rw [← this, ← List.nil_append stale]
      rw [show ([] : List UInt8) ++ stale = fbatch [] ++ stale from rfl, ← h1]
      congr 1
      simp only [fbatch_cons, List.length_append]
      simp [fbatch]; omega
    rw [← h5]
    rcases h4 rfl with h4 | h4
    · exact h4
    · exact absurd ⟨[], r, r2, rfl, hft⟩ h4) (len - r2.bytes.length)
  simp only [Outcome.bind_ok, hb, Outcome.pure_eq]
  exact ⟨b, rfl⟩

theorem At.peek_cons (h : At t buf (r :: r2 :: rs) o) (len : Int) :
    peek buf o len = .ok (if (r.bytes.length : Int) + r2.bytes.length ≤ len then some (o + r.bytes.length) else none) := by
  unfold peek
  rw [h.len]
  simp only [Outcome.bind_ok, h.tail.ok_cons, Outcome.pure_eq]
  congr 1
  by_cases hx : (r.bytes.length : Int) + r2.bytes.length ≤ len
  · rw [if_pos hx, if_pos (by simp; omega)]
  · rw [if_neg hx, if_neg (by simp; omega)]

theorem At.peek_last (h : At t buf [r] o) (len : Int) (hl : len ≤ r.bytes.length) : peek buf o len = .ok none := by
  unfold peek
  rw [h.len]
  simp only [Outcome.bind_ok]
  rw [ok_short _ (by omega)]
  rfl

theorem At.mask (h : At t buf (r :: rs) o) : fMask buf o = .ok r.mask := by
  obtain ⟨l, hl⟩ := h.bytes
  exact fMask_rec hl

theorem At.path {σ} (S : Fa.Sys σ) (hS : Fa.Sound S) (h : At t buf (r :: rs) o) (hr : r.overflow = false) (ec : Nat) (w : σ) :
    pathof S buf o ec w = .ok (match Fa.resolve S r w with
      | (none, w') => ([], (S.openByHandle w r.handle).1.2, w')
      | (some p, w') => (p, ec, w')) := by
  obtain ⟨l, hl⟩ := h.bytes
  exact pathof_rec S hS hl hr (h.wf r (by simp)) (by have := h.lt; omega) ec w

theorem At.path_ok {σ} (S : Fa.Sys σ) (hS : Fa.Sound S) (h : At t buf (r :: rs) o) (hr : r.overflow = false) (ec : Nat) (w : σ) :
    ∃ x, pathof S buf o ec w = .ok x := ⟨_, h.path S hS hr ec w⟩

theorem fromTo_not_ovf (hw : r2.WF) (h : r.fromTo r2 = true) : r2.overflow = false := by
  cases hx : r2.overflow with
  | false => rfl
  | true =>
    have := (hw.ovf hx).2
    simp only [FRec.fromTo, Bool.and_eq_true] at h
    rw [this] at h; cases h.2

theorem toFrom_not_ovf (hw : r2.WF) (h : r.toFrom r2 = true) : r2.overflow = false := by
  cases hx : r2.overflow with
  | false => rfl
  | true =>
    have := (hw.ovf hx).1
    simp only [FRec.toFrom, Bool.and_eq_true] at h
    rw [this] at h; cases h.2

/-- A step forward: nothing more to do, or again at the beginning of records. -/
def Forward (buf : List UInt8) (next : Option Nat) (len : Int) : Prop :=
  next = none ∨ ∃ rs o, next = some o ∧ At true buf rs o ∧ len ≤ (fbatch rs).length

/-- `parse_ev` is defined on every record. -/
theorem parseEv_safe {σ} (S : Fa.Sys σ) (hS : Fa.Sound S) (h : At true buf (r :: rs) o) (hr : r.overflow = false) (len : Int)
    (hlen : len ≤ (fbatch (r :: rs)).length) (ec : Nat) (w : σ) :
    ∃ p ec' w', parseEv S buf o len ec w = .ok (p, ec', w') ∧ 24 ≤ p.len ∧ Forward buf p.next (len - p.len) := by
  have hge := rec_ge r
  have one : ∀ n : Option Nat, (n = none ∨ n = some (o + r.bytes.length)) →
      ∃ p ec' w', parseOne S buf o (effectOf r.mask) (ptypeOf r.mask) n ec w = .ok (p, ec', w') ∧ 24 ≤ p.len ∧
        Forward buf p.next (len - p.len) := by
    intro n hn
    obtain ⟨⟨x, ec', w'⟩, hx⟩ := h.path_ok S hS hr ec w
    refine ⟨⟨⟨x, effectOf r.mask, ptypeOf r.mask, none⟩, n, r.bytes.length⟩, ec', w', ?_, hge, ?_⟩
    · unfold parseOne; rw [hx]; simp only [Outcome.bind_ok, h.len, Outcome.pure_eq]
    rcases hn with rfl | rfl
    · exact .inl rfl
    · refine .inr ⟨rs, _, rfl, h.tail, ?_⟩
      rw [fbatch_cons, List.length_append] at hlen
      simp only; omega
  have two : ∀ (a b : Nat) (la lb : Nat) (nn : Option Nat), (∀ ec w, ∃ x, pathof S buf a ec w = .ok x) →
      (∀ ec w, ∃ x, pathof S buf b ec w = .ok x) → fLen buf a = .ok la → fLen buf b = .ok lb → 24 ≤ la →
      peek buf b len = .ok nn → Forward buf nn (len - (la + lb : Nat)) →
      ∃ p ec' w', parseAssoc S buf a b (effectOf r.mask) (ptypeOf r.mask) len ec w = .ok (p, ec', w') ∧ 24 ≤ p.len ∧
        Forward buf p.next (len - p.len) := by
    intro a b la lb nn ha hb hla hlb hge hnn hfw
    unfold parseAssoc pathof2
    rw [hnn, hla, hlb]
    simp only [Outcome.bind_ok]
    split
    · obtain ⟨⟨x, ec1, w1⟩, hx⟩ := hb ec w
      obtain ⟨⟨y, ec2, w2⟩, hy⟩ := ha ec1 w1
      simp only [hx, hy, Outcome.bind_ok, Outcome.pure_eq]
      exact ⟨_, _, _, rfl, by simp only; omega, hfw⟩
    · obtain ⟨⟨x, ec1, w1⟩, hx⟩ := ha ec w
      obtain ⟨⟨y, ec2, w2⟩, hy⟩ := hb ec1 w1
      simp only [hx, hy, Outcome.bind_ok, Outcome.pure_eq]
      exact ⟨_, _, _, rfl, by simp only; omega, hfw⟩
  unfold parseEv
  rw [h.mask]
  cases rs with
  | nil =>
    have hl : len ≤ r.bytes.length := by simpa [fbatch] using hlen
    rw [h.peek_last len hl]
    simp only [Outcome.bind_ok]
    exact one none (.inl rfl)
  | cons r2 rest =>
    rw [h.peek_cons]
    simp only [Outcome.bind_ok]
    by_cases hx : (r.bytes.length : Int) + r2.bytes.length ≤ len
    · rw [if_pos hx]
      simp only [h.tail.mask, Outcome.bind_ok]
      rw [fromTo_eq]
      split
      · rename_i hft
        have hr2 := fromTo_not_ovf (h.wf r2 (by simp)) hft
        obtain ⟨b, hb⟩ := h.peek_ok hft len
        refine two o (o + r.bytes.length) _ _ _ (h.path_ok S hS hr) (h.tail.path_ok S hS hr2) h.len h.tail.len hge hb ?_
        split
        · refine .inr ⟨rest, _, rfl, h.tail.tail, ?_⟩
          simp only [fbatch_cons, List.length_append] at hlen
          omega
        · exact .inl rfl
      · rw [toFrom_eq]
        split
        · rename_i htf
          have hr2 := toFrom_not_ovf (h.wf r2 (by simp)) htf
          refine two (o + r.bytes.length) o _ _ _ (h.tail.path_ok S hS hr2) (h.path_ok S hS hr) h.tail.len h.len (rec_ge r2)
            (h.peek_cons len) ?_
          rw [if_pos hx]
          refine .inr ⟨r2 :: rest, _, rfl, h.tail, ?_⟩
          simp only [fbatch_cons, List.length_append] at hlen ⊢
          omega
        · exact one _ (.inr rfl)
    · rw [if_neg hx]
      exact one none (.inl rfl)

theorem mark_buf {σ} (S : Fa.Sys σ) (p : Str) (st : Fa.St σ) : (Fa.doMark S p st).1.buf = st.buf := by
  unfold Fa.doMark
  repeat' split
  all_goals rfl

theorem markIf_buf {σ} (S : Fa.Sys σ) (e : Ev) (st : Fa.St σ) : (doMarkIfNewdir S e st).buf = st.buf := by
  unfold doMarkIfNewdir
  split
  · exact mark_buf _ _ _
  · rfl

/-- No batch runs into undefined behaviour or the internal limit. -/
theorem loop_safe {σ} (S : Fa.Sys σ) (hS : Fa.Sound S) : ∀ (left : Nat) (next : Option Nat) (len : Int) (st : Fa.St σ),
    Forward st.buf next len → len < 24 * left →
    ∃ st' res, loop S left next len st = .ok (st', res) ∧ res ≠ .eRet ∧ res.keepsRunning = true := by
  intro left
  induction left with
  | zero =>
    intro next len st hf hl
    rcases hf with rfl | ⟨rs, o, rfl, hat, hle⟩
    · exact ⟨st, .pending, by rw [loop], by decide, by decide⟩
    · refine ⟨st, .pending, ?_, by decide, by decide⟩
      rw [loop, ok_short _ (by omega)]
      rfl
  | succ left ih =>
    intro next len st hf hl
    rcases hf with rfl | ⟨rs, o, rfl, hat, hle⟩
    · exact ⟨st, .pending, by rw [loop], by decide, by decide⟩
    · cases rs with
      | nil =>
        refine ⟨st, .pending, ?_, by decide, by decide⟩
        rw [loop, ok_short _ (by simp [fbatch] at hle; omega)]
        rfl
      | cons r rs =>
        rw [loop, hat.ok_cons]
        simp only [Outcome.bind_ok]
        by_cases hx : (r.bytes.length : Int) ≤ len
        · obtain ⟨l, hb⟩ := hat.bytes
          simp only [hx, decide_true, Bool.not_true, Bool.false_eq_true, if_false, fVers_rec hb, Outcome.bind_ok, ne_eq,
            not_true_eq_false, fFd_rec hb, fMask_rec hb, ovf_eq]
          by_cases hr : r.overflow = true
          · simp only [hr, if_true]
            exact ⟨_, _, rfl, by decide, by decide⟩
          · simp only [Bool.not_eq_true] at hr
            simp only [hr, Bool.false_eq_true, if_false, fInfoType_rec hb hr, Outcome.bind_ok, not_true_eq_false]
            obtain ⟨p, ec, w, hp, h24, hfw⟩ := parseEv_safe S hS hat hr len hle 0 st.sys
            rw [hp]
            simp only [Outcome.bind_ok]
            split
            · exact ⟨_, _, rfl, by decide, by decide⟩
            · refine ih _ _ _ ?_ (by omega)
              simp only [St.send, markIf_buf]
              exact hfw
        · simp only [hx, decide_false, Bool.not_false, if_true]
          exact ⟨_, _, rfl, by decide, by decide⟩

end Verif.Lemmas.Fa
