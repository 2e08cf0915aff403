import Verif.Lemmas.Fanotify2
/-! What a fanotify batch is reported as. -/
namespace Verif.Lemmas.Fa
open Verif Verif.Model Verif.Model.Fa Verif.Spec

variable {buf : List UInt8} {o : Nat} {r r2 : FRec} {rs rest : List FRec} {σ : Type}

/-- The record is not the first half of a pair. -/
def FAlone (r : FRec) (rest : List FRec) : Prop := ∀ r2 rest2, rest = r2 :: rest2 → r.fromTo r2 = false

theorem falone_or (r : FRec) (rest : List FRec) : FAlone r rest ∨ ∃ r2 rest2, rest = r2 :: rest2 ∧ r.fromTo r2 = true := by
  cases rest with
  | nil => left; intro _ _ h; cases h
  | cons r2 rest2 =>
    cases h : r.fromTo r2 with
    | true => right; exact ⟨r2, rest2, rfl, h⟩
    | false => left; intro a b h2; injection h2 with h3 h4; subst h3; exact h

theorem run_nil (S : Fa.Sys σ) (w : σ) : Fa.run S [] w = ([], w, .pending) := by rw [Fa.run]

theorem run_ovf (S : Fa.Sys σ) (w : σ) (h : r.overflow = true) : Fa.run S (r :: rest) w = ([], w, .wQOverflow) := by
  rw [Fa.run, if_pos h]

theorem run_single (S : Fa.Sys σ) (w : σ) (h : r.overflow = false) (ha : FAlone r rest) :
    Fa.run S (r :: rest) w = (match Fa.resolve S r w with
      | (none, w) => ([], w, .wBadFd)
      | (some p, w) =>
        let m := if r.created && r.onDir then Fa.markSpec S p w else ([], w)
        let k := Fa.run S rest m.2
        (m.1 ++ (⟨p, r.effect, r.ptype, none⟩, m.2) :: k.1, k.2)) := by
  cases rest with
  | nil =>
    rw [Fa.run, if_neg (by simp [h])]
    rfl
  | cons r2 rest2 =>
    rw [Fa.run, if_neg (by simp [h])]
    simp only [ha r2 rest2 rfl, Bool.false_eq_true, if_false]
    rfl

theorem run_pair (S : Fa.Sys σ) (w : σ) (h : r.overflow = false) (ha : r.fromTo r2 = true) :
    Fa.run S (r :: r2 :: rest) w = (match Fa.resolve2 S r r2 w with
      | (none, w) => ([], w, .wBadFd)
      | (some (p, q), w) =>
        let k := Fa.run S rest w
        ((⟨p, .rename, r.ptype, some ⟨q, .rename, r.ptype⟩⟩, w) :: k.1, k.2)) := by
  rw [Fa.run, if_neg (by simp [h])]
  simp only [ha, if_true]
  rfl

theorem markIf_eq (S : Fa.Sys σ) (r : FRec) (p : Str) (st : Fa.St σ) :
    doMarkIfNewdir S ⟨p, r.effect, r.ptype, none⟩ st =
      { st with
        sys := (if r.created && r.onDir then Fa.markSpec S p st.sys else ([], st.sys)).2
        out := st.out ++ (if r.created && r.onDir then Fa.markSpec S p st.sys else ([], st.sys)).1 } := by
  have hc : (r.effect = .create ∧ r.ptype = .dir) ↔ (r.created && r.onDir) = true := by
    unfold FRec.effect FRec.ptype
    cases r.created <;> cases r.onDir <;> simp
    all_goals (repeat' split) <;> simp
  unfold doMarkIfNewdir
  by_cases h : (r.created && r.onDir) = true
  · rw [if_pos (hc.2 h)]
    simp only [h, if_true]
    unfold doMark Fa.markSpec
    cases h1 : S.realpath st.sys p with
    | mk a w1 =>
      cases a with
      | none => rfl
      | some real =>
        simp only
        cases h2 : S.isDir w1 real with
        | mk b w2 =>
          cases b with
          | false => rfl
          | true =>
            simp only
            cases h3 : S.mark w2 real with
            | mk c w3 =>
              cases c with
              | false => rfl
              | true => simp
  · rw [if_neg (fun hx => h (hc.1 hx))]
    simp [h]

/-- The two paths of a pair. -/
theorem pathof2_eq (S : Fa.Sys σ) (hS : Fa.Sound S) (h : At true buf (r :: r2 :: rs) o) (hr : r.overflow = false)
    (hr2 : r2.overflow = false) (w : σ) :
    ∃ pa pb ec, pathof2 S buf o (o + r.bytes.length) 0 w = .ok (pa, pb, ec, (Fa.resolve2 S r r2 w).2) ∧
      ((Fa.resolve2 S r r2 w).1 = none → ec ≠ 0) ∧
      (∀ p q, (Fa.resolve2 S r r2 w).1 = some (p, q) → ec = 0 ∧ pa = p ∧ pb = q) := by
  unfold pathof2 Fa.resolve2
  split
  · rw [h.tail.path S hS hr2 0 w]
    cases h1 : Fa.resolve S r2 w with
    | mk b w1 =>
      cases b with
      | none =>
        have hb := resolve_none S hS w (r := r2) (by rw [h1])
        simp only [Outcome.bind_ok]
        rw [h.path S hS hr _ w1]
        cases h2 : Fa.resolve S r w1 with
        | mk a w2 =>
          cases a with
          | none =>
            have ha := resolve_none S hS w1 (r := r) (by rw [h2])
            simp only [Outcome.bind_ok, Outcome.pure_eq]
            exact ⟨_, _, _, rfl, fun _ => ha, fun p q hx => by cases hx⟩
          | some a =>
            simp only [Outcome.bind_ok, Outcome.pure_eq]
            exact ⟨_, _, _, rfl, fun _ => hb, fun p q hx => by cases hx⟩
      | some b =>
        simp only [Outcome.bind_ok]
        rw [h.path S hS hr _ w1]
        cases h2 : Fa.resolve S r w1 with
        | mk a w2 =>
          cases a with
          | none =>
            have ha := resolve_none S hS w1 (r := r) (by rw [h2])
            simp only [Outcome.bind_ok, Outcome.pure_eq]
            exact ⟨_, _, _, rfl, fun _ => ha, fun p q hx => by cases hx⟩
          | some a =>
            simp only [Outcome.bind_ok, Outcome.pure_eq]
            refine ⟨_, _, _, rfl, fun hx => (by cases hx), fun p q hx => ?_⟩
            simp only [Option.bind_some, Option.map_some, Option.some.injEq, Prod.mk.injEq] at hx
            exact ⟨rfl, hx.1, hx.2⟩
  · rw [h.path S hS hr 0 w]
    cases h1 : Fa.resolve S r w with
    | mk a w1 =>
      cases a with
      | none =>
        have ha := resolve_none S hS w (r := r) (by rw [h1])
        simp only [Outcome.bind_ok]
        rw [h.tail.path S hS hr2 _ w1]
        cases h2 : Fa.resolve S r2 w1 with
        | mk b w2 =>
          cases b with
          | none =>
            have hb := resolve_none S hS w1 (r := r2) (by rw [h2])
            simp only [Outcome.bind_ok, Outcome.pure_eq]
            exact ⟨_, _, _, rfl, fun _ => hb, fun p q hx => by cases hx⟩
          | some b =>
            simp only [Outcome.bind_ok, Outcome.pure_eq]
            exact ⟨_, _, _, rfl, fun _ => ha, fun p q hx => by cases hx⟩
      | some a =>
        simp only [Outcome.bind_ok]
        rw [h.tail.path S hS hr2 _ w1]
        cases h2 : Fa.resolve S r2 w1 with
        | mk b w2 =>
          cases b with
          | none =>
            have hb := resolve_none S hS w1 (r := r2) (by rw [h2])
            simp only [Outcome.bind_ok, Outcome.pure_eq]
            exact ⟨_, _, _, rfl, fun _ => hb, fun p q hx => by cases hx⟩
          | some b =>
            simp only [Outcome.bind_ok, Outcome.pure_eq]
            refine ⟨_, _, _, rfl, fun hx => (by cases hx), fun p q hx => ?_⟩
            simp only [Option.bind_some, Option.map_some, Option.some.injEq, Prod.mk.injEq] at hx
            exact ⟨rfl, hx.1, hx.2⟩

/-- The event of a single record. -/
theorem parseEv_single (S : Fa.Sys σ) (hS : Fa.Sound S) (h : At true buf (r :: rest) o) (hr : r.overflow = false)
    (ha : FAlone r rest) (hsw : NoSwap (r :: rest)) (w : σ) :
    parseEv S buf o (fbatch (r :: rest)).length 0 w = .ok (match Fa.resolve S r w with
      | (none, w') => (⟨⟨[], r.effect, r.ptype, none⟩, if rest = [] then none else some (o + r.bytes.length), r.bytes.length⟩,
          (S.openByHandle w r.handle).1.2, w')
      | (some p, w') => (⟨⟨p, r.effect, r.ptype, none⟩, if rest = [] then none else some (o + r.bytes.length), r.bytes.length⟩, 0, w')) := by
  have one : ∀ n : Option Nat, parseOne S buf o (effectOf r.mask) (ptypeOf r.mask) n 0 w = .ok (match Fa.resolve S r w with
      | (none, w') => (⟨⟨[], r.effect, r.ptype, none⟩, n, r.bytes.length⟩, (S.openByHandle w r.handle).1.2, w')
      | (some p, w') => (⟨⟨p, r.effect, r.ptype, none⟩, n, r.bytes.length⟩, 0, w')) := by
    intro n
    unfold parseOne
    rw [h.path S hS hr 0 w, effect_eq, ptype_eq]
    cases Fa.resolve S r w with
    | mk a w' => cases a <;> simp [h.len]
  unfold parseEv
  rw [h.mask]
  cases rest with
  | nil =>
    rw [h.peek_last _ (by simp [fbatch])]
    simp only [Outcome.bind_ok]
    rw [one none]
    simp
  | cons r2 rest2 =>
    have h0 := ha r2 rest2 rfl
    have h1 : r.toFrom r2 = false := by
      cases hx : r.toFrom r2 with
      | false => rfl
      | true => have := hsw.1 hx; rw [h0] at this; cases this
    rw [h.peek_cons]
    have hx : (r.bytes.length : Int) + r2.bytes.length ≤ (fbatch (r :: r2 :: rest2)).length := by
      simp only [fbatch_cons, List.length_append]; omega
    rw [if_pos hx]
    simp only [Outcome.bind_ok, h.tail.mask]
    rw [fromTo_eq, toFrom_eq, h0, h1]
    simp only [Bool.false_eq_true, if_false]
    rw [one]
    simp

/-- The event of a pair. -/
theorem parseEv_pair (S : Fa.Sys σ) (hS : Fa.Sound S) (h : At true buf (r :: r2 :: rest) o) (hr : r.overflow = false)
    (ha : r.fromTo r2 = true) (w : σ) :
    ∃ (b : Bool) (pa pb : Str) (ec : Nat), parseEv S buf o (fbatch (r :: r2 :: rest)).length 0 w =
      .ok (⟨⟨pa, .rename, r.ptype, some ⟨pb, .rename, r.ptype⟩⟩,
        if b then some (o + r.bytes.length + r2.bytes.length) else none, r.bytes.length + r2.bytes.length⟩, ec, (Fa.resolve2 S r r2 w).2) ∧
      (rest ≠ [] → b = true) ∧
      ((Fa.resolve2 S r r2 w).1 = none → ec ≠ 0) ∧
      (∀ p q, (Fa.resolve2 S r r2 w).1 = some (p, q) → ec = 0 ∧ pa = p ∧ pb = q) := by
  have hr2 := fromTo_not_ovf (h.wf r2 (by simp)) ha
  obtain ⟨pa, pb, ec, h1, h2, h3⟩ := pathof2_eq S hS h hr hr2 w
  obtain ⟨b, hb⟩ := h.peek_ok ha (fbatch (r :: r2 :: rest)).length
  refine ⟨b, pa, pb, ec, ?_, ?_, h2, h3⟩
  · unfold parseEv
    rw [h.mask, h.peek_cons]
    have hx : (r.bytes.length : Int) + r2.bytes.length ≤ (fbatch (r :: r2 :: rest)).length := by
      simp only [fbatch_cons, List.length_append]; omega
    rw [if_pos hx]
    simp only [Outcome.bind_ok, h.tail.mask]
    rw [fromTo_eq, ha]
    simp only [if_true]
    unfold parseAssoc
    have he : r.effect = .rename := by
      simp only [FRec.fromTo, Bool.and_eq_true, beq_iff_eq] at ha; exact ha.1.1
    rw [hb, h.len, h.tail.len, h1, effect_eq, ptype_eq, he]
    simp
  · intro hne
    cases rest with
    | nil => exact absurd rfl hne
    | cons r3 rest3 =>
      rw [h.tail.peek_cons] at hb
      have hge := rec_ge r
      rw [if_pos (by simp only [fbatch_cons, List.length_append]; omega)] at hb
      cases b with
      | true => rfl
      | false => cases hb

/-- The whole batch. -/
theorem loop_run (S : Fa.Sys σ) (hS : Fa.Sound S) : ∀ (n : Nat) (rs : List FRec), rs.length ≤ n → ∀ (left o : Nat)
    (next : Option Nat) (st : Fa.St σ), (next = some o ∨ next = none ∧ rs = []) → At true st.buf rs o → NoSwap rs →
    (fbatch rs).length < 24 * left →
    loop S left next (fbatch rs).length st =
      .ok ({ st with sys := (Fa.run S rs st.sys).2.1, out := st.out ++ (Fa.run S rs st.sys).1 }, (Fa.run S rs st.sys).2.2) := by
  intro n
  induction n with
  | zero =>
    intro rs hn left o next st hnx hat _ _
    rw [List.length_eq_zero_iff.1 (by omega : rs.length = 0)] at hnx ⊢
    rw [run_nil]
    rcases hnx with rfl | ⟨rfl, _⟩
    · rw [loop.eq_def]
      simp only [ok_short (buf := st.buf) (o := o) ((fbatch []).length : Int) (by simp [fbatch])]
      simp
    · rw [loop.eq_def]; simp
  | succ n ih =>
    intro rs hn left o next st hnx hat hsw hlt
    cases rs with
    | nil =>
      rw [run_nil]
      rcases hnx with rfl | ⟨rfl, _⟩
      · rw [loop.eq_def]
        simp only [ok_short (buf := st.buf) (o := o) ((fbatch []).length : Int) (by simp [fbatch])]
        simp
      · rw [loop.eq_def]; simp
    | cons r rest =>
      have hnx : next = some o := by
        rcases hnx with h | ⟨_, h⟩
        · exact h
        · cases h
      subst hnx
      have hge := rec_ge r
      have hsum : (fbatch (r :: rest)).length = r.bytes.length + (fbatch rest).length := by
        rw [fbatch_cons, List.length_append]
      obtain ⟨left, rfl⟩ : ∃ k, left = k + 1 := ⟨left - 1, by omega⟩
      rw [loop, hat.ok_cons]
      obtain ⟨l, hb⟩ := hat.bytes
      have hx : (r.bytes.length : Int) ≤ (fbatch (r :: rest)).length := by omega
      simp only [Outcome.bind_ok, hx, decide_true, Bool.not_true, Bool.false_eq_true, if_false, fVers_rec hb, ne_eq,
        not_true_eq_false, fFd_rec hb, fMask_rec hb, ovf_eq]
      by_cases hr : r.overflow = true
      · rw [run_ovf S st.sys hr]
        simp [hr]
      · simp only [Bool.not_eq_true] at hr
        simp only [hr, Bool.false_eq_true, if_false, fInfoType_rec hb hr, Outcome.bind_ok, not_true_eq_false]
        simp only [List.length_cons] at hn
        rcases falone_or r rest with ha | ⟨r2, rest2, rfl, ha⟩
        · rw [parseEv_single S hS hat hr ha hsw, run_single S st.sys hr ha]
          cases h1 : Fa.resolve S r st.sys with
          | mk a w1 =>
            cases a with
            | none =>
              have hec := resolve_none S hS st.sys (r := r) (by rw [h1])
              simp [hec]
            | some p =>
              simp only [Outcome.bind_ok, not_true_eq_false, if_false]
              rw [markIf_eq S r p { st with sys := w1 }]
              have hsw' : NoSwap rest := by
                cases rest with
                | nil => trivial
                | cons _ _ => exact hsw.2
              have hlen : ((fbatch (r :: rest)).length : Int) - (r.bytes.length : Nat) = (fbatch rest).length := by omega
              rw [hlen]
              rw [ih rest (by omega) left (o + r.bytes.length) _ _
                (by
                  by_cases hre : rest = []
                  · right; simp [hre]
                  · left; simp [hre])
                (by exact hat.tail) hsw' (by omega)]
              simp [St.send]
        · obtain ⟨b, pa, pb, ec, h1, h2, h3, h4⟩ := parseEv_pair S hS hat hr ha st.sys
          rw [h1, run_pair S st.sys hr ha]
          cases h5 : Fa.resolve2 S r r2 st.sys with
          | mk a w1 =>
            rw [h5] at h3 h4
            cases a with
            | none =>
              have hec := h3 rfl
              simp [hec]
            | some pq =>
              obtain ⟨p, q⟩ := pq
              obtain ⟨rfl, rfl, rfl⟩ := h4 p q rfl
              simp only [Outcome.bind_ok, not_true_eq_false, if_false]
              have hm : doMarkIfNewdir S ⟨pa, .rename, r.ptype, some ⟨pb, .rename, r.ptype⟩⟩ { st with sys := w1 } = { st with sys := w1 } := by
                unfold doMarkIfNewdir; rw [if_neg (by simp)]
              rw [hm]
              have hsw' : NoSwap rest2 := by
                have := hsw.2
                cases rest2 with
                | nil => trivial
                | cons _ _ => exact this.2
              have hsum2 : (fbatch (r :: r2 :: rest2)).length = r.bytes.length + (r2.bytes.length + (fbatch rest2).length) := by
                simp only [fbatch_cons, List.length_append]
              have hlen : ((fbatch (r :: r2 :: rest2)).length : Int) - (r.bytes.length + r2.bytes.length : Nat) = (fbatch rest2).length := by omega
              rw [hlen]
              simp only [List.length_cons] at hn
              rw [ih rest2 (by omega) left (o + r.bytes.length + r2.bytes.length) _ _
                (by
                  cases b with
                  | true => left; rfl
                  | false =>
                    right; refine ⟨rfl, ?_⟩
                    cases rest2 with
                    | nil => rfl
                    | cons _ _ => exact absurd (h2 (by simp)) (by simp))
                (by exact hat.tail.tail) hsw' (by omega)]
              simp [St.send]

end Verif.Lemmas.Fa
