import Verif.Spec.FExact
import Verif.Lemmas.Fanotify3
/-! The loop over any fanotify batch. -/
namespace Verif.Lemmas.Fa
open Verif Verif.Model Verif.Model.Fa Verif.Spec

variable {σ : Type} {buf : List UInt8} {o : Nat} {r r2 : FRec} {rs rest : List FRec} {t full : Bool}

/-- Cutting a directory and what is put behind it. -/
theorem cut_path (d x : Str) (n : Nat) : d.take n ++ x.take (n - (d.take n).length) = (d ++ x).take n := by
  rw [List.take_append, List.length_take]
  congr 2
  omega

/-- What `pathof` answers for a place. -/
def answer (errno ec : Nat) : Fa.Place × σ → Outcome (Str × Nat × σ)
  | (.at p, w) => .ok (p, ec, w)
  | (.gone, w) => .ok ([], errno, w)
  | (.nameless, _) => .ub "path_buf[-1] is written"

theorem At.ask (S : Fa.Sys σ) (h : At t buf (r :: rs) o) (hr : r.overflow = false) (ec : Nat) (w : σ) :
    pathof S buf o ec w = answer (S.openByHandle w r.handle).1.2 ec (Fa.ask S r w) := by
  obtain ⟨l, hl⟩ := h.bytes
  have hw := h.wf r (by simp)
  unfold pathof Fa.ask
  rw [fHandleBytes_rec hl hr hw (by have := h.lt; omega)]
  simp only [Outcome.bind_ok, handle_rec hl hr hw, name_rec hl hr hw]
  by_cases hfd : (S.openByHandle w r.handle).1.1 ≤ 0
  · simp [hfd, answer]
  · simp only [hfd, if_false]
    cases hx : S.readlink (S.openByHandle w r.handle).2 (S.openByHandle w r.handle).1.1 with
    | mk a w2 =>
      cases a with
      | none => rfl
      | some d =>
        simp only [answer]
        cases d with
        | nil => simp
        | cons c d =>
          have hpos : 0 < (List.take (pathMax - 1) (c :: d)).length := by simp [pathMax]
          simp only [hpos, if_true, reduceCtorEq, if_false, Outcome.bind_ok]
          by_cases hdot : r.name = b!"."
          · simp [hdot, pathMax]
          · simp only [ne_eq, hdot, not_false_eq_true, if_true, if_false, Outcome.pure_eq]
            have := cut_path (c :: d) (b!"/" ++ r.name) 4095
            rw [← List.append_assoc] at this
            rw [← this]
            simp only [pathMax, Nat.reduceSub]
            rw [show 4096 - (List.take 4095 (c :: d)).length - 1 = 4095 - (List.take 4095 (c :: d)).length from by omega]

/-- What the two calls answer. -/
theorem ask2_eq (S : Fa.Sys σ) (hS : Fa.SaysWhy S) {a b : Nat} {x y : FRec} {rsx rsy : List FRec} (hx : At t buf (x :: rsx) a) (hy : At t buf (y :: rsy) b)
    (hox : x.overflow = false) (hoy : y.overflow = false) (w : σ) :
    match Fa.ask2 S x y w with
    | (.nameless, _) => ∃ m, pathof2 S buf a b 0 w = .ub m
    | (.gone, w') => ∃ pa pb ec, pathof2 S buf a b 0 w = .ok (pa, pb, ec, w') ∧ ec ≠ 0
    | (.at p q, w') => pathof2 S buf a b 0 w = .ok (p, q, 0, w') := by
  have gone : ∀ (z : FRec) (w w' : σ), Fa.ask S z w = (.gone, w') → (S.openByHandle w z.handle).1.2 ≠ 0 := by
    intro z w w' h
    apply hS
    unfold Fa.ask at h
    by_cases hfd : (S.openByHandle w z.handle).1.1 ≤ 0
    · exact hfd
    · simp only [hfd, if_false] at h
      split at h <;> simp at h
  unfold pathof2 Fa.ask2
  cases hrf : S.rightFirst with
  | true =>
    simp only [if_true]
    rw [hy.ask S hoy 0 w]
    cases h1 : Fa.ask S y w with
    | mk q w1 =>
      cases q with
      | nameless =>
        simp only [answer, Outcome.bind_ub]
        cases h2 : Fa.ask S x w1 with
        | mk p w2 => cases p <;> exact ⟨_, rfl⟩
      | gone =>
        have e1 := gone y w w1 h1
        simp only [answer, Outcome.bind_ok]
        rw [hx.ask S hox _ w1]
        cases h2 : Fa.ask S x w1 with
        | mk p w2 =>
          cases p with
          | nameless => exact ⟨_, rfl⟩
          | gone => exact ⟨_, _, _, rfl, gone x w1 w2 h2⟩
          | «at» p => exact ⟨_, _, _, rfl, e1⟩
      | «at» q =>
        simp only [answer, Outcome.bind_ok]
        rw [hx.ask S hox _ w1]
        cases h2 : Fa.ask S x w1 with
        | mk p w2 =>
          cases p with
          | nameless => exact ⟨_, rfl⟩
          | gone => exact ⟨_, _, _, rfl, gone x w1 w2 h2⟩
          | «at» p => rfl
  | false =>
    simp only [Bool.false_eq_true, if_false]
    rw [hx.ask S hox 0 w]
    cases h1 : Fa.ask S x w with
    | mk q w1 =>
      cases q with
      | nameless =>
        simp only [answer, Outcome.bind_ub]
        cases h2 : Fa.ask S y w1 with
        | mk p w2 => cases p <;> exact ⟨_, rfl⟩
      | gone =>
        have e1 := gone x w w1 h1
        simp only [answer, Outcome.bind_ok]
        rw [hy.ask S hoy _ w1]
        cases h2 : Fa.ask S y w1 with
        | mk p w2 =>
          cases p with
          | nameless => exact ⟨_, rfl⟩
          | gone => exact ⟨_, _, _, rfl, gone y w1 w2 h2⟩
          | «at» p => exact ⟨_, _, _, rfl, e1⟩
      | «at» q =>
        simp only [answer, Outcome.bind_ok]
        rw [hy.ask S hoy _ w1]
        cases h2 : Fa.ask S y w1 with
        | mk p w2 =>
          cases p with
          | nameless => exact ⟨_, rfl⟩
          | gone => exact ⟨_, _, _, rfl, gone y w1 w2 h2⟩
          | «at» p => rfl

/-- The records are here, and `full` tells whether fewer than four bytes follow them. -/
structure Here (full : Bool) (buf : List UInt8) (rs : List FRec) (o : Nat) : Prop where
  here : At false buf rs o
  room : ∃ stale : List UInt8, buf.drop o = fbatch rs ++ stale ∧ (full = true ↔ stale.length < 4)

theorem Here.tail (h : Here full buf (r :: rs) o) : Here full buf rs (o + r.bytes.length) := by
  obtain ⟨h1, stale, h2, h3⟩ := h
  refine ⟨h1.tail, stale, ?_, h3⟩
  rw [← List.drop_drop, h2, fbatch_cons, List.append_assoc, List.drop_append, List.drop_eq_nil_of_le (by omega)]
  simp

theorem Here.peek_end (h : Here full buf [r] o) (len : Int) (hl : (r.bytes.length : Int) + 24 ≤ len) :
    if full then ∃ m, peek buf o len = .ub m
    else ∃ b : Bool, peek buf o len = .ok (if b then some (o + r.bytes.length) else none) := by
  obtain ⟨_, stale, h2, h3⟩ := h.tail
  have h2 : buf.drop (o + r.bytes.length) = stale := by rw [h2]; rfl
  have hge : ¬ (len - (r.bytes.length : Int) < 24) := by omega
  unfold peek
  rw [h.here.len]
  simp only [Outcome.bind_ok, eventOk, hge, if_false, fLen, u32, h2]
  cases hf : full with
  | true =>
    have := h3.1 hf
    simp only [if_true]
    match stale, this with
    | [], _ => exact ⟨_, rfl⟩
    | [_], _ => exact ⟨_, rfl⟩
    | [_, _], _ => exact ⟨_, rfl⟩
    | [_, _, _], _ => exact ⟨_, rfl⟩
    | _ :: _ :: _ :: _ :: _, h => simp at h; omega
  | false =>
    have : ¬ stale.length < 4 := fun h => by rw [h3.2 h] at hf; cases hf
    simp only [Bool.false_eq_true, if_false]
    match stale, this with
    | [], h => exact absurd (by simp) h
    | [_], h => exact absurd (by simp) h
    | [_, _], h => exact absurd (by simp) h
    | [_, _, _], h => exact absurd (by simp) h
    | _ :: _ :: _ :: _ :: _, _ => exact ⟨_, rfl⟩

/-- The specification and the code say the same. -/
def Agrees (x : Option (List (Ev × σ) × σ × Result)) (st : Fa.St σ) (y : Outcome (Fa.St σ × Result)) : Prop :=
  match x with
  | none => ∃ m, y = .ub m
  | some (o, w, res) => y = .ok ({ st with sys := w, out := st.out ++ o }, res)

theorem agrees_more {x : Option (List (Ev × σ) × σ × Result)} {st : Fa.St σ} {y : Outcome (Fa.St σ × Result)} {w : σ} (l : List (Ev × σ))
    (h : Agrees x { st with sys := w, out := st.out ++ l } y) : Agrees (x.map fun k => (l ++ k.1, k.2)) st y := by
  cases x with
  | none => exact h
  | some k =>
    obtain ⟨a, b, c⟩ := k
    simp only [Agrees, Option.map_some] at h ⊢
    rw [h, List.append_assoc]

/-- One record, read alone. -/
theorem one_told (S : Fa.Sys σ) (hS : Fa.SaysWhy S) (h : At t buf (r :: rs) o) (hr : r.overflow = false) (n : Option Nat) (w : σ) :
    parseOne S buf o r.effect r.ptype n 0 w = (match Fa.ask S r w with
      | (.nameless, _) => .ub "path_buf[-1] is written"
      | (.gone, w') => .ok (⟨⟨[], r.effect, r.ptype, none⟩, n, r.bytes.length⟩, (S.openByHandle w r.handle).1.2, w')
      | (.at p, w') => .ok (⟨⟨p, r.effect, r.ptype, none⟩, n, r.bytes.length⟩, 0, w')) := by
  unfold parseOne
  rw [h.ask S hr 0 w]
  cases Fa.ask S r w with
  | mk a w' => cases a <;> simp [h.len, answer]

theorem ask_gone (S : Fa.Sys σ) (hS : Fa.SaysWhy S) {w w' : σ} (h : Fa.ask S r w = (.gone, w')) : (S.openByHandle w r.handle).1.2 ≠ 0 := by
  apply hS
  unfold Fa.ask at h
  by_cases hfd : (S.openByHandle w r.handle).1.1 ≤ 0
  · exact hfd
  · simp only [hfd, if_false] at h
    split at h <;> simp at h

/-- The whole batch. -/
theorem loop_told (S : Fa.Sys σ) (hS : Fa.SaysWhy S) : ∀ (n : Nat) (rs : List FRec), rs.length ≤ n → ∀ (left o : Nat)
    (next : Option Nat) (len : Int) (st : Fa.St σ), (next = some o ∨ next = none ∧ ∀ r rest, rs = r :: rest → len < r.bytes.length) →
    Here full st.buf rs o → len ≤ (fbatch rs).length → len < 24 * left →
    Agrees (Fa.told S full rs len st.sys) st (loop S left next len st) := by
  intro n
  induction n with
  | zero =>
    intro rs hn left o next len st hnx hat hle hlt
    rw [List.length_eq_zero_iff.1 (by omega : rs.length = 0)] at hnx hle ⊢
    simp only [Fa.told, Agrees, List.append_nil]
    rcases hnx with rfl | ⟨rfl, _⟩
    · rw [loop.eq_def]
      simp only [ok_short (buf := st.buf) (o := o) len (by simp [fbatch] at hle; omega)]
      rfl
    · rw [loop.eq_def]
  | succ n ih =>
    intro rs hn left o next len st hnx hat hle hlt
    cases rs with
    | nil =>
      simp only [Fa.told, Agrees, List.append_nil]
      rcases hnx with rfl | ⟨rfl, _⟩
      · rw [loop.eq_def]
        simp only [ok_short (buf := st.buf) (o := o) len (by simp [fbatch] at hle; omega)]
        rfl
      · rw [loop.eq_def]
    | cons r rest =>
      simp only [List.length_cons] at hn
      by_cases hshort : len < r.bytes.length
      · rw [Fa.told, if_pos hshort]
        simp only [Agrees, List.append_nil]
        rcases hnx with rfl | ⟨rfl, _⟩
        · rw [loop.eq_def]
          simp only [hat.here.ok_cons, Outcome.bind_ok, show ¬ ((r.bytes.length : Int) ≤ len) from by omega, decide_false, Bool.not_false, if_true]
          rfl
        · rw [loop.eq_def]
      · have hnx : next = some o := by
          rcases hnx with h | ⟨_, h⟩
          · exact h
          · exact absurd (h r rest rfl) hshort
        subst hnx
        have hge := rec_ge r
        have hsum : (fbatch (r :: rest)).length = r.bytes.length + (fbatch rest).length := by
          rw [fbatch_cons, List.length_append]
        obtain ⟨left, rfl⟩ : ∃ k, left = k + 1 := ⟨left - 1, by omega⟩
        rw [Fa.told, if_neg hshort, loop, hat.here.ok_cons]
        obtain ⟨l, hb⟩ := hat.here.bytes
        have hx : (r.bytes.length : Int) ≤ len := by omega
        simp only [Outcome.bind_ok, hx, decide_true, Bool.not_true, Bool.false_eq_true, if_false, fVers_rec hb, ne_eq,
          not_true_eq_false, fFd_rec hb, fMask_rec hb, ovf_eq]
        by_cases hr : r.overflow = true
        · simp [hr, Agrees]
        · simp only [Bool.not_eq_true] at hr
          simp only [hr, Bool.false_eq_true, if_false, fInfoType_rec hb hr, Outcome.bind_ok, not_true_eq_false]
          -- the record read alone
          have alone : ∀ nx : Option Nat, (nx = some (o + r.bytes.length) ∨ nx = none ∧ ∀ r' rest', rest = r' :: rest' → len - r.bytes.length < r'.bytes.length) →
              parseEv S st.buf o len 0 st.sys = parseOne S st.buf o r.effect r.ptype nx 0 st.sys →
              Agrees (match Fa.ask S r st.sys with
                | (.nameless, _) => none
                | (.gone, w) => some ([], w, .wBadFd)
                | (.at p, w) =>
                  (Fa.told S full rest (len - r.bytes.length) (if r.created && r.onDir then Fa.markSpec S p w else ([], w)).2).map fun k =>
                    ((if r.created && r.onDir then Fa.markSpec S p w else ([], w)).1 ++
                      ({ path := p, effect := r.effect, ptype := r.ptype }, (if r.created && r.onDir then Fa.markSpec S p w else ([], w)).2) :: k.1, k.2)) st
                (parseEv S st.buf o len 0 st.sys >>= fun x =>
                  if x.2.1 ≠ 0 then pure ({ st with sys := x.2.2 }, .wBadFd)
                  else loop S left x.1.next (len - x.1.len) ((doMarkIfNewdir S x.1.ev { st with sys := x.2.2 }).send x.1.ev)) := by
            intro nx hnx he
            rw [he, one_told S hS hat.here hr]
            cases h1 : Fa.ask S r st.sys with
            | mk a w1 =>
              cases a with
              | nameless => exact ⟨_, rfl⟩
              | gone => simp [Agrees, ask_gone S hS h1]
              | «at» p =>
                simp only [Outcome.bind_ok, ne_eq, not_true_eq_false, if_false]
                rw [markIf_eq S r p { st with sys := w1 }]
                have := ih rest (by omega) left (o + r.bytes.length) nx (len - r.bytes.length)
                  (St.send { st with
                    sys := (if r.created && r.onDir then Fa.markSpec S p w1 else ([], w1)).2
                    out := st.out ++ (if r.created && r.onDir then Fa.markSpec S p w1 else ([], w1)).1 } ⟨p, r.effect, r.ptype, none⟩) hnx hat.tail (by omega) (by omega)
                simp only [St.send] at this
                rw [List.append_assoc] at this
                have := agrees_more (st := st) _ this
                simpa [List.append_assoc, St.send] using this
          -- two records
          have both : ∀ (x y : FRec) (a b : Nat) (rsx rsy : List FRec) (rest' : List FRec) (o' : Nat) (nx : Option Nat), At false st.buf (x :: rsx) a → At false st.buf (y :: rsy) b →
              x.overflow = false → y.overflow = false → r.effect = .rename → rest'.length ≤ n →
              peek st.buf b len = .ok nx →
              (nx = some o' ∨ nx = none ∧ ∀ r' rest'', rest' = r' :: rest'' → len - x.bytes.length - y.bytes.length < r'.bytes.length) →
              Here full st.buf rest' o' → len - x.bytes.length - y.bytes.length ≤ (fbatch rest').length →
              parseEv S st.buf o len 0 st.sys = parseAssoc S st.buf a b r.effect r.ptype len 0 st.sys →
              Agrees (match Fa.ask2 S x y st.sys with
                | (.nameless, _) => none
                | (.gone, w) => some ([], w, .wBadFd)
                | (.at p q, w) =>
                  (Fa.told S full rest' (len - x.bytes.length - y.bytes.length) w).map fun k =>
                    (({ path := p, effect := .rename, ptype := r.ptype, assoc := some { path := q, effect := .rename, ptype := r.ptype } }, w) :: k.1, k.2)) st
                (parseEv S st.buf o len 0 st.sys >>= fun x =>
                  if x.2.1 ≠ 0 then pure ({ st with sys := x.2.2 }, .wBadFd)
                  else loop S left x.1.next (len - x.1.len) ((doMarkIfNewdir S x.1.ev { st with sys := x.2.2 }).send x.1.ev)) := by
            intro x y a b rsx rsy rest' o' nx hax hay hox hoy het hn' hpk hnx hat' hle' he
            rw [he]
            unfold parseAssoc
            have h2 := ask2_eq S hS hax hay hox hoy st.sys
            rw [hpk, hax.len, hay.len, het]
            cases h1 : Fa.ask2 S x y st.sys with
            | mk c w1 =>
              rw [h1] at h2
              cases c with
              | nameless =>
                obtain ⟨m, hm⟩ := h2
                exact ⟨m, by simp [hm]⟩
              | gone =>
                obtain ⟨pa, pb, ec, hm, hec⟩ := h2
                simp [Agrees, hm, hec]
              | «at» p q =>
                simp only at h2
                simp only [h2, Outcome.bind_ok, Outcome.pure_eq, ne_eq, not_true_eq_false, if_false]
                have hm : doMarkIfNewdir S ⟨p, .rename, r.ptype, some ⟨q, .rename, r.ptype⟩⟩ { st with sys := w1 } = { st with sys := w1 } := by
                  unfold doMarkIfNewdir; rw [if_neg (by simp)]
                rw [hm, show len - ((x.bytes.length + y.bytes.length : Nat) : Int) = len - x.bytes.length - y.bytes.length from by omega]
                have hgx := rec_ge x
                have := ih rest' hn' left o' nx (len - x.bytes.length - y.bytes.length)
                  (St.send { st with sys := w1 } ⟨p, .rename, r.ptype, some ⟨q, .rename, r.ptype⟩⟩) hnx hat' hle' (by omega)
                simp only [St.send] at this ⊢
                exact agrees_more (st := st) _ this
          have he0 : parseEv S st.buf o len 0 st.sys = (peek st.buf o len >>= fun n => match n with
              | none => parseOne S st.buf o r.effect r.ptype n 0 st.sys
              | some b => do
                let nmask ← fMask st.buf b
                if isFromTo r.effect r.mask nmask then parseAssoc S st.buf o b r.effect r.ptype len 0 st.sys
                else if isFromTo r.effect nmask r.mask then parseAssoc S st.buf b o r.effect r.ptype len 0 st.sys
                else parseOne S st.buf o r.effect r.ptype n 0 st.sys) := by
            unfold parseEv
            simp only [hat.here.mask, Outcome.bind_ok, effect_eq, ptype_eq]
            congr 1
          cases rest with
          | nil =>
            refine alone none (.inr ⟨rfl, by intro r' rest' h; cases h⟩) ?_
            rw [he0, hat.here.peek_last _ (by simp [fbatch] at hle hsum; omega)]
            rfl
          | cons r2 rest2 =>
            have hpk := hat.here.peek_cons len
            by_cases hs2 : len < (r.bytes.length : Int) + r2.bytes.length
            · simp only [hs2, if_true]
              refine alone none (.inr ⟨rfl, ?_⟩) ?_
              · intro r' rest' h
                injection h with h1 h2
                subst h1; omega
              · rw [he0, hpk, if_neg (by omega)]
                rfl
            · have hx2 : (r.bytes.length : Int) + r2.bytes.length ≤ len := by omega
              rw [if_pos hx2] at hpk
              simp only [hs2, if_false]
              have hsum2 : (fbatch (r2 :: rest2)).length = r2.bytes.length + (fbatch rest2).length := by
                rw [fbatch_cons, List.length_append]
              simp only [hpk, Outcome.bind_ok, hat.here.tail.mask, ← effect_eq, fromTo_eq, toFrom_eq] at he0
              simp only [effect_eq] at he0
              by_cases hft : r.fromTo r2 = true
              · have het : r.effect = .rename := by
                  simp only [FRec.fromTo, Bool.and_eq_true, beq_iff_eq] at hft; exact hft.1.1
                have hr2 := fromTo_not_ovf (hat.here.wf r2 (by simp)) hft
                simp only [hft, if_true] at he0 ⊢
                by_cases hend : (full && rest2.isEmpty) = true
                · simp only [hend, if_true]
                  simp only [Bool.and_eq_true, List.isEmpty_iff] at hend
                  obtain ⟨rfl, rfl⟩ := hend
                  obtain ⟨m, hm⟩ := hat.tail.peek_end len (by omega)
                  refine ⟨m, ?_⟩
                  rw [he0]
                  unfold parseAssoc
                  rw [hm]
                  rfl
                · simp only [hend]
                  simp only [List.length_cons] at hn
                  cases rest2 with
                  | nil =>
                    have hful : full = false := by
                      cases full with
                      | false => rfl
                      | true => simp at hend
                    have := hat.tail.peek_end len (by omega)
                    rw [hful] at this
                    simp only [Bool.false_eq_true, if_false] at this
                    obtain ⟨b, hbb⟩ := this
                    refine both r r2 o (o + r.bytes.length) [r2] [] [] (o + r.bytes.length + r2.bytes.length) _ hat.here hat.here.tail hr hr2 het (by simp) hbb ?_ hat.tail.tail
                      (by simp [fbatch] at hle ⊢; omega) he0
                    cases b with
                    | true => exact .inl rfl
                    | false => exact .inr ⟨rfl, by intro r' rest'' h; cases h⟩
                  | cons r3 rest3 =>
                    have hpk2 := hat.here.tail.peek_cons len
                    refine both r r2 o (o + r.bytes.length) (r2 :: r3 :: rest3) (r3 :: rest3) (r3 :: rest3) (o + r.bytes.length + r2.bytes.length) _ hat.here hat.here.tail hr hr2 het
                      (by simp only [List.length_cons] at hn ⊢; omega) hpk2 ?_ hat.tail.tail (by omega) he0
                    by_cases hq : (r2.bytes.length : Int) + r3.bytes.length ≤ len
                    · exact .inl (by rw [if_pos hq])
                    · refine .inr ⟨by rw [if_neg hq], ?_⟩
                      intro r' rest'' h
                      injection h with h1 h2
                      subst h1; omega
              · simp only [Bool.not_eq_true] at hft
                simp only [hft, Bool.false_eq_true, if_false] at he0 ⊢
                by_cases htf : r.toFrom r2 = true
                · have het : r.effect = .rename := by
                    simp only [FRec.toFrom, Bool.and_eq_true, beq_iff_eq] at htf; exact htf.1.1
                  have hr2 := toFrom_not_ovf (hat.here.wf r2 (by simp)) htf
                  simp only [htf, if_true] at he0 ⊢
                  have := both r2 r (o + r.bytes.length) o rest2 (r2 :: rest2) (r2 :: rest2) (o + r.bytes.length) _ hat.here.tail hat.here hr2 hr het
                    (by omega) hpk (.inl rfl) hat.tail (by omega) he0
                  rw [show len - (r2.bytes.length : Int) - r.bytes.length = len - r.bytes.length - r2.bytes.length from by omega] at this
                  exact this
                · simp only [Bool.not_eq_true] at htf
                  simp only [htf, Bool.false_eq_true, if_false] at he0 ⊢
                  exact alone (some (o + r.bytes.length)) (.inl rfl) he0

end Verif.Lemmas.Fa
