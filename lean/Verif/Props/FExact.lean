import Verif.Lemmas.FExact2
import Verif.Props.Fanotify
/-!
# What fanotify batches are reported as, in every case (C116, C117)
-/

namespace Verif.Props
open Verif Verif.Model Verif.Model.Fa Verif.Spec Verif.Lemmas.Fa

theorem here_start (rs : List FRec) (hb : FBatch rs) (buf : List UInt8) (hl : buf.length = 4096) :
    Here (decide (4092 < (fbatch rs).length)) (fbatch rs ++ buf.drop (fbatch rs).length) rs 0 := by
  have := hb.fits
  refine ⟨⟨hb.wf, hb.fits, buf.drop (fbatch rs).length, rfl, fun h => by cases h⟩, buf.drop (fbatch rs).length, rfl, ?_⟩
  rw [List.length_drop, decide_eq_true_iff]
  omega

/-! ## C116 -/

/-- C116: for every batch the kernel can write, every content of the buffer before, and whatever the system
answers and other processes do meanwhile, reading the batch does what `Fa.told` says: the same events with the same paths in the same
order, each at the same moment, and the same status; and it is undefined exactly when that says so. -/
theorem C116_exact {σ} (S : Fa.Sys σ) (hS : Fa.SaysWhy S) (rs : List FRec) (st : Fa.St σ) (hb : FBatch rs) (hl : st.buf.length = 4096) :
    match Fa.told S (decide (4092 < (fbatch rs).length)) rs (fbatch rs).length st.sys with
    | none => ∃ m, doEvRecv S (.data (fbatch rs)) st = .ub m
    | some (sent, w, res) => ∃ st', doEvRecv S (.data (fbatch rs)) st = .ok (st', res) ∧ st'.out = st.out ++ sent ∧ st'.sys = w ∧
        st'.buf.length = 4096 := by
  have h := loop_told S hS rs.length rs (Nat.le_refl _) (cUlim + 1) 0 (some 0) (fbatch rs).length
    { st with buf := fbatch rs ++ st.buf.drop (fbatch rs).length } (.inl rfl) (here_start rs hb st.buf hl) (Int.le_refl _)
    (by have : cUlim = 170 := by decide
        have := hb.fits
        omega)
  unfold doEvRecv
  simp only [Agrees] at h
  revert h
  cases Fa.told S (decide (4092 < (fbatch rs).length)) rs (fbatch rs).length st.sys with
  | none => exact id
  | some x =>
    obtain ⟨sent, w, res⟩ := x
    intro h
    simp only at h ⊢
    refine ⟨_, h, rfl, rfl, ?_⟩
    have := hb.fits
    simp only [List.length_append, List.length_drop]
    omega

/-- An arrival, a departure, a change and a removal: the first two are taken for one rename, the departure comes once more, and the
last record is lost. -/
def crossRecs : List FRec :=
  [ { mask := 0x80#64, handle := [1], name := b!"in", pad := 2 },
    { mask := 0x40#64, handle := [1], name := b!"out", pad := 1 },
    { mask := 0x2#64, handle := [1], name := b!"f", pad := 3 },
    { mask := 0x200#64, handle := [2], name := b!"g", pad := 3 } ]

example : (Fa.told faSys false crossRecs (fbatch crossRecs).length 0).map (fun x => x.1.map Prod.fst) = some
    [ { path := b!"/r/out", effect := .rename, ptype := .file, assoc := some { path := b!"/r/in", effect := .rename, ptype := .file } },
      { path := b!"/r/out", effect := .rename, ptype := .file },
      { path := b!"/r/f", effect := .modify, ptype := .file } ] := by decide +kernel

theorem crossRecs_batch : FBatch crossRecs where
  wf := by
    intro r hr
    simp only [crossRecs, List.mem_cons, List.not_mem_nil, or_false] at hr
    rcases hr with rfl | rfl | rfl | rfl <;> exact frec_wf (by decide)
  fits := by decide +kernel

example : FBatch crossRecs ∧ Fa.SaysWhy faSys ∧ faSt.buf.length = 4096 := ⟨crossRecs_batch, faSys_sound.err, faSt_len⟩

/-- C116: on a system that answers, the status is never an error and the internal limit is never hit: the watcher goes on after
every batch that is defined. -/
theorem C116_goes_on {σ} (S : Fa.Sys σ) (hS : Fa.SaysWhy S) (rs : List FRec) (st st' : Fa.St σ) (res : Result) (hb : FBatch rs) (hl : st.buf.length = 4096)
    (h : doEvRecv S (.data (fbatch rs)) st = .ok (st', res)) : res = .pending ∨ res = .wQOverflow ∨ res = .wBadFd := by
  have told_res : ∀ (n : Nat) (rs : List FRec), rs.length ≤ n → ∀ (full : Bool) (len : Int) (w : σ) x, Fa.told S full rs len w = some x →
      x.2.2 = .pending ∨ x.2.2 = .wQOverflow ∨ x.2.2 = .wBadFd := by
    intro n
    induction n with
    | zero =>
      intro rs hn full len w x hx
      rw [List.length_eq_zero_iff.1 (by omega : rs.length = 0)] at hx
      simp only [Fa.told, Option.some.injEq] at hx
      subst hx; exact .inl rfl
    | succ n ih =>
      intro rs hn full len w x hx
      cases rs with
      | nil =>
        simp only [Fa.told, Option.some.injEq] at hx
        subst hx; exact .inl rfl
      | cons r rest =>
        simp only [List.length_cons] at hn
        rw [Fa.told] at hx
        by_cases h1 : len < r.bytes.length
        · rw [if_pos h1] at hx
          simp only [Option.some.injEq] at hx
          subst hx; exact .inl rfl
        rw [if_neg h1] at hx
        by_cases h2 : r.overflow = true
        · rw [if_pos h2] at hx
          simp only [Option.some.injEq] at hx
          subst hx; exact .inr (.inl rfl)
        rw [if_neg h2] at hx
        have single : ∀ x, (match Fa.ask S r w with
            | (.nameless, _) => none
            | (.gone, w) => some (([] : List (Ev × σ)), w, Result.wBadFd)
            | (.at p, w) =>
              (Fa.told S full rest (len - r.bytes.length) (if r.created && r.onDir then Fa.markSpec S p w else ([], w)).2).map fun k =>
                ((if r.created && r.onDir then Fa.markSpec S p w else ([], w)).1 ++
                  ({ path := p, effect := r.effect, ptype := r.ptype }, (if r.created && r.onDir then Fa.markSpec S p w else ([], w)).2) :: k.1, k.2)) = some x →
            x.2.2 = .pending ∨ x.2.2 = .wQOverflow ∨ x.2.2 = .wBadFd := by
          intro x hx
          cases ha : Fa.ask S r w with
          | mk a w1 =>
            rw [ha] at hx
            cases a with
            | nameless => cases hx
            | gone => injection hx with hx; subst hx; exact .inr (.inr rfl)
            | «at» p =>
              simp only [Option.map_eq_some_iff] at hx
              obtain ⟨k, hk, rfl⟩ := hx
              exact ih rest (by omega) full _ _ k hk
        have double : ∀ (a b : FRec) (l : List FRec) (len' : Int) x, l.length ≤ n → (match Fa.ask2 S a b w with
            | (.nameless, _) => none
            | (.gone, w) => some (([] : List (Ev × σ)), w, Result.wBadFd)
            | (.at p q, w) => (Fa.told S full l len' w).map fun k =>
              (({ path := p, effect := .rename, ptype := r.ptype, assoc := some { path := q, effect := .rename, ptype := r.ptype } }, w) :: k.1, k.2)) = some x →
            x.2.2 = .pending ∨ x.2.2 = .wQOverflow ∨ x.2.2 = .wBadFd := by
          intro a b l len' x hl hx
          cases ha : Fa.ask2 S a b w with
          | mk a w1 =>
            rw [ha] at hx
            cases a with
            | nameless => cases hx
            | gone => injection hx with hx; subst hx; exact .inr (.inr rfl)
            | «at» p q =>
              simp only [Option.map_eq_some_iff] at hx
              obtain ⟨k, hk, rfl⟩ := hx
              exact ih l hl full _ _ k hk
        cases rest with
        | nil => exact single x hx
        | cons r2 rest2 =>
          simp only at hx
          simp only [List.length_cons] at hn
          split at hx
          · exact single x hx
          · split at hx
            · split at hx
              · cases hx
              · exact double _ _ _ _ x (by omega) hx
            · split at hx
              · exact double _ _ _ _ x (by simp; omega) hx
              · exact single x hx
  have h1 := C116_exact S hS rs st hb hl
  cases ht : Fa.told S (decide (4092 < (fbatch rs).length)) rs (fbatch rs).length st.sys with
  | none =>
    rw [ht] at h1
    obtain ⟨m, hm⟩ := h1
    rw [h] at hm; cases hm
  | some x =>
    obtain ⟨sent, w, res'⟩ := x
    rw [ht] at h1
    obtain ⟨st2, h2, _⟩ := h1
    rw [h] at h2
    injection h2 with h2
    injection h2 with h2 h3
    rw [h3]
    exact told_res _ rs (Nat.le_refl _) _ _ _ _ ht

example : (match doEvRecv faSys (.data (fbatch crossRecs)) faSt with | .ok (_, .pending) => true | _ => false) = true := by decide +kernel

/-! ## C117 -/

/-- C117: where every directory can be looked up and records are not merged, reading a batch is undefined exactly
when fewer than four bytes of the buffer stay free, the last two records are the halves of a rename, and no new
name before is (wrongly) taken for the new name of an old name that follows it. -/
theorem C117_undefined_iff {σ} (S : Fa.Sys σ) (rs : List FRec) (st : Fa.St σ) (hb : FBatch rs) (hl : st.buf.length = 4096) (hS : Fa.SaysWhy S)
    (ha : Fa.Answers S rs) (ho : ∀ r ∈ rs, r.overflow = false) (hp : ∀ r ∈ rs, r.Plain) :
    (∃ m, doEvRecv S (.data (fbatch rs)) st = .ub m) ↔ 4092 < (fbatch rs).length ∧ EndsInRename rs ∧ NoneCrossed rs := by
  have h1 := C116_exact S hS rs st hb hl
  have h2 : (∃ m, doEvRecv S (.data (fbatch rs)) st = .ub m) ↔ Fa.told S (decide (4092 < (fbatch rs).length)) rs (fbatch rs).length st.sys = none := by
    constructor
    · rintro ⟨m, hm⟩
      revert h1
      cases Fa.told S (decide (4092 < (fbatch rs).length)) rs (fbatch rs).length st.sys with
      | none => intro _; rfl
      | some x =>
        rintro ⟨st', h, _⟩
        rw [hm] at h; cases h
    · intro h
      rw [h] at h1
      exact h1
  rw [h2]
  by_cases hf : 4092 < (fbatch rs).length
  · simp only [hf, decide_true, true_and]
    exact told_full S rs.length rs (Nat.le_refl _) ha ho hp st.sys
  · simp only [hf, decide_false, false_and, iff_false]
    exact told_defined S rs.length rs (Nat.le_refl _) ha _ _ (.inl rfl)

theorem faSys_answers (rs : List FRec) : (∀ r ∈ rs, r.handle = [1]) → Fa.Answers faSys rs := by
  intro h r hr w
  rw [h r hr]
  exact ⟨by simp [faSys], by simp [faSys]⟩

/-- The conditions are met by a full batch; and this is what makes it undefined. -/
example : Fa.Answers faSys fullRecs ∧ (∀ r ∈ fullRecs, r.overflow = false) ∧ (∀ r ∈ fullRecs, r.Plain) ∧
    4092 < (fbatch fullRecs).length ∧ EndsInRename fullRecs ∧ NoneCrossed fullRecs := by
  refine ⟨faSys_answers _ ?_, ?_, ?_, by decide +kernel, ?_, ?_⟩
  · intro r hr
    simp only [fullRecs, List.mem_append, List.mem_replicate, List.mem_cons, List.not_mem_nil, or_false] at hr
    rcases hr with ⟨_, rfl⟩ | rfl | rfl <;> rfl
  · intro r hr
    simp only [fullRecs, List.mem_append, List.mem_replicate, List.mem_cons, List.not_mem_nil, or_false] at hr
    rcases hr with ⟨_, rfl⟩ | rfl | rfl <;> decide
  · intro r hr
    simp only [fullRecs, List.mem_append, List.mem_replicate, List.mem_cons, List.not_mem_nil, or_false] at hr
    rcases hr with ⟨_, rfl⟩ | rfl | rfl <;> (unfold FRec.Plain; decide)
  · exact ⟨_, _, _, rfl, by decide⟩
  · intro l x y m he hx
    exfalso
    have hy : x.movedTo = true ∧ y.movedFrom = true := by
      simp only [FRec.toFrom, Bool.and_eq_true] at hx; exact ⟨hx.1.2, hx.2⟩
    have : ∀ rs : List FRec, (rs.dropLast.all fun r => !r.movedTo) = true → ∀ l x y m, rs = l ++ x :: y :: m → x.movedTo = false := by
      intro rs h l x y m he
      subst he
      have : x ∈ (l ++ x :: y :: m).dropLast := by
        rw [List.dropLast_append_of_ne_nil (by simp)]
        simp
      have := List.all_eq_true.1 h x this
      simpa using this
    rw [this fullRecs (by decide +kernel) l x y m he] at hy
    cases hy.1

/-- The other source of undefined behaviour: a directory that can be opened but has no name, asked for first. -/
theorem C117_nameless {σ} (S : Fa.Sys σ) (r : FRec) (rest : List FRec) (st : Fa.St σ) (hb : FBatch (r :: rest)) (hl : st.buf.length = 4096)
    (hS : Fa.SaysWhy S) (ho : r.overflow = false) (h0 : 0 < (S.openByHandle st.sys r.handle).1.1)
    (hn : (S.readlink (S.openByHandle st.sys r.handle).2 (S.openByHandle st.sys r.handle).1.1).1 = none)
    (hm : r.movedFrom = false) (hm2 : r.movedTo = false) : ∃ m, doEvRecv S (.data (fbatch (r :: rest))) st = .ub m := by
  have h1 := C116_exact S hS (r :: rest) st hb hl
  have hask : ∃ w, Fa.ask S r st.sys = (.nameless, w) := by
    unfold Fa.ask
    simp only [show ¬ ((S.openByHandle st.sys r.handle).1.1 ≤ 0) from by omega, if_false]
    cases hx : S.readlink (S.openByHandle st.sys r.handle).2 (S.openByHandle st.sys r.handle).1.1 with
    | mk a w2 =>
      rw [hx] at hn
      simp only at hn; subst hn
      exact ⟨_, rfl⟩
  obtain ⟨w, hask⟩ := hask
  have h2 : Fa.told S (decide (4092 < (fbatch (r :: rest)).length)) (r :: rest) (fbatch (r :: rest)).length st.sys = none := by
    have hsum : (fbatch (r :: rest)).length = r.bytes.length + (fbatch rest).length := by rw [fbatch_cons, List.length_append]
    rw [Fa.told, if_neg (by omega)]
    simp only [ho, Bool.false_eq_true, if_false, hask]
    cases rest with
    | nil => rfl
    | cons r2 rest2 =>
      simp only [FRec.fromTo, FRec.toFrom, hm, hm2, Bool.and_false, Bool.false_and, Bool.false_eq_true, if_false]
      split <;> rfl
  rw [h2] at h1
  exact h1

example : ∃ m, doEvRecv { faSys with readlink := fun n _ => (none, n) } (.data (fbatch faRecs)) faSt = .ub m :=
  C117_nameless _ _ _ faSt faRecs_batch faSt_len faSys_sound.err (by decide) (by simp [faSys]) rfl (by decide) (by decide)

end Verif.Props
