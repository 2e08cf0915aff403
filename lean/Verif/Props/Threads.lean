import Verif.Spec.Threads
/-!
# C137: `close()` from several threads
-/

namespace Verif.Props
open Verif Verif.Model Verif.Model.Thr Verif.Spec.Thr

/-- C137: any number of threads may call `close()` at any time: nothing undefined happens, and the answers are sound. -/
def C137_full : Prop :=
  ∀ (p : Plat) (acts : List Act), ∃ o, run p {} acts = .ok o ∧ ∀ s, o = some s → Sound s.log s.result

/-! ### Two threads -/

/-- A run in which two threads call `close()`, both wait for the watching thread, and both go on. -/
def twoThreads : List Act :=
  [.call 0, .step 0 true, .step 0 true, .call 1, .step 1 true, .step 0 true, .step 1 true, .step 0 true, .step 1 true,
   .wend true, .step 0 true]

/-- The run is a data race. -/
theorem C137_refuted : ¬ C137_full := by
  intro h
  obtain ⟨o, h, _⟩ := h .linux twoThreads
  have : (match run .linux {} twoThreads with | .ok _ => true | .ub _ => false) = false := by decide +kernel
  rw [h] at this; cases this

namespace Thr137

@[simp] theorem upd_self {α} (f : Nat → α) (t : Nat) (a : α) : upd f t a t = a := by simp [upd]
theorem upd_ne {α} (f : Nat → α) {t u : Nat} (a : α) (h : u ≠ t) : upd f t a u = f u := by simp [upd, h]

@[simp] theorem answers_call (l : List Obs) (t : Nat) : answers (l ++ [.call t]) = answers l := by simp [answers]
@[simp] theorem answers_ret (l : List Obs) (t : Nat) (b : Bool) : answers (l ++ [.ret t b]) = answers l ++ [b] := by
  simp [answers]

/-- One thread, `own`, may be in `close()`; it knows of all accesses. Without one, the mutex does. -/
structure Inv (wok : Bool) (own : Option Nat) (s : St) : Prop where
  out : ∀ u, own ≠ some u → s.pc u = .out
  know : ∀ t, own = some t → ∀ i, i < s.acc.length → i ∈ s.seen t
  lknow : own = none → ∀ i, i < s.acc.length → i ∈ s.lseen
  fut : ∀ t, s.pc t = .get ∨ s.pc t = .wait → s.future = true
  before : s.future = true → true ∉ answers s.log ∧ ∀ t, s.pc t ≠ .ret true
  one : ∀ t, s.pc t = .ret true → true ∉ answers s.log
  cnt : (answers s.log).count true ≤ 1
  res : (true ∈ answers s.log ∨ ∃ t, s.pc t = .ret true) → s.result = some true
  first : wok = true → (s.future = true → answers s.log = [] ∧ ∀ t b, s.pc t ≠ .ret b) ∧
    (s.future = false → ∃ r, s.result = some r ∧ ((answers s.log = [] ∧ ∃ t, s.pc t = .ret r) ∨
      ((∃ n, answers s.log = r :: List.replicate n false) ∧ ∀ t b, s.pc t = .ret b → b = false)))

theorem Inv.sound {wok own s} (h : Inv wok own s) : Sound s.log s.result := ⟨h.cnt, fun h' => h.res (.inl h')⟩

theorem init_inv (wok own) : Inv wok own {} := by
  constructor <;> simp [answers]

theorem access_ok {t w s} (h : ∀ i, i < s.acc.length → i ∈ s.seen t) :
    access t w s = .ok { s with acc := s.acc ++ [w], seen := upd s.seen t (s.seen t ++ [s.acc.length]) } := by
  unfold access
  rw [if_pos]
  rw [List.all_eq_true]
  intro i hi
  rw [List.mem_range] at hi
  simp [h i hi]

/-- Nothing but what is known changes. -/
theorem Inv.same {wok own s s'} (h : Inv wok own s) (hpc : s'.pc = s.pc) (hacc : s'.acc = s.acc) (hl : own = none → s'.lseen = s.lseen)
    (hs : ∀ t, own = some t → ∀ i ∈ s.seen t, i ∈ s'.seen t) (hf : s'.future = s.future)
    (hlog : s'.log = s.log) (hr : s'.result = s.result ∨ s.result = none) : Inv wok own s' := by
  refine ⟨?_, ?_, ?_, ?_, ?_, ?_, ?_, ?_, ?_⟩
  · rw [hpc]; exact h.out
  · rw [hacc]; intro t ht i hi; exact hs t ht i (h.know t ht i hi)
  · rw [hacc]; intro ht; rw [hl ht]; exact h.lknow ht
  · rw [hpc, hf]; exact h.fut
  · rw [hpc, hf, hlog]; exact h.before
  · rw [hpc, hlog]; exact h.one
  · rw [hlog]; exact h.cnt
  · rw [hpc, hlog]; intro h'
    have := h.res h'
    rcases hr with hr | hr
    · rw [hr, this]
    · rw [hr] at this; cases this
  · rw [hpc, hlog, hf]; intro hw
    refine ⟨(h.first hw).1, fun hf => ?_⟩
    obtain ⟨r, h1, h2⟩ := (h.first hw).2 hf
    refine ⟨r, ?_, h2⟩
    rcases hr with hr | hr
    · rw [hr, h1]
    · rw [hr] at h1; cases h1

/-- The thread that is inside goes on in it. -/
theorem Inv.move {wok t s s'} (h : Inv wok (some t) s) {c : Pc} (hpc : s'.pc = upd s.pc t c) (hc : c ≠ .ret true)
    (hk : ∀ i, i < s'.acc.length → i ∈ s'.seen t) (hf : s'.future = s.future)
    (hg : (c = .get ∨ c = .wait) → s.future = true)
    (hlog : answers s'.log = answers s.log) (hr : s'.result = s.result)
    (hp : ∀ b, s.pc t ≠ .ret b) (hw : wok = true → s.future = true → c ≠ .ret false) : Inv wok (some t) s' := by
  have hne : ∀ u, u ≠ t → s'.pc u = .out := by
    intro u hu; rw [hpc, upd_ne _ _ hu]; exact h.out u (by simpa using fun e => hu e.symm)
  have hself : s'.pc t = c := by rw [hpc]; simp
  have hnt : ∀ u, s'.pc u ≠ .ret true := by
    intro u; by_cases hu : u = t
    · subst hu; rw [hself]; exact hc
    · rw [hne u hu]; simp
  refine ⟨?_, ?_, ?_, ?_, ?_, ?_, ?_, ?_, ?_⟩
  · intro u hu; exact hne u (fun e => hu (by rw [e]))
  · intro u hu i hi; cases hu; exact hk i hi
  · intro h'; cases h'
  · intro u hu
    by_cases e : u = t
    · subst e; rw [hself] at hu; rw [hf]; exact hg hu
    · rw [hne u e] at hu; simp at hu
  · rw [hf, hlog]; intro hh; exact ⟨(h.before hh).1, hnt⟩
  · intro u hu; exact absurd hu (hnt u)
  · rw [hlog]; exact h.cnt
  · rw [hlog, hr]; rintro (h' | ⟨u, hu⟩)
    · exact h.res (.inl h')
    · exact absurd hu (hnt u)
  · rw [hf, hlog, hr]; intro hh
    constructor
    · intro hfu
      refine ⟨((h.first hh).1 hfu).1, ?_⟩
      intro u b
      by_cases e : u = t
      · subst e; rw [hself]
        cases b with
        | true => exact hc
        | false => exact hw hh hfu
      · rw [hne u e]; simp
    · intro hfu
      obtain ⟨r, h1, h2⟩ := (h.first hh).2 hfu
      refine ⟨r, h1, .inr ?_⟩
      rcases h2 with ⟨_, u, hu⟩ | h2
      · exfalso
        by_cases e : u = t
        · subst e; exact hp r hu
        · have := h.out u (by simpa using fun e' => e e'.symm)
          rw [this] at hu; cases hu
      · refine ⟨h2.1, ?_⟩
        intro u b hb
        cases b with
        | false => rfl
        | true => exact absurd hb (hnt u)

theorem mem_upd_app {s : St} {t : Nat} {l : List Nat} (h : ∀ i, i < s.acc.length → i ∈ s.seen t) :
    ∀ i, i < s.acc.length → i ∈ upd s.seen t (s.seen t ++ l) t := by
  intro i hi; simp [h i hi]

theorem enter_inv {wok p t s} (h : Inv wok (some t) s) (hp : s.pc t = .enter) : Inv wok (some t) (enter p t s) := by
  have hk := h.know t rfl
  cases p with
  | linux =>
    refine h.move (c := if s.is = .released then .valid else .write) rfl ?_ (mem_upd_app hk) rfl ?_ rfl rfl (by simp [hp]) ?_ <;>
      (split <;> simp)
  | darwin =>
    simp only [enter]
    split
    · exact h.move (c := .valid) rfl (by simp) hk rfl (by simp) rfl rfl (by simp [hp]) (by simp)
    · exact h.move (c := .valid) rfl (by simp) (mem_upd_app hk) rfl (by simp) rfl rfl (by simp [hp]) (by simp)
  | other => exact h.move (c := .valid) rfl (by simp) hk rfl (by simp) rfl rfl (by simp [hp]) (by simp)

theorem know_access {s : St} {t : Nat} {w : Bool} {l : List Nat} (h : ∀ i, i < s.acc.length → i ∈ s.seen t) :
    ∀ i, i < (s.acc ++ [w]).length → i ∈ upd s.seen t (s.seen t ++ l ++ [s.acc.length]) t := by
  intro i hi
  simp at hi ⊢
  by_cases e : i = s.acc.length
  · exact .inr (.inr e)
  · exact .inl (h i (by omega))

theorem cstep_inv {wok p t ok s} (h : Inv wok (some t) s) (hw : wok = true → ok = true) :
    ∃ o, cstep p t ok s = .ok o ∧ ∀ s', o = some s' → Inv wok (some t) s' := by
  have hk := h.know t rfl
  have ka : ∀ w, ∀ i, i < (s.acc ++ [w]).length → i ∈ upd s.seen t (s.seen t ++ [s.acc.length]) t := by
    intro w; have := know_access (w := w) (l := []) hk; simpa using this
  unfold cstep
  split
  · exact ⟨none, rfl, by simp⟩
  · rename_i hpc
    refine ⟨_, rfl, ?_⟩; rintro s' ⟨⟩; exact enter_inv h hpc
  · rename_i hpc
    split
    · refine ⟨_, rfl, ?_⟩; rintro s' ⟨⟩
      exact h.move (c := .valid) rfl (by simp) hk rfl (by simp) rfl rfl (by simp [hpc]) (by simp)
    · rename_i hok
      refine ⟨_, rfl, ?_⟩; rintro s' ⟨⟩
      exact h.move (c := .ret false) rfl (by simp) hk rfl (by simp) rfl rfl (by simp [hpc]) (fun h' => absurd (hw h') hok)
  · rename_i hpc
    rw [access_ok hk]
    refine ⟨_, rfl, ?_⟩; rintro s' ⟨⟩
    refine h.move (c := if s.future then .get else .ret false) rfl ?_ (ka _) rfl ?_ rfl rfl (by simp [hpc]) ?_
    · split <;> simp
    · cases hf : s.future <;> simp
    · intro _ hf; simp [hf]
  · rename_i hpc
    rw [access_ok hk]
    refine ⟨_, rfl, ?_⟩; rintro s' ⟨⟩
    exact h.move (c := .wait) rfl (by simp) (ka _) rfl (fun _ => h.fut t (.inl hpc)) rfl rfl (by simp [hpc]) (by simp)
  · rename_i hpc
    have hfut := h.fut t (.inr hpc)
    have hb := h.before hfut
    cases hr : s.result with
    | none => exact ⟨none, rfl, by simp⟩
    | some r =>
      have hk' : ∀ i, i < s.acc.length → i ∈ upd s.seen t (s.seen t ++ s.wseen) t := mem_upd_app hk
      simp only
      rw [access_ok hk']
      refine ⟨_, rfl, ?_⟩; rintro s' ⟨⟩
      have hne : ∀ u, u ≠ t → s.pc u = .out := fun u hu => h.out u (by simpa using fun e => hu e.symm)
      have hret : ∀ u, upd s.pc t (.ret r) u = .ret true → r = true := by
        intro u hu
        by_cases e : u = t
        · subst e; simpa using hu
        · rw [upd_ne _ _ e, hne u e] at hu; cases hu
      refine ⟨?_, ?_, by simp, ?_, by simp, ?_, h.cnt, ?_, ?_⟩
      · intro u hu
        have : u ≠ t := fun e => hu (by rw [e])
        show upd s.pc t _ u = _
        rw [upd_ne _ _ this]; exact h.out u hu
      · intro u hu i hi; cases hu
        have := know_access (w := true) (l := s.wseen) hk i hi
        simpa using this
      · intro u hu
        by_cases e : u = t
        · subst e; simp at hu
        · have : upd s.pc t (.ret r) u = .out := by rw [upd_ne _ _ e, hne u e]
          simp only [this] at hu; simp at hu
      · intro u _; exact hb.1
      · rintro (h' | ⟨u, hu⟩)
        · exact absurd h' hb.1
        · have := hret u hu; subst this; rfl
      · intro hh
        exact ⟨by simp, fun _ => ⟨r, rfl, .inl ⟨((h.first hh).1 hfut).1, t, upd_self _ _ _⟩⟩⟩
  · rename_i b hpc
    refine ⟨_, rfl, ?_⟩; rintro s' ⟨⟩
    have hne : ∀ u, u ≠ t → s.pc u = .out := fun u hu => h.out u (by simpa using fun e => hu e.symm)
    have hout : ∀ u, upd s.pc t .out u = .out := by
      intro u; by_cases e : u = t
      · subst e; simp
      · rw [upd_ne _ _ e, hne u e]
    refine ⟨fun u _ => hout u, h.know, by simp, ?_, ?_, ?_, ?_, ?_, ?_⟩
    · intro u hu; simp only [hout u] at hu; simp at hu
    · intro hf
      refine ⟨?_, fun u => by simp only [hout u]; simp⟩
      simp only [answers_ret, List.mem_append, List.mem_singleton, not_or]
      refine ⟨(h.before hf).1, ?_⟩
      rintro rfl
      exact (h.before hf).2 t hpc
    · intro u hu; simp only [hout u] at hu; cases hu
    · simp only [answers_ret, List.count_append]
      cases b with
      | false => simpa using h.cnt
      | true =>
        have := h.one t hpc
        rw [List.count_eq_zero_of_not_mem this]; simp
    · rintro (h' | ⟨u, hu⟩)
      · simp only [answers_ret, List.mem_append, List.mem_singleton] at h'
        rcases h' with h' | rfl
        · exact h.res (.inl h')
        · exact h.res (.inr ⟨t, hpc⟩)
      · simp only [hout u] at hu; cases hu
    · intro hh
      constructor
      · intro hf; exact absurd hpc (((h.first hh).1 hf).2 t b)
      · intro hf
        obtain ⟨r, h1, h2⟩ := (h.first hh).2 hf
        refine ⟨r, h1, .inr ⟨?_, fun u b' hb => by simp only [hout u] at hb; cases hb⟩⟩
        rcases h2 with ⟨ha, u, hu⟩ | ⟨⟨n, hn⟩, hall⟩
        · have e : u = t := by
            by_cases e : u = t
            · exact e
            · rw [hne u e] at hu; cases hu
          subst e
          rw [hpc] at hu; cases hu
          exact ⟨0, by simp [ha]⟩
        · cases hall t b hpc
          exact ⟨n + 1, by simp [hn, List.replicate_succ']⟩

theorem cstep_out {p t ok s} (h : s.pc t = .out) : cstep p t ok s = .ok none := by
  unfold cstep; rw [h]

theorem access_keeps {t w s s'} (h : access t w s = .ok s') : s'.holder = s.holder := by
  unfold access at h; split at h <;> cases h; rfl

theorem cstep_holder {p t ok s s'} (h : cstep p t ok s = .ok (some s')) : s'.holder = s.holder := by
  unfold cstep at h
  split at h
  · cases h
  · cases h; cases p <;> simp [enter]; split <;> rfl
  · split at h <;> cases h <;> rfl
  · cases ha : access t false s with
    | ok a => rw [ha] at h; cases h; (have := access_keeps ha; exact this)
    | ub => rw [ha] at h; cases h
  · cases ha : access t false s with
    | ok a => rw [ha] at h; cases h; (have := access_keeps ha; exact this)
    | ub => rw [ha] at h; cases h
  · split at h
    · cases h
    · rename_i r _
      cases ha : access t true { s with seen := upd s.seen t (s.seen t ++ s.wseen) } with
      | ok a => rw [ha] at h; cases h; (have := access_keeps ha; exact this)
      | ub => rw [ha] at h; cases h
  · cases h; rfl

/-- Everything but the mutex. -/
theorem step_inv {wok p s a own} (hw : ∀ t, a = .step t false → wok = false) (h : Inv wok own s) (hcall : ∀ t, a = .call t → own = some t)
    (hlock : ∀ t, a ≠ .lock t ∧ a ≠ .unlock t) :
    ∃ o, step p s a = .ok o ∧ ∀ s', o = some s' → Inv wok own s' ∧ s'.holder = s.holder := by
  cases a with
  | call t =>
    cases hcall t rfl
    simp only [step]
    split
    · refine ⟨_, rfl, ?_⟩; rintro s' ⟨⟩
      exact ⟨h.move (c := .enter) rfl (by simp) (h.know t rfl) rfl (by simp) (by simp) rfl (by simp [*]) (by simp), rfl⟩
    · exact ⟨none, rfl, by simp⟩
  | step t ok =>
    by_cases ho : own = some t
    · subst ho
      obtain ⟨o, ho, hi⟩ := cstep_inv (p := p) (ok := ok) h (by
        intro e; cases ok with
        | true => rfl
        | false => rw [hw t rfl] at e; cases e)
      refine ⟨o, ho, ?_⟩
      rintro s' rfl
      exact ⟨hi s' rfl, cstep_holder ho⟩
    · exact ⟨none, cstep_out (h.out t ho), by simp⟩
  | lock t => exact absurd rfl (hlock t).1
  | unlock t => exact absurd rfl (hlock t).2
  | wload => 
    refine ⟨_, rfl, ?_⟩; rintro s' ⟨⟩
    exact ⟨h.same rfl rfl (fun _ => rfl) (fun _ _ _ h => h) rfl rfl (.inl rfl), rfl⟩
  | wstore v => 
    refine ⟨_, rfl, ?_⟩; rintro s' ⟨⟩
    exact ⟨h.same rfl rfl (fun _ => rfl) (fun _ _ _ h => h) rfl rfl (.inl rfl), rfl⟩
  | wend r =>
    simp only [step]
    split
    · rename_i hr
      refine ⟨_, rfl, ?_⟩; rintro s' ⟨⟩
      exact ⟨h.same rfl rfl (fun _ => rfl) (fun _ _ _ h => h) rfl rfl (.inr hr), rfl⟩
    · exact ⟨none, rfl, by simp⟩

/-- The mutex, when one thread alone calls `close()`. -/
theorem mutex_only {wok p s t a} (h : Inv wok (some t) s) (ha : ∃ u, a = .lock u ∨ a = .unlock u) :
    ∃ o, step p s a = .ok o ∧ ∀ s', o = some s' → Inv wok (some t) s' := by
  obtain ⟨u, rfl | rfl⟩ := ha <;> simp only [step]
  · split
    · refine ⟨_, rfl, ?_⟩; rintro s' ⟨⟩
      refine h.same rfl rfl (by simp) ?_ rfl rfl (.inl rfl)
      intro v _ i hi
      by_cases e : v = u
      · subst e; simp [hi]
      · simpa [upd_ne _ _ e] using hi
    · exact ⟨none, rfl, by simp⟩
  · split
    · refine ⟨_, rfl, ?_⟩; rintro s' ⟨⟩
      exact h.same rfl rfl (by simp) (fun _ _ _ h => h) rfl rfl (.inl rfl)
    · exact ⟨none, rfl, by simp⟩

/-- The mutex, when whoever calls `close()` holds it. -/
theorem mutex_own {wok p s a} (h : Inv wok s.holder s) (ha : ∃ u, a = .lock u ∨ a = .unlock u) :
    ∃ o, step p s a = .ok o ∧ ∀ s', o = some s' → Inv wok s'.holder s' ∧ s'.holder = holds s.holder [a] := by
  obtain ⟨u, rfl | rfl⟩ := ha <;> simp only [step]
  · split
    · rename_i hu
      refine ⟨_, rfl, ?_⟩; rintro s' ⟨⟩
      rw [hu.2] at h
      refine ⟨⟨?_, ?_, by simp, h.fut, h.before, h.one, h.cnt, h.res, h.first⟩, rfl⟩
      · intro v _; exact h.out v (by simp)
      · intro v hv i hi; cases hv; simp [h.lknow rfl i hi]
    · exact ⟨none, rfl, by simp⟩
  · split
    · rename_i hu
      refine ⟨_, rfl, ?_⟩; rintro s' ⟨⟩
      rw [hu.2] at h
      refine ⟨⟨?_, by simp, ?_, h.fut, h.before, h.one, h.cnt, h.res, h.first⟩, rfl⟩
      · intro v _
        by_cases e : v = u
        · subst e; exact hu.1
        · exact h.out v (by simpa using fun e' => e e'.symm)
      · intro _ i hi; exact h.know u rfl i hi
    · exact ⟨none, rfl, by simp⟩

theorem holds_other {h a} (ha : ∀ t, a ≠ .lock t ∧ a ≠ .unlock t) : holds h [a] = h := by
  cases a <;> first | rfl | exact absurd rfl (ha _).1 | exact absurd rfl (ha _).2

theorem holds_cons {h a as} : holds h (a :: as) = holds (holds h [a]) as := by cases a <;> rfl

theorem mutex_dec (a : Act) : (∃ u, a = .lock u ∨ a = .unlock u) ∨ ∀ t, a ≠ .lock t ∧ a ≠ .unlock t := by
  cases a <;> first | exact .inl ⟨_, .inl rfl⟩ | exact .inl ⟨_, .inr rfl⟩ | (right; intro t; simp)

theorem hwa {wok} (a : Act) (as : List Act) (hw : wok = true → WritesOk (a :: as)) (t : Nat) (e : a = .step t false) :
    wok = false := by
  cases wok with
  | false => rfl
  | true => exact absurd (by simp [e]) (hw rfl t)

theorem hwt {wok} {a : Act} {as : List Act} (hw : wok = true → WritesOk (a :: as)) : wok = true → WritesOk as :=
  fun h t ht => hw h t (List.mem_cons_of_mem _ ht)

theorem guarded_run {wok p acts s} (hw : wok = true → WritesOk acts) (h : Inv wok s.holder s)
    (hg : ∀ pre t post, acts = pre ++ .call t :: post → holds s.holder pre = some t) :
    ∃ o, run p s acts = .ok o ∧ ∀ s', o = some s' → Inv wok s'.holder s' := by
  induction acts generalizing s with
  | nil => exact ⟨_, rfl, by rintro s' ⟨⟩; exact h⟩
  | cons a as ih =>
    have key : ∃ o, step p s a = .ok o ∧ ∀ s', o = some s' → Inv wok s'.holder s' ∧ s'.holder = holds s.holder [a] := by
      rcases mutex_dec a with ha | ha
      · exact mutex_own h ha
      · obtain ⟨o, ho, hi⟩ := step_inv (p := p) (hwa a as hw) h (fun t e => hg [] t as (by rw [e]; rfl)) ha
        refine ⟨o, ho, ?_⟩
        intro s' hs
        obtain ⟨h1, h2⟩ := hi s' hs
        rw [holds_other ha, h2]; exact ⟨h1, rfl⟩
    obtain ⟨o, ho, hi⟩ := key
    simp only [run, ho, Outcome.bind_ok]
    cases o with
    | none => exact ⟨none, rfl, by simp⟩
    | some s' =>
      obtain ⟨h1, h2⟩ := hi s' rfl
      refine ih (hwt hw) h1 ?_
      intro pre t post e
      rw [h2, ← holds_cons]
      exact hg (a :: pre) t post (by rw [e]; rfl)

theorem only_run {wok p acts s t} (hw : wok = true → WritesOk acts) (h : Inv wok (some t) s) (hg : OnlyBy t acts) :
    ∃ o, run p s acts = .ok o ∧ ∀ s', o = some s' → Inv wok (some t) s' := by
  induction acts generalizing s with
  | nil => exact ⟨_, rfl, by rintro s' ⟨⟩; exact h⟩
  | cons a as ih =>
    have key : ∃ o, step p s a = .ok o ∧ ∀ s', o = some s' → Inv wok (some t) s' := by
      rcases mutex_dec a with ha | ha
      · exact mutex_only h ha
      · obtain ⟨o, ho, hi⟩ := step_inv (p := p) (hwa a as hw) h (fun u e => by rw [hg u (by simp [e])]) ha
        exact ⟨o, ho, fun s' hs => (hi s' hs).1⟩
    obtain ⟨o, ho, hi⟩ := key
    simp only [run, ho, Outcome.bind_ok]
    cases o with
    | none => exact ⟨none, rfl, by simp⟩
    | some s' => exact ih (hwt hw) (hi s' rfl) (fun u hu => hg u (List.mem_cons_of_mem _ hu))

/-! ### Without synchronisation -/

/-- Threads that do not synchronise and call `close()` once: nobody knows of another's accesses, and after a write only its
thread goes on. -/
structure Race (s : St) : Prop where
  atom : s.atom = []
  wseen : s.wseen = []
  early : ∀ t, (s.pc t = .enter ∨ s.pc t = .write ∨ s.pc t = .valid ∨ Obs.call t ∉ s.log) → s.seen t = []
  idle : ∀ t, Obs.call t ∉ s.log → s.pc t = .out
  own : ∀ t u i, i ∈ s.seen t → i ∈ s.seen u → t = u
  lt : ∀ t i, i ∈ s.seen t → i < s.acc.length
  used : ∀ t, (s.pc t = .get ∨ s.pc t = .wait ∨ (∃ b, s.pc t = .ret b) ∨ ∃ b, Obs.ret t b ∈ s.log) → s.seen t ≠ []
  writer : true ∈ s.acc → ∃ t, ∀ i, i < s.acc.length → i ∈ s.seen t
  fut : s.future = false → true ∈ s.acc
  ended : ∀ t b, (s.pc t = .ret b ∨ Obs.ret t b ∈ s.log) → true ∈ s.acc

theorem init_race : Race {} := by
  constructor <;> simp

theorem Race.one {s} (h : Race s) {t u b c} (ht : Obs.ret t b ∈ s.log) (hu : Obs.ret u c ∈ s.log) : t = u := by
  obtain ⟨x, hx⟩ := h.writer (h.ended t b (.inr ht))
  have key : ∀ v d, Obs.ret v d ∈ s.log → v = x := by
    intro v d hv
    have hne := h.used v (.inr (.inr (.inr ⟨d, hv⟩)))
    obtain ⟨i, hi⟩ := List.exists_mem_of_ne_nil _ hne
    exact h.own v x i hi (hx i (h.lt v i hi))
  rw [key t b ht, key u c hu]

/-- What an access needs and does. -/
theorem access_eq {t w s s'} (h : access t w s = .ok s') :
    s' = { s with acc := s.acc ++ [w], seen := upd s.seen t (s.seen t ++ [s.acc.length]) } ∧
    ∀ i, i < s.acc.length → (w = true ∨ s.acc.getD i false = true) → i ∈ s.seen t := by
  unfold access at h
  split at h
  · rename_i hc
    refine ⟨by cases h; rfl, ?_⟩
    intro i hi hw
    rw [List.all_eq_true] at hc
    have := hc i (List.mem_range.mpr hi)
    rcases hw with rfl | hw
    · simpa using this
    · simp only [hw, Bool.or_true, Bool.not_true, Bool.false_or] at this; simpa using this
  · cases h

/-- The thread moves on before it has used the future; what it knows does not change. -/
theorem Race.early_move {s s' : St} (h : Race s) {t : Nat} {c : Pc} (hpc : s'.pc = upd s.pc t c)
    (hc : c = .enter ∨ c = .write ∨ c = .valid) (hs : s.seen t = [])
    (hseen : s'.seen = s.seen) (hatom : s'.atom = []) (hws : s'.wseen = s.wseen) (hacc : s'.acc = s.acc) (hf : s'.future = s.future)
    (hcall : Obs.call t ∈ s'.log) (hlog : ∀ u, u ≠ t → (Obs.call u ∈ s'.log ↔ Obs.call u ∈ s.log))
    (hret : ∀ u b, Obs.ret u b ∈ s'.log ↔ Obs.ret u b ∈ s.log) : Race s' := by
  have hself : s'.pc t = c := by rw [hpc]; simp
  have hne : ∀ u, u ≠ t → s'.pc u = s.pc u := fun u hu => by rw [hpc, upd_ne _ _ hu]
  refine ⟨hatom, by rw [hws, h.wseen], ?_, ?_, by rw [hseen]; exact h.own, by rw [hseen, hacc]; exact h.lt, ?_,
    by rw [hseen, hacc]; exact h.writer, by rw [hf, hacc]; exact h.fut, ?_⟩
  · intro u hu
    rw [hseen]
    by_cases e : u = t
    · subst e; exact hs
    · rw [hne u e, hlog u e] at hu; exact h.early u hu
  · intro u hu
    by_cases e : u = t
    · subst e; exact absurd hcall hu
    · rw [hne u e]; rw [hlog u e] at hu; exact h.idle u hu
  · intro u hu
    rw [hseen]
    by_cases e : u = t
    · subst e
      rw [hself] at hu
      refine h.used u ?_
      rcases hc with rfl | rfl | rfl <;> simp only [hret] at hu <;> simpa using Or.inr (Or.inr (Or.inr (by simpa using hu)))
    · rw [hne u e] at hu; simp only [hret] at hu; exact h.used u hu
  · intro u b hu
    rw [hacc]
    by_cases e : u = t
    · subst e
      rw [hself, hret] at hu
      refine h.ended u b (.inr ?_)
      rcases hc with rfl | rfl | rfl <;> simpa using hu
    · rw [hne u e, hret] at hu; exact h.ended u b hu

/-- The thread uses the future. -/
theorem Race.access_move {s s1 s' : St} (h : Race s) {t : Nat} {w : Bool} {c : Pc} (ha : access t w s = .ok s1)
    (hpc : s'.pc = upd s.pc t c) (hc : c = .get ∨ c = .wait ∨ ∃ b, c = .ret b) (hcall : Obs.call t ∈ s.log)
    (hseen : s'.seen = s1.seen) (hatom : s'.atom = s.atom) (hws : s'.wseen = s.wseen) (hacc : s'.acc = s1.acc)
    (hlog : s'.log = s.log) (hf : s'.future = false → s.future = false ∨ w = true)
    (hr : ∀ b, c = .ret b → s.future = false ∨ w = true) : Race s' := by
  obtain ⟨rfl, hk⟩ := access_eq ha
  have hself : s'.pc t = c := by rw [hpc]; simp
  have hne : ∀ u, u ≠ t → s'.pc u = s.pc u := fun u hu => by rw [hpc, upd_ne _ _ hu]
  have hst : s'.seen t = s.seen t ++ [s.acc.length] := by rw [hseen]; simp
  have hsu : ∀ u, u ≠ t → s'.seen u = s.seen u := fun u hu => by rw [hseen]; exact upd_ne _ _ hu
  replace hacc : s'.acc = s.acc ++ [w] := hacc
  have notc : ¬ (c = .enter ∨ c = .write ∨ c = .valid) := by
    rcases hc with rfl | rfl | ⟨b, rfl⟩ <;> simp
  have hfw : (s.future = false ∨ w = true) → true ∈ s.acc ++ [w] := by
    rintro (h' | rfl)
    · simp [h.fut h']
    · simp
  refine ⟨by rw [hatom, h.atom], by rw [hws, h.wseen], ?_, ?_, ?_, ?_, ?_, ?_, ?_, ?_⟩
  · intro u hu
    by_cases e : u = t
    · subst e
      rw [hself, hlog] at hu
      exfalso
      rcases hu with hu | hu | hu | hu
      · exact notc (.inl hu)
      · exact notc (.inr (.inl hu))
      · exact notc (.inr (.inr hu))
      · exact hu hcall
    · rw [hne u e, hlog] at hu; rw [hsu u e]; exact h.early u hu
  · intro u hu
    rw [hlog] at hu
    by_cases e : u = t
    · subst e; exact absurd hcall hu
    · rw [hne u e]; exact h.idle u hu
  · intro u v i hu hv
    by_cases e : u = t <;> by_cases e' : v = t
    · rw [e, e']
    · subst e
      rw [hst] at hu; rw [hsu v e'] at hv
      simp only [List.mem_append, List.mem_singleton] at hu
      rcases hu with hu | rfl
      · exact h.own _ _ i hu hv
      · exact absurd (h.lt v _ hv) (by omega)
    · subst e'
      rw [hst] at hv; rw [hsu u e] at hu
      simp only [List.mem_append, List.mem_singleton] at hv
      rcases hv with hv | rfl
      · exact h.own _ _ i hu hv
      · exact absurd (h.lt u _ hu) (by omega)
    · rw [hsu u e] at hu; rw [hsu v e'] at hv; exact h.own _ _ i hu hv
  · intro u i hu
    rw [hacc, List.length_append, List.length_singleton]
    by_cases e : u = t
    · subst e
      rw [hst] at hu
      simp only [List.mem_append, List.mem_singleton] at hu
      rcases hu with hu | rfl
      · have := h.lt u i hu; omega
      · omega
    · rw [hsu u e] at hu; have := h.lt u i hu; omega
  · intro u hu
    by_cases e : u = t
    · subst e; rw [hst]; simp
    · rw [hne u e, hlog] at hu; rw [hsu u e]; exact h.used u hu
  · intro hw
    rw [hacc] at hw ⊢
    have all : ∀ i, i < s.acc.length → i ∈ s.seen t := by
      by_cases hw' : true ∈ s.acc
      · obtain ⟨j, hj, hjt⟩ := List.getElem_of_mem hw'
        have hj' := hk j hj (.inr (by simp [List.getD, hj, hjt]))
        obtain ⟨x, hx⟩ := h.writer hw'
        have := h.own t x j hj' (hx j hj)
        subst this
        exact hx
      · have : w = true := by simpa [hw', eq_comm] using hw
        exact fun i hi => hk i hi (.inl this)
    refine ⟨t, ?_⟩
    intro i hi
    rw [hst]
    simp only [List.length_append, List.length_singleton] at hi
    by_cases e : i = s.acc.length
    · simp [e]
    · simp [all i (by omega)]
  · intro h'
    rw [hacc]; exact hfw (hf h')
  · intro u b hu
    rw [hacc]
    by_cases e : u = t
    · subst e
      rw [hself, hlog] at hu
      rcases hu with hu | hu
      · exact hfw (hr b hu)
      · have := h.ended u b (.inr hu); simp [this]
    · rw [hne u e, hlog] at hu; have := h.ended u b hu; simp [this]

theorem cstep_race {p t s s'} (h : Race s) (hs : cstep p t true s = .ok (some s')) :
    Race s' ∧ ∀ u, Obs.call u ∈ s'.log ↔ Obs.call u ∈ s.log := by
  have called : s.pc t ≠ .out → Obs.call t ∈ s.log := by
    intro hp
    by_cases hc : Obs.call t ∈ s.log
    · exact hc
    · exact absurd (h.idle t hc) hp
  unfold cstep at hs
  split at hs
  · cases hs
  · rename_i hpc
    cases hs
    have hcall := called (by simp [hpc])
    have hsn := h.early t (.inl hpc)
    have hnil : upd s.seen t (s.seen t ++ s.atom) = s.seen := by
      funext u; by_cases e : u = t
      · subst e; simp [hsn, h.atom]
      · rw [upd_ne _ _ e]
    cases p with
    | linux =>
      refine ⟨h.early_move (c := if s.is = .released then .valid else .write) rfl (by split <;> simp) hsn hnil h.atom rfl rfl rfl hcall (fun _ _ => Iff.rfl) (fun _ _ => Iff.rfl), fun _ => Iff.rfl⟩
    | darwin =>
      simp only [enter]
      split
      · exact ⟨h.early_move (c := .valid) rfl (by simp) hsn rfl (by simp [h.atom, hsn]) rfl rfl rfl hcall (fun _ _ => Iff.rfl) (fun _ _ => Iff.rfl), fun _ => Iff.rfl⟩
      · exact ⟨h.early_move (c := .valid) rfl (by simp) hsn hnil h.atom rfl rfl rfl hcall (fun _ _ => Iff.rfl) (fun _ _ => Iff.rfl), fun _ => Iff.rfl⟩
    | other => exact ⟨h.early_move (c := .valid) rfl (by simp) hsn rfl hsn rfl rfl rfl hcall (fun _ _ => Iff.rfl) (fun _ _ => Iff.rfl), fun _ => Iff.rfl⟩
  · rename_i hpc
    have hcall := called (by simp [hpc])
    have hsn := h.early t (.inr (.inl hpc))
    rw [if_pos rfl] at hs
    cases hs
    exact ⟨h.early_move (c := .valid) rfl (by simp) hsn rfl hsn rfl rfl rfl hcall (fun _ _ => Iff.rfl) (fun _ _ => Iff.rfl), fun _ => Iff.rfl⟩
  · rename_i hpc
    have hcall := called (by simp [hpc])
    cases ha : access t false s with
    | ub w => rw [ha] at hs; cases hs
    | ok s1 =>
      rw [ha] at hs; cases hs
      obtain ⟨rfl, _⟩ := access_eq ha
      refine ⟨h.access_move ha (c := if s.future then .get else .ret false) rfl ?_ hcall rfl rfl rfl rfl rfl (fun h => .inl h) ?_, fun _ => Iff.rfl⟩
      · split <;> simp
      · cases hf : s.future <;> simp
  · rename_i hpc
    have hcall := called (by simp [hpc])
    cases ha : access t false s with
    | ub w => rw [ha] at hs; cases hs
    | ok s1 =>
      rw [ha] at hs; cases hs
      obtain ⟨rfl, _⟩ := access_eq ha
      exact ⟨h.access_move ha (c := .wait) rfl (by simp) hcall rfl rfl rfl rfl rfl (fun h => .inl h) (by simp), fun _ => Iff.rfl⟩
  · rename_i hpc
    have hcall := called (by simp [hpc])
    split at hs
    · cases hs
    · rename_i r hr
      have hnil : upd s.seen t (s.seen t ++ s.wseen) = s.seen := by
        funext u; by_cases e : u = t
        · subst e; simp [h.wseen]
        · rw [upd_ne _ _ e]
      rw [hnil] at hs
      cases ha : access t true s with
      | ub w => 
        have : access t true { s with seen := s.seen } = .ub w := ha
        rw [this] at hs; cases hs
      | ok s1 =>
        have : access t true { s with seen := s.seen } = .ok s1 := ha
        rw [this] at hs; cases hs
        obtain ⟨rfl, _⟩ := access_eq ha
        exact ⟨h.access_move ha (c := .ret r) rfl (by simp) hcall rfl rfl rfl rfl rfl (fun _ => .inr rfl) (fun _ _ => .inr rfl), fun _ => Iff.rfl⟩
  · rename_i b hpc
    have hcall := called (by simp [hpc])
    cases hs
    have hself : upd s.pc t .out t = .out := by simp
    refine ⟨⟨h.atom, h.wseen, ?_, ?_, h.own, h.lt, ?_, h.writer, h.fut, ?_⟩, by simp⟩
    · intro u hu
      by_cases e : u = t
      · subst e; simp [hcall] at hu
      · simp only [upd_ne _ _ e] at hu; simp at hu; exact h.early u hu
    · intro u hu
      by_cases e : u = t
      · subst e; simp
      · simp at hu; show upd s.pc t .out u = .out; rw [upd_ne _ _ e]; exact h.idle u hu
    · intro u hu
      by_cases e : u = t
      · subst e; exact h.used u (.inr (.inr (.inl ⟨b, hpc⟩)))
      · simp only [upd_ne _ _ e] at hu
        refine h.used u ?_
        simpa [e] using hu
    · intro u c hu
      by_cases e : u = t
      · subst e; exact h.ended u b (.inl hpc)
      · simp only [upd_ne _ _ e] at hu
        refine h.ended u c ?_
        simpa [e] using hu

theorem race_run {p acts s} (h : Race s) (hn : NoLock acts) (hw : WritesOk acts)
    (h1 : ∀ t, .call t ∈ acts → Obs.call t ∉ s.log) (h2 : OneEach acts) {s'} (hr : run p s acts = .ok (some s')) : Race s' := by
  induction acts generalizing s with
  | nil => cases hr; exact h
  | cons a as ih =>
    simp only [run] at hr
    have key : ∀ s1, step p s a = .ok (some s1) → Race s1 ∧ ∀ t, .call t ∈ as → Obs.call t ∉ s1.log := by
      intro s1 hs
      cases a with
      | call t =>
        simp only [step] at hs
        split at hs <;> cases hs
        have hnc := h1 t (by simp)
        refine ⟨h.early_move (c := .enter) rfl (by simp) (h.early t (by simp [hnc])) rfl h.atom rfl rfl rfl (by simp) ?_ (by simp), ?_⟩
        · intro u hu; simp [hu]
        · intro u hu
          have hut : u ≠ t := by
            rintro rfl
            have := h2 u
            rw [List.count_cons_self] at this
            have : 0 < as.count (Act.call u) := List.count_pos_iff.mpr hu
            omega
          have := h1 u (List.mem_cons_of_mem _ hu)
          simpa [hut] using this
      | step t ok =>
        cases ok with
        | false => exact absurd (by simp) (hw t)
        | true =>
          obtain ⟨h3, h4⟩ := cstep_race h hs
          refine ⟨h3, fun u hu => ?_⟩
          rw [h4]; exact h1 u (List.mem_cons_of_mem _ hu)
      | lock t => exact absurd (by simp) (hn t).1
      | unlock t => exact absurd (by simp) (hn t).2
      | wload =>
        cases hs
        exact ⟨⟨h.atom, by simp [h.wseen, h.atom], h.early, h.idle, h.own, h.lt, h.used, h.writer, h.fut, h.ended⟩, fun u hu => h1 u (List.mem_cons_of_mem _ hu)⟩
      | wstore v =>
        cases hs
        exact ⟨⟨h.wseen, h.wseen, h.early, h.idle, h.own, h.lt, h.used, h.writer, h.fut, h.ended⟩, fun u hu => h1 u (List.mem_cons_of_mem _ hu)⟩
      | wend r =>
        simp only [step] at hs
        split at hs <;> cases hs
        exact ⟨⟨h.atom, h.wseen, h.early, h.idle, h.own, h.lt, h.used, h.writer, h.fut, h.ended⟩, fun u hu => h1 u (List.mem_cons_of_mem _ hu)⟩
    cases hs : step p s a with
    | ub w => rw [hs] at hr; cases hr
    | ok o =>
      cases o with
      | none => rw [hs] at hr; cases hr
      | some s1 =>
        rw [hs] at hr
        obtain ⟨h3, h4⟩ := key s1 hs
        refine ih h3 (fun t => ⟨fun h => (hn t).1 (List.mem_cons_of_mem _ h), fun h => (hn t).2 (List.mem_cons_of_mem _ h)⟩)
          (fun t ht => hw t (List.mem_cons_of_mem _ ht)) h4 ?_ hr
        intro t
        exact Nat.le_trans (List.count_le_count_cons ..) (h2 t)

end Thr137

open Thr137

/-- C137, part: if every thread calls `close()` only while it holds a mutex, nothing undefined happens and the answers are sound. -/
theorem C137_guarded_partial (p : Plat) (acts : List Act) (hg : Guarded acts) :
    ∃ o, run p {} acts = .ok o ∧ ∀ s, o = some s → Sound s.log s.result := by
  obtain ⟨o, ho, hi⟩ := guarded_run (wok := false) (p := p) (acts := acts) (s := {}) (by simp) (init_inv _ _) hg
  exact ⟨o, ho, fun s hs => (hi s hs).sound⟩

/-- C137, part: the same if only one thread calls it, however often. -/
theorem C137_one_thread_partial (p : Plat) (acts : List Act) (t : Nat) (hg : OnlyBy t acts) :
    ∃ o, run p {} acts = .ok o ∧ ∀ s, o = some s → Sound s.log s.result := by
  obtain ⟨o, ho, hi⟩ := only_run (wok := false) (p := p) (acts := acts) (s := {}) (by simp) (init_inv _ _) hg
  exact ⟨o, ho, fun s hs => (hi s hs).sound⟩

theorem Thr137.Inv.head {own s} (h : Inv true own s) (hne : answers s.log ≠ []) :
    ∃ r n, s.result = some r ∧ answers s.log = r :: List.replicate n false := by
  cases hf : s.future with
  | true => exact absurd ((h.first rfl).1 hf).1 hne
  | false =>
    obtain ⟨r, h1, h2⟩ := (h.first rfl).2 hf
    rcases h2 with ⟨ha, _⟩ | ⟨⟨n, hn⟩, _⟩
    · exact absurd ha hne
    · exact ⟨r, n, h1, hn⟩

/-- C137, part: in both cases, if `eventfd_write` does not fail, the first call that returns answers what the watching thread's
function returned, and all others answer false, whichever threads they are in. -/
theorem C137_answers_partial (p : Plat) (acts : List Act) (hg : Guarded acts ∨ ∃ t, OnlyBy t acts) (hw : WritesOk acts) (s : St)
    (hs : run p {} acts = .ok (some s)) (hne : answers s.log ≠ []) :
    ∃ r n, s.result = some r ∧ answers s.log = r :: List.replicate n false := by
  rcases hg with hg | ⟨t, hg⟩
  · obtain ⟨o, ho, hi⟩ := guarded_run (wok := true) (p := p) (acts := acts) (s := {}) (fun _ => hw) (init_inv _ _) hg
    rw [ho] at hs; cases hs
    exact (hi s rfl).head hne
  · obtain ⟨o, ho, hi⟩ := only_run (wok := true) (p := p) (acts := acts) (s := {}) (fun _ => hw) (init_inv _ _) hg
    rw [ho] at hs; cases hs
    exact (hi s rfl).head hne

/-- C137, the other side: without synchronisation there is no defined execution in which `close()` returns in two threads,
whatever the order of their steps, even if they do not overlap. -/
theorem C137_unsynchronised (p : Plat) (acts : List Act) (hn : NoLock acts) (h1 : OneEach acts) (hw : WritesOk acts) (s : St)
    (hs : run p {} acts = .ok (some s)) (t u : Nat) (b c : Bool) (ht : Obs.ret t b ∈ s.log) (hu : Obs.ret u c ∈ s.log) : t = u :=
  (race_run init_race hn hw (by simp) h1 hs).one ht hu

/-! ### The hypotheses are met -/

/-- Two threads with a mutex: the second call waits for its turn, and answers false. -/
def inTurn : List Act :=
  [.lock 0, .call 0, .step 0 true, .step 0 true, .step 0 true, .wload, .wstore .released, .wend true, .step 0 true, .step 0 true, .step 0 true, .unlock 0,
   .lock 1, .call 1, .step 1 true, .step 1 true, .step 1 true, .unlock 1]

def closeLog (p : Plat) (acts : List Act) : Option (List Obs) :=
  match run p {} acts with | .ok (some s) => some s.log | _ => none

example : closeLog .linux inTurn = some [.call 0, .ret 0 true, .call 1, .ret 1 false] := by decide +kernel

example : Guarded inTurn := by
  have split : ∀ (acts : List Act), (∀ k, k < acts.length → ∀ t, acts[k]? = some (.call t) → holds none (acts.take k) = some t) → Guarded acts := by
    intro acts h pre t post e
    have hk : pre.length < acts.length := by rw [e]; simp
    have := h pre.length hk t (by rw [e]; simp)
    rwa [e, List.take_left'] at this
    rfl
  apply split
  intro k hk t h
  have : k < 18 := hk
  rcases k with _|_|_|_|_|_|_|_|_|_|_|_|_|_|_|_|_|_|k <;> first | omega | (simp [inTurn] at h; try (subst h; rfl))

example : WritesOk inTurn := by intro t; simp [inTurn]

/-- One thread that closes twice. -/
example : closeLog .other [.call 3, .step 3 true, .step 3 true, .step 3 true, .wend true, .step 3 true, .step 3 true, .call 3, .step 3 true, .step 3 true, .step 3 true]
    = some [.call 3, .ret 3 true, .call 3, .ret 3 false] := by decide +kernel

/-- Without the mutex one thread may close while the other has not begun: defined so far. -/
example : closeLog .darwin [.call 0, .step 0 true, .step 0 true, .step 0 true, .wend true, .step 0 true, .step 0 true, .call 1, .step 1 true]
    = some [.call 0, .ret 0 true, .call 1] := by decide +kernel

example : NoLock twoThreads ∧ OneEach twoThreads ∧ WritesOk twoThreads := by
  refine ⟨by intro t; simp [twoThreads], ?_, by intro t; simp [twoThreads]⟩
  intro t
  by_cases h0 : t = 0
  · subst h0; decide
  · by_cases h1 : t = 1
    · subst h1; decide
    · have h0' : 0 ≠ t := fun e => h0 e.symm
      have h1' : 1 ≠ t := fun e => h1 e.symm
      simp [twoThreads, h0', h1']

end Verif.Props
