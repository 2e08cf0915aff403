import Verif.Lemmas.Polled
/-! Closing ends: a potential for `Model/Polled.lean`. -/
namespace Verif.Lemmas.Poll
open Verif Verif.Model Verif.Model.Poll Verif.Spec.Poll

variable {B : Backend} {d : Bool} {is is' : List B.ι}

/-- A back end that soon asks for the stop flag: from good places, with calm answers, only `rank` turns go by
without that. -/
structure Prompt (B : Backend) (good : B.σ → Prop) (calm : B.ι → Prop) (rank : B.σ → Nat) (R : Nat) : Prop where
  start : ∀ i es b, calm i → B.start i = some (es, .inl b) → good b ∧ rank b ≤ R
  turn : ∀ b i es b', good b → calm i → B.turn b i = some (es, .inl b') → good b' ∧ (B.head b' = true ∨ rank b' < rank b)

/-- Steps still to come before the next loop condition is evaluated. -/
def phiNext (rank : B.σ → Nat) : B.σ ⊕ Bool → Nat
  | .inl b => 1 + (if B.head b then 2 else 5 + 3 * rank b)
  | .inr _ => 2

/-- Steps the worker still makes once the signal is given, deliveries aside. -/
def phi (rank : B.σ → Nat) (R : Nat) : WPc B → Nat
  | .finished => 0
  | .setFut _ => 1
  | .die _ _ => 1
  | .head b => if B.head b then 2 else 5 + 3 * rank b
  | .turn b => 4 + 3 * rank b
  | .deliver _ n => phiNext rank n
  | .opening => 7 + 3 * R
  | .live _ => 7 + 3 * R
  | .check => 8 + 3 * R
  | .start => 9 + 3 * R
  | .inCb n => phi rank R n + 1
  | .selfClose .store n => phi rank R n + 4
  | .selfClose .valid n => phi rank R n + 3
  | .selfClose .get n => phi rank R n + 2

/-- The back end's place is good. -/
def GoodAt (good : B.σ → Prop) (w : WPc B) : Prop :=
  match place w with
  | .head b => good b
  | .turn b => good b
  | .deliver _ (.inl b) => good b
  | _ => True

/-- Actions with calm answers, in which callbacks do not call `close()`. -/
def CalmAct (calm : B.ι → Prop) : Act B → Prop
  | .sys i => calm i
  | .cbClose => False
  | _ => True

theorem phi_step {good : B.σ → Prop} {calm : B.ι → Prop} {rank : B.σ → Nat} {R : Nat} (hp : Prompt B good calm rank R)
    {s s' : St B} {a : Act B} (hi : s.is ≠ .pending) (hg : GoodAt good s.w) (hc : CalmAct calm a) (hs : step d s a = some s') :
    s'.is ≠ .pending ∧ GoodAt good s'.w ∧
    (if isWorker a then 1 else 0) + phi rank R s'.w + 2 * (callbacks s.log).length ≤ phi rank R s.w + 2 * (callbacks s'.log).length := by
  cases ha : isWorker a with
  | false =>
    obtain ⟨_, k2, k3, k4⟩ := owner_step ha hs
    exact ⟨k4 hi, by rw [k2]; exact hg, by rw [k2, k3]; simp⟩
  | true =>
    cases a with
    | o => simp [isWorker] at ha
    | oClose => simp [isWorker] at ha
    | oDtor => simp [isWorker] at ha
    | cbClose => exact absurd hc id
    | cbReturn =>
      simp only [step] at hs
      split at hs
      · rename_i n hw
        injection hs with hs; subst hs
        refine ⟨hi, ?_, ?_⟩
        · simpa [GoodAt, hw, place] using hg
        · simp [hw, phi]; omega
      · cases hs
    | sys i =>
      simp only [step] at hs
      split at hs
      · rename_i hw
        cases hq : B.start i with
        | none => simp [hq] at hs
        | some q =>
          obtain ⟨es, n⟩ := q
          rw [hq] at hs; injection hs with hs; subst hs
          cases n with
          | inl b =>
            obtain ⟨h1, h2⟩ := hp.start i es b hc hq
            refine ⟨hi, by simpa [GoodAt, place] using h1, ?_⟩
            cases hh : B.head b <;> simp [hw, phi, phiNext, hh] <;> omega
          | inr r => exact ⟨hi, by simp [GoodAt, place], by simp [hw, phi, phiNext]; omega⟩
      · rename_i b hw
        cases hq : B.turn b i with
        | none => simp [hq] at hs
        | some q =>
          obtain ⟨es, n⟩ := q
          rw [hq] at hs; injection hs with hs; subst hs
          have hgb : good b := by simpa [GoodAt, hw, place] using hg
          cases n with
          | inl b' =>
            obtain ⟨h1, h2⟩ := hp.turn b i es b' hgb hc hq
            refine ⟨hi, by simpa [GoodAt, place] using h1, ?_⟩
            cases hh : B.head b' with
            | true => simp [hw, phi, phiNext, hh]
            | false =>
              have := h2.resolve_left (by simp [hh])
              simp [hw, phi, phiNext, hh]; omega
          | inr r => exact ⟨hi, by simp [GoodAt, place], by simp [hw, phi, phiNext]; omega⟩
      · cases hs
    | w =>
      simp only [step, wStep] at hs
      cases hw : s.w with
      | start =>
        rw [hw] at hs; injection hs with hs; subst hs
        refine ⟨hi, ?_, ?_⟩ <;> cases d <;> simp [GoodAt, place, phi] <;> omega
      | check =>
        rw [hw] at hs; injection hs with hs; subst hs
        exact ⟨hi, by simp [GoodAt, place], by simp [phi]; omega⟩
      | live pre =>
        rw [hw] at hs; injection hs with hs; subst hs
        refine ⟨hi, ?_, ?_⟩ <;> cases pre <;> simp [GoodAt, place, phi, callCb, callbacks_append, callbacks] <;> omega
      | opening => rw [hw] at hs; cases hs
      | turn b => rw [hw] at hs; cases hs
      | finished => rw [hw] at hs; cases hs
      | inCb n => rw [hw] at hs; cases hs
      | die a b =>
        rw [hw] at hs; injection hs with hs; subst hs
        exact ⟨hi, by simp [GoodAt, place, callCb], by simp [phi, callCb, callbacks_append, callbacks]; omega⟩
      | setFut r =>
        rw [hw] at hs; injection hs with hs; subst hs
        exact ⟨hi, by simp [GoodAt, place], by simp [phi]⟩
      | deliver es n =>
        rw [hw] at hs hg
        cases es with
        | cons e es =>
          injection hs with hs; subst hs
          refine ⟨hi, ?_, by simp [phi, callCb, callbacks_append, callbacks]; omega⟩
          cases n <;> first | exact hg | simp [GoodAt, place, callCb]
        | nil =>
          cases n with
          | inl b =>
            injection hs with hs; subst hs
            exact ⟨hi, by simpa [GoodAt, place] using hg, by simp [phi, phiNext]⟩
          | inr r =>
            injection hs with hs; subst hs
            exact ⟨hi, by simp [GoodAt, place], by simp [phi, phiNext]⟩
      | head b =>
        rw [hw] at hs hg
        simp only at hs
        split at hs
        · rename_i hb
          injection hs with hs; subst hs
          exact ⟨hi, by simp [GoodAt, place], by simp [phi, hb]⟩
        · rename_i hb
          injection hs with hs; subst hs
          exact ⟨hi, by simpa [GoodAt, place] using hg, by simp [phi, hb]; omega⟩
      | selfClose c n =>
        rw [hw] at hs hg
        have hgn : GoodAt good n := by simpa [GoodAt, place] using hg
        cases hcs : closeStep s c with
        | none => simp [hcs] at hs
        | some p =>
          obtain ⟨s1, r⟩ := p
          obtain ⟨k1, k2, k3, k4, k5⟩ := closeStep_eq hcs
          cases r with
          | inl c' =>
            simp only [hcs] at hs; injection hs with hs; subst hs
            refine ⟨k5 hi, by simpa [GoodAt, place] using hgn, ?_⟩
            cases c with
            | store => injection hcs with hcs; injection hcs with h1 h2; injection h2 with h2; subst h2; simp [phi, k4]; omega
            | valid =>
              simp only [closeStep] at hcs
              split at hcs <;> injection hcs with hcs <;> injection hcs with h1 h2
              · injection h2 with h2; subst h2; simp [phi, k4]; omega
              · cases h2
            | get =>
              simp only [closeStep] at hcs
              split at hcs
              · cases hcs
              · injection hcs with hcs; injection hcs with h1 h2; cases h2
          | inr b =>
            simp only [hcs] at hs; injection hs with hs; subst hs
            refine ⟨k5 hi, by simpa [GoodAt, place] using hgn, ?_⟩
            cases c with
            | store => injection hcs with hcs; injection hcs with h1 h2; cases h2
            | valid => simp [phi, k4]; omega
            | get => simp [phi, k4]; omega

theorem phi_run {good : B.σ → Prop} {calm : B.ι → Prop} {rank : B.σ → Nat} {R : Nat} (hp : Prompt B good calm rank R) :
    ∀ (acts : List (Act B)) (s s' : St B), s.is ≠ .pending → GoodAt good s.w → (∀ a ∈ acts, CalmAct calm a) → run d s acts = some s' →
    (acts.filter isWorker).length + phi rank R s'.w + 2 * (callbacks s.log).length ≤ phi rank R s.w + 2 * (callbacks s'.log).length := by
  intro acts
  induction acts with
  | nil => intro s s' _ _ _ h; injection h with h; subst h; simp
  | cons a as ih =>
    intro s s' hi hg hc h
    simp only [run] at h
    cases hs : step d s a with
    | none => simp [hs] at h
    | some s1 =>
      rw [hs] at h
      obtain ⟨k1, k2, k3⟩ := phi_step hp hi hg (hc a (by simp)) hs
      have := ih s1 s' k1 k2 (fun a ha => hc a (by simp [ha])) h
      cases hw : isWorker a
      · simp [hw] at k3; simp [hw]; omega
      · simp [hw] at k3; simp [hw]; omega

/-- The end, from where the worker is: a schedule of its own that gets there. -/
theorem reach_end {good : B.σ → Prop} {calm : B.ι → Prop} {rank : B.σ → Nat} {R : Nat} (hp : Prompt B good calm rank R)
    (hst : ∃ i, calm i ∧ (B.start i).isSome = true) (htu : ∀ b, good b → ∃ i, calm i ∧ (B.turn b i).isSome = true) :
    ∀ (k : Nat) (s : St B) (is : List B.ι), phi rank R s.w ≤ k → Inv d is s → s.is ≠ .pending → GoodAt good s.w → (∀ c n, s.w ≠ .selfClose c n) →
    ∃ acts s', (∀ a ∈ acts, CalmAct calm a ∧ isWorker a = true) ∧ run d s acts = some s' ∧ s'.w = .finished := by
  -- deliveries
  have drain : ∀ (es : List B.ε) (s : St B) (n), s.w = .deliver es n → ∃ acts s', (∀ a ∈ acts, CalmAct calm a ∧ isWorker a = true) ∧
      run d s acts = some s' ∧ s'.w = .deliver [] n := by
    intro es
    induction es with
    | nil => intro s n hw; exact ⟨[], s, by simp, rfl, hw⟩
    | cons e es ih =>
      intro s n hw
      have h1 : run d s [.w, .cbReturn] = some { s with log := s.log ++ [.cb (.ev e)], w := .deliver es n } := by
        simp [run, step, wStep, hw, callCb]
      obtain ⟨acts, s', h2, h3, h4⟩ := ih { s with log := s.log ++ [.cb (.ev e)], w := .deliver es n } n rfl
      refine ⟨[.w, .cbReturn] ++ acts, s', ?_, by rw [run_append, h1]; exact h3, h4⟩
      intro a ha
      simp at ha
      rcases ha with rfl | rfl | ha
      · simp [CalmAct, isWorker]
      · simp [CalmAct, isWorker]
      · exact h2 a ha
  intro k
  induction k with
  | zero =>
    intro s is hk hi hrel hg hns
    refine ⟨[], s, by simp, rfl, ?_⟩
    cases hw : s.w with
    | finished => rfl
    | deliver es n => rw [hw] at hk; cases n <;> simp [phi, phiNext] at hk
    | head b => rw [hw] at hk; simp only [phi] at hk; split at hk <;> omega
    | selfClose c n => exact absurd hw (hns c n)
    | _ => rw [hw] at hk; simp [phi] at hk
  | succ k ih =>
    intro s is hk hi hrel hg hns
    by_cases hf : s.w = .finished
    · exact ⟨[], s, by simp, rfl, hf⟩
    -- enough: a schedule to a state of lower potential
    have via : ∀ (acts : List (Act B)) (s1 : St B), (∀ a ∈ acts, CalmAct calm a ∧ isWorker a = true) → run d s acts = some s1 →
        phi rank R s1.w ≤ k → (∀ c n, s1.w ≠ .selfClose c n) →
        ∃ acts s', (∀ a ∈ acts, CalmAct calm a ∧ isWorker a = true) ∧ run d s acts = some s' ∧ s'.w = .finished := by
      intro acts s1 h1 h2 h3 h4
      have hpres : s1.is ≠ .pending ∧ GoodAt good s1.w := by
        have : ∀ (acts : List (Act B)) (s s1 : St B), s.is ≠ .pending → GoodAt good s.w → (∀ a ∈ acts, CalmAct calm a) → run d s acts = some s1 →
            s1.is ≠ .pending ∧ GoodAt good s1.w := by
          intro acts
          induction acts with
          | nil => intro s s1 a b _ h; injection h with h; subst h; exact ⟨a, b⟩
          | cons a as ih =>
            intro s s1 hi hg hc h
            simp only [run] at h
            cases hs : step d s a with
            | none => simp [hs] at h
            | some s2 =>
              rw [hs] at h
              obtain ⟨k1, k2, _⟩ := phi_step hp hi hg (hc a (by simp)) hs
              exact ih s2 s1 k1 k2 (fun a ha => hc a (by simp [ha])) h
        exact this acts s s1 hrel hg (fun a ha => (h1 a ha).1) h2
      obtain ⟨bs, s', k1, k2, k3⟩ := ih s1 _ h3 (inv_run hi h2) hpres.1 hpres.2 h4
      refine ⟨acts ++ bs, s', ?_, by rw [run_append, h2]; exact k2, k3⟩
      intro a ha
      rcases List.mem_append.1 ha with ha | ha
      · exact h1 a ha
      · exact k1 a ha
    have one : ∀ (a : Act B) (s1 : St B), CalmAct calm a → isWorker a = true → step d s a = some s1 →
        phi rank R s1.w ≤ k → (∀ c n, s1.w ≠ .selfClose c n) →
        ∃ acts s', (∀ a ∈ acts, CalmAct calm a ∧ isWorker a = true) ∧ run d s acts = some s' ∧ s'.w = .finished := by
      intro a s1 h1 h2 h3 h4 h5
      exact via [a] s1 (by simp [h1, h2]) (by simp [run, h3]) h4 h5
    cases hw : s.w with
    | finished => exact absurd hw hf
    | selfClose c n => exact absurd hw (hns c n)
    | start =>
      rw [hw] at hk
      refine one .w { s with w := if d then .check else .live false } (by simp [CalmAct]) rfl (by simp [step, wStep, hw]) ?_ ?_
      · simp only [phi] at hk
        cases d <;> simp [phi] <;> omega
      · cases d <;> simp
    | check =>
      rw [hw] at hk
      refine one .w { s with w := .live (decide (s.is = .pending)) } (by simp [CalmAct]) rfl (by simp [step, wStep, hw]) ?_ (by simp)
      simp only [phi] at hk ⊢; omega
    | live pre =>
      rw [hw] at hk
      simp only [phi] at hk
      cases pre with
      | false =>
        refine via [.w, .cbReturn] { s with log := s.log ++ [.cb (.live false)], w := .die false false } (by simp [CalmAct, isWorker])
          (by simp [run, step, wStep, hw, callCb]) ?_ (by simp)
        simp [phi]; omega
      | true =>
        obtain ⟨i, hci, hso⟩ := hst
        cases hq : B.start i with
        | none => simp [hq] at hso
        | some q =>
          refine via [.w, .cbReturn, .sys i] { s with log := s.log ++ [.cb (.live true)], w := .deliver q.1 q.2 } (by simp [CalmAct, isWorker, hci])
            (by simp [run, step, wStep, hw, callCb, hq]) ?_ (by simp)
          obtain ⟨es, n⟩ := q
          cases n with
          | inl b =>
            have := (hp.start i es b hci hq).2
            simp only [phi, phiNext]; split <;> omega
          | inr r => simp [phi, phiNext]; omega
    | opening =>
      rw [hw] at hk
      simp only [phi] at hk
      obtain ⟨i, hci, hso⟩ := hst
      cases hq : B.start i with
      | none => simp [hq] at hso
      | some q =>
        refine one (.sys i) { s with w := .deliver q.1 q.2 } hci rfl (by simp [step, hw, hq]) ?_ (by simp)
        obtain ⟨es, n⟩ := q
        cases n with
        | inl b =>
          have := (hp.start i es b hci hq).2
          simp only [phi, phiNext]; split <;> omega
        | inr r => simp [phi, phiNext]; omega
    | turn b =>
      rw [hw] at hk hg
      simp only [phi] at hk
      have hgb : good b := by simpa [GoodAt, place] using hg
      obtain ⟨i, hci, hso⟩ := htu b hgb
      cases hq : B.turn b i with
      | none => simp [hq] at hso
      | some q =>
        refine one (.sys i) { s with w := .deliver q.1 q.2 } hci rfl (by simp [step, hw, hq]) ?_ (by simp)
        obtain ⟨es, n⟩ := q
        cases n with
        | inl b' =>
          have := (hp.turn b i es b' hgb hci hq).2
          simp only [phi, phiNext]
          split
          · omega
          · rename_i hh; have := this.resolve_left hh; omega
        | inr r => simp [phi, phiNext]; omega
    | deliver es n =>
      rw [hw] at hk
      obtain ⟨acts, s1, h1, h2, h3⟩ := drain es s n hw
      cases n with
      | inl b =>
        refine via (acts ++ [.w]) { s1 with w := .head b } ?_ (by rw [run_append, h2]; simp [run, step, wStep, h3]) ?_ (by simp)
        · intro a ha
          simp at ha
          rcases ha with ha | rfl
          · exact h1 a ha
          · simp [CalmAct, isWorker]
        · simp only [phi, phiNext] at hk ⊢; omega
      | inr r =>
        refine via (acts ++ [.w]) { s1 with w := .die true r } ?_ (by rw [run_append, h2]; simp [run, step, wStep, h3]) ?_ (by simp)
        · intro a ha
          simp at ha
          rcases ha with ha | rfl
          · exact h1 a ha
          · simp [CalmAct, isWorker]
        · simp only [phi, phiNext] at hk ⊢; omega
    | head b =>
      rw [hw] at hk
      simp only [phi] at hk
      cases hb : B.head b with
      | true =>
        refine one .w { s with w := .die true true } (by simp [CalmAct]) rfl (by simp [step, wStep, hw, hb, hrel]) ?_ (by simp)
        simp [hb] at hk; simp [phi]; omega
      | false =>
        refine one .w { s with w := .turn b } (by simp [CalmAct]) rfl (by simp [step, wStep, hw, hb]) ?_ (by simp)
        simp [hb] at hk; simp [phi]; omega
    | die pre post =>
      refine via [.w, .cbReturn, .w] { s with log := s.log ++ [.cb (.die post)], w := .finished, fut := some (pre && post) } (by simp [CalmAct, isWorker])
        (by simp [run, step, wStep, hw, callCb]) (by simp [phi]) (by simp)
    | setFut r =>
      exact one .w { s with fut := some r, w := .finished } (by simp [CalmAct]) rfl (by simp [step, wStep, hw]) (by simp [phi]) (by simp)
    | inCb n =>
      rw [hw] at hk
      have hpl := hi.nest1 n hw
      refine one .cbReturn { s with w := n } (by simp [CalmAct]) rfl (by simp [step, hw]) (by simp only [phi] at hk; simp; omega) ?_
      intro c m e
      simp only at e
      subst e; simp [plain] at hpl

/-- When the worker is done, nobody is kept waiting. -/
theorem owner_goes_on {s : St B} (hi : Inv d is s) (hw : s.w = .finished) (h1 : s.o ≠ .idle) (h2 : s.o ≠ .gone) : (oStep s).isSome = true := by
  have hf := hi.fin.2 hw
  cases hfut : s.fut with
  | none => simp [hfut] at hf
  | some b =>
    have hcase : ∀ c, ∃ s1 r, closeStep s c = some (s1, r) := by
      intro c
      cases c with
      | store => exact ⟨_, _, rfl⟩
      | valid => simp only [closeStep]; split <;> exact ⟨_, _, rfl⟩
      | get => simp only [closeStep, hfut]; exact ⟨_, _, rfl⟩
    cases ho : s.o with
    | idle => exact absurd ho h1
    | gone => exact absurd ho h2
    | closing c => obtain ⟨s1, r, hx⟩ := hcase c; cases r <;> simp [oStep, ho, hx]
    | dtorClosing c => obtain ⟨s1, r, hx⟩ := hcase c; cases r <;> simp [oStep, ho, hx]
    | dtorFuture => simp only [oStep, ho, hfut]; split <;> rfl

/-! ### The two back ends -/

def scanRank : scanner.σ → Nat := fun s => if s.2 then 0 else 1

theorem scanner_prompt : Prompt scanner (fun _ => True) (fun _ => True) scanRank 1 := by
  constructor
  · intro i es b _ h
    simp only [scanner] at h
    injection h with h; injection h with h1 h2; injection h2 with h2; subst h2
    simp [scanRank]
  · rintro ⟨b, t⟩ i es ⟨b', t'⟩ _ _ h
    refine ⟨trivial, ?_⟩
    simp only [scanner] at h
    have ht : t' = !t := by
      split at h
      · injection h with h; injection h with h1 h2; injection h2 with h2; injection h2 with h3 h4; exact h4.symm
      · injection h with h; injection h with h1 h2; cases h2
      · cases h
      · cases h
    subst ht
    cases t with
    | true => left; simp [scanner]
    | false => right; simp [scanRank]

theorem scanner_start : ∃ i, True ∧ (scanner.start i).isSome = true := ⟨⟨.missing, fun _ => false⟩, trivial, rfl⟩

theorem scanner_turn (b : scanner.σ) : True → ∃ i, True ∧ (scanner.turn b i).isSome = true := by
  intro _
  obtain ⟨b, t⟩ := b
  cases t with
  | true => exact ⟨⟨.missing, fun _ => false⟩, trivial, by simp [scanner, Warthog.scan]⟩
  | false =>
    refine ⟨⟨.missing, fun _ => false⟩, trivial, ?_⟩
    simp only [scanner, Warthog.tend, Warthog.populate]
    cases b <;> simp

def winGood : windows.σ → Prop := fun s => s.2 = .first → (s.1.valid && s.1.ready != 0) = false
def winRank : windows.σ → Nat := fun s => if s.2 = .outer then 2 else if s.2 = .inner ∧ (s.1.valid && s.1.ready != 0) = true then 1 else 0

theorem windows_prompt : Prompt windows winGood Queued winRank 2 := by
  constructor
  · intro i es b hc h
    cases i with
    | opened v a =>
      cases v with
      | false => simp only [windows] at h; injection h with h; injection h with h1 h2; cases h2
      | true =>
        simp only [windows] at h
        injection h with h; injection h with h1 h2; injection h2 with h2; subst h2
        refine ⟨?_, by simp [winRank]⟩
        intro _
        cases a with
        | ok n evs => simp only [Queued] at hc; subst hc; simp [Windows.start, Windows.recv]
        | pendingError => simp [Windows.start, Windows.recv]
        | otherError => simp [Windows.start, Windows.recv]
    | none => simp [windows] at h
    | completion c => simp [windows] at h
    | failed => simp [windows] at h
    | read a => simp [windows] at h
  · rintro ⟨w, at'⟩ i es ⟨w', at''⟩ hg hc h
    cases at' with
    | first =>
      have hg' := hg rfl
      simp only at hg'
      cases i with
      | none =>
        simp only [windows, hg'] at h
        injection h with h; injection h with h1 h2; injection h2 with h2; injection h2 with h3 h4
        subst h3; subst h4
        exact ⟨by simp [winGood], .inl rfl⟩
      | _ => simp [windows] at h
    | outer =>
      cases i with
      | completion c =>
        cases c with
        | none =>
          simp only [windows] at h
          injection h with h; injection h with h1 h2; injection h2 with h2; injection h2 with h3 h4
          subst h3; subst h4
          exact ⟨by simp [winGood], .inl rfl⟩
        | some p =>
          obtain ⟨n, evs⟩ := p
          simp only [windows] at h
          split at h
          · injection h with h; injection h with h1 h2; injection h2 with h2; injection h2 with h3 h4
            subst h3; subst h4
            refine ⟨by simp [winGood], .inr ?_⟩
            simp only [winRank]; split <;> simp_all <;> split <;> omega
          · cases h
      | failed =>
        simp only [windows] at h
        split at h
        · injection h with h; injection h with h1 h2; injection h2 with h2; injection h2 with h3 h4
          subst h3; subst h4
          exact ⟨by simp [winGood], .inl rfl⟩
        · cases h
      | _ => simp [windows] at h
    | inner =>
      cases i with
      | none =>
        simp only [windows] at h
        split at h
        · cases h
        · injection h with h; injection h with h1 h2; injection h2 with h2; injection h2 with h3 h4
          subst h3; subst h4
          exact ⟨by simp [winGood], .inl rfl⟩
      | read a =>
        simp only [windows] at h
        split at h
        · rename_i hv
          have hv1 : w.valid = true := by revert hv; cases w.valid <;> simp
          injection h with h; injection h with h1 h2; injection h2 with h2; injection h2 with h3 h4
          subst h3; subst h4
          refine ⟨by simp [winGood], .inr ?_⟩
          have hz : ((Windows.recv (Windows.send w) a).valid && (Windows.recv (Windows.send w) a).ready != 0) = false := by
            cases a with
            | ok n evs => simp only [Queued] at hc; subst hc; simp [Windows.send, Windows.recv, hv1]
            | pendingError => simp [Windows.send, Windows.recv, hv1]
            | otherError => simp [Windows.send, Windows.recv, hv1]
          simp [winRank, hv]
          simp at hz
          intro h; simp [hz h]
        · cases h
      | _ => simp [windows] at h

theorem windows_start : ∃ i, Queued i ∧ (windows.start i).isSome = true := ⟨.opened false .otherError, trivial, rfl⟩

theorem windows_turn (b : windows.σ) (h : winGood b) : ∃ i, Queued i ∧ (windows.turn b i).isSome = true := by
  obtain ⟨w, at'⟩ := b
  cases at' with
  | first => have := h rfl; simp only at this; exact ⟨.none, trivial, by simp only [windows]; rw [this]; rfl⟩
  | outer => exact ⟨.completion none, trivial, rfl⟩
  | inner =>
    cases hv : (w.valid && w.ready != 0) with
    | true => exact ⟨.read (.ok 0 []), rfl, by simp only [windows]; rw [hv]; rfl⟩
    | false => exact ⟨.none, trivial, by simp only [windows]; rw [hv]; rfl⟩

end Verif.Lemmas.Poll
