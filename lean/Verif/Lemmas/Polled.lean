import Verif.Spec.Polled
/-! Invariants of `Model/Polled.lean`. -/
namespace Verif.Lemmas.Poll
open Verif Verif.Model Verif.Model.Poll Verif.Spec.Poll

variable {B : Backend} {d : Bool} {is is' : List B.ι}

/-- Where the worker is, callbacks aside. -/
def place : WPc B → WPc B
  | .inCb n => place n
  | .selfClose _ n => place n
  | x => x

theorem callbacks_append {ε : Type} (a b : List (Obs ε)) : callbacks (a ++ b) = callbacks a ++ callbacks b := by
  induction a with
  | nil => rfl
  | cons x a ih => cases x <;> simp [callbacks, ih]

/-- How the worker came to `post`: the back end returned it, or asked for the signal between turns and saw it. -/
def Over (s : St B) (done : List B.ε) (is : List B.ι) (post : Bool) : Prop :=
  plays B is = some (done, .inr post) ∨ (post = true ∧ s.is ≠ .pending ∧ ∃ b, plays B is = some (done, .inl b) ∧ B.head b = true)

/-- What the back end did so far, seen from where the worker is; `is` is what the system answered. -/
def Shape (is : List B.ι) (s : St B) : Prop :=
  match place s.w with
  | .start => callbacks s.log = [] ∧ s.fut = none ∧ is = []
  | .check => callbacks s.log = [] ∧ s.fut = none ∧ d = true ∧ is = []
  | .live pre => callbacks s.log = [] ∧ s.fut = none ∧ (pre = true → d = true) ∧ is = []
  | .opening => callbacks s.log = [.live true] ∧ s.fut = none ∧ d = true ∧ is = []
  | .deliver es next => ∃ done, callbacks s.log = .live true :: done.map .ev ∧ plays B is = some (done ++ es, next) ∧ s.fut = none ∧ d = true
  | .head b => ∃ done, callbacks s.log = .live true :: done.map .ev ∧ plays B is = some (done, .inl b) ∧ s.fut = none ∧ d = true
  | .turn b => ∃ done, callbacks s.log = .live true :: done.map .ev ∧ plays B is = some (done, .inl b) ∧ s.fut = none ∧ d = true
  | .die pre post => s.fut = none ∧ ((pre = false ∧ post = false ∧ callbacks s.log = [.live false] ∧ is = []) ∨
      (pre = true ∧ d = true ∧ ∃ done, callbacks s.log = .live true :: done.map .ev ∧ Over s done is post))
  | .setFut r => s.fut = none ∧ ((r = false ∧ callbacks s.log = [.live false, .die false] ∧ is = []) ∨
      (d = true ∧ ∃ done, callbacks s.log = .live true :: done.map .ev ++ [.die r] ∧ Over s done is r))
  | .finished => ∃ r, s.fut = some r ∧ ((r = false ∧ callbacks s.log = [.live false, .die false] ∧ is = []) ∨
      (d = true ∧ ∃ done, callbacks s.log = .live true :: done.map .ev ++ [.die r] ∧ Over s done is r))
  | .inCb _ => True
  | .selfClose _ _ => True

theorem Over.congr {s s' : St B} {done : List B.ε} {is : List B.ι} {r : Bool} (h : Over s done is r) (hi : s'.is = s.is ∨ s'.is ≠ .pending) : Over s' done is r := by
  refine Or.imp id ?_ h
  rintro ⟨h7, h8, h9⟩
  exact ⟨h7, by rcases hi with hi | hi; rw [hi]; exact h8; exact hi, h9⟩

theorem place_place (w : WPc B) : place (place w) = place w := by
  induction w <;> simp_all [place]

/-- The shape depends on the worker's place, the callbacks, the result and whether the signal was given. -/
theorem Shape.congr {is : List B.ι} {s s' : St B} (h : Shape (d := d) is s) (hw : place s'.w = place s.w) (hl : callbacks s'.log = callbacks s.log)
    (hf : s'.fut = s.fut) (hi : s'.is = s.is ∨ s'.is ≠ .pending) : Shape (d := d) is s' := by
  unfold Shape at h ⊢
  rw [hw]
  cases hp : place s.w <;> simp only [hp, hl, hf] at h ⊢
  case die pre post =>
    obtain ⟨h1, h2⟩ := h
    refine ⟨h1, h2.imp id ?_⟩
    rintro ⟨h3, h4, done, h5, h6⟩
    exact ⟨h3, h4, done, h5, h6.congr hi⟩
  case setFut r =>
    obtain ⟨h1, h2⟩ := h
    refine ⟨h1, h2.imp id ?_⟩
    rintro ⟨h4, done, h5, h6⟩
    exact ⟨h4, done, h5, h6.congr hi⟩
  case finished =>
    obtain ⟨r, h1, h2⟩ := h
    refine ⟨r, h1, h2.imp id ?_⟩
    rintro ⟨h4, done, h5, h6⟩
    exact ⟨h4, done, h5, h6.congr hi⟩
  all_goals exact h

/-- Not inside a callback. -/
def plain : WPc B → Bool
  | .inCb _ => false
  | .selfClose _ _ => false
  | _ => true

theorem place_plain {w : WPc B} (h : plain w = true) : place w = w := by
  cases w <;> simp_all [plain, place]

theorem plain_place (w : WPc B) : plain (place w) = true := by
  induction w <;> simp_all [place, plain]

/-- Answers of `close()` that say success. -/
def isYes {ε : Type} : Obs ε → Bool
  | .closeRet true => true
  | _ => false

/-- The signal is never an error and never taken back; while the worker is not done, nobody has the result. -/
structure Inv (d : Bool) (is : List B.ι) (s : St B) : Prop where
  shape : Shape (d := d) is s
  nest1 : ∀ n, s.w = .inCb n → plain n = true
  nest2 : ∀ c n, s.w = .selfClose c n → plain n = true
  sig : s.is = .pending ∨ s.is = .released
  fin : s.fut.isSome = true ↔ s.w = .finished
  valid : s.valid = false → s.w = .finished
  vrel : s.valid = false → s.is = .released
  get : (s.o = .closing .get ∨ s.o = .dtorClosing .get) → s.valid = true
  rel : (s.o = .closing .valid ∨ s.o = .dtorClosing .valid ∨ s.o = .closing .get ∨ s.o = .dtorClosing .get ∨ s.o = .dtorFuture ∨ s.o = .gone) → s.is = .released
  wrel : ∀ n, (s.w = .selfClose .valid n ∨ s.w = .selfClose .get n) → s.is = .released
  gone : s.o = .gone → s.w = .finished
  dret : Obs.dtorRet ∈ s.log ↔ s.o = .gone
  ret : ∀ b, Obs.closeRet b ∈ s.log → s.valid = false
  yes : Obs.closeRet true ∈ s.log → s.fut = some true
  once : s.log.countP isYes ≤ 1
  none' : s.valid = true → s.log.countP isYes = 0

theorem inv_init : Inv d [] ({} : St B) := by
  constructor <;> simp [Shape, place, callbacks]

/-- A step of the worker that leaves the signal alone. -/
theorem inv_w {s : St B} (h : Inv d is s) (hw : s.w ≠ .finished) (w' : WPc B) (f' : Option Bool) (log' : List (Obs B.ε))
    (hl : log' = s.log ∨ ∃ m, log' = s.log ++ [.cb m])
    (hs : Shape (d := d) is' { s with w := w', fut := f', log := log' })
    (h1 : ∀ n, w' = .inCb n → plain n = true) (h2 : ∀ c n, w' = .selfClose c n → plain n = true ∧ (c ≠ .store → s.is = .released))
    (hf : f'.isSome = true ↔ w' = .finished) : Inv d is' { s with w := w', fut := f', log := log' } := by
  have hv : s.valid = true := by
    cases hv : s.valid
    · exact absurd (h.valid hv) hw
    · rfl
  have ho : s.o ≠ .gone := fun ho => hw (h.gone ho)
  have hr : ∀ b, Obs.closeRet b ∉ s.log := fun b hb => by simp [h.ret b hb] at hv
  have hr' : ∀ b, Obs.closeRet b ∉ log' := by
    rcases hl with rfl | ⟨m, rfl⟩ <;> simpa using hr
  have hd' : Obs.dtorRet ∈ log' ↔ Obs.dtorRet ∈ s.log := by
    rcases hl with rfl | ⟨m, rfl⟩ <;> simp
  have hc : log'.countP isYes = s.log.countP isYes := by
    rcases hl with rfl | ⟨m, rfl⟩
    · rfl
    · simp [List.countP_append, isYes]
  refine ⟨hs, h1, fun c n e => (h2 c n e).1, h.sig, hf, ?_, h.vrel, h.get, h.rel, ?_, fun e => absurd e ho, ?_, ?_, ?_, ?_, ?_⟩
  · intro e; rw [hv] at e; cases e
  · rintro n (e | e)
    · exact (h2 _ n e).2 (by decide)
    · exact (h2 _ n e).2 (by decide)
  · rw [hd']; exact h.dret
  · intro b hb; exact absurd hb (hr' b)
  · intro hb; exact absurd hb (hr' _)
  · rw [hc]; exact h.once
  · intro _; rw [hc]; exact h.none' hv

theorem fut_none {s : St B} (h : Inv d is s) (hw : s.w ≠ .finished) : s.fut = none := by
  cases hf : s.fut with
  | none => rfl
  | some b => exact absurd (h.fin.1 (by simp [hf])) hw

theorem valid_true {s : St B} (h : Inv d is s) (hw : s.w ≠ .finished) : s.valid = true := by
  cases hv : s.valid
  · exact absurd (h.valid hv) hw
  · rfl

theorem plays_snoc {is : List B.ι} {es : List B.ε} {b : B.σ} {i : B.ι} {q} (h : plays B is = some (es, .inl b)) (ht : B.turn b i = some q) :
    plays B (is ++ [i]) = some (es ++ q.1, q.2) := by
  cases is with
  | nil => simp [plays] at h
  | cons j js =>
    simp only [plays, List.cons_append, List.foldl_append] at h ⊢
    cases hs : B.start j with
    | none => rw [hs] at h; simp at h
    | some r =>
      rw [hs] at h
      simp only [Option.bind_some] at h ⊢
      rw [h]
      simp [ht]

theorem inv_wStep {s s' : St B} (h : Inv d is s) (hs : wStep d s = some s') : Inv d is s' := by
  have hsh := h.shape
  unfold wStep at hs
  cases hw : s.w with
  | start =>
    have hne : s.w ≠ .finished := by rw [hw]; intro e; cases e
    have hfn := fut_none h hne
    rw [hw] at hs; injection hs with hs; subst hs
    refine inv_w h hne _ _ _ (.inl rfl) ?_ ?_ ?_ ?_
    · simp only [Shape, hw, place] at hsh
      cases d <;> simp [Shape, place, hsh]
    · cases d <;> simp
    · cases d <;> simp
    · cases d <;> simp [hfn]
  | check =>
    have hne : s.w ≠ .finished := by rw [hw]; intro e; cases e
    have hfn := fut_none h hne
    rw [hw] at hs; injection hs with hs; subst hs
    refine inv_w h hne _ _ _ (.inl rfl) ?_ (by simp) (by simp) (by simp [hfn])
    simp only [Shape, hw, place] at hsh
    simp [Shape, place, hsh]
  | live pre =>
    have hne : s.w ≠ .finished := by rw [hw]; intro e; cases e
    have hfn := fut_none h hne
    rw [hw] at hs; injection hs with hs; subst hs
    simp only [Shape, hw, place] at hsh
    refine inv_w h hne _ _ _ (.inr ⟨_, rfl⟩) ?_ ?_ (by simp) (by simp [hfn])
    · cases pre <;> simp_all [Shape, place, callbacks_append, callbacks]
    · cases pre <;> simp [plain]
  | opening => rw [hw] at hs; cases hs
  | deliver es next =>
    have hne : s.w ≠ .finished := by rw [hw]; intro e; cases e
    have hfn := fut_none h hne
    rw [hw] at hs
    simp only [Shape, hw, place] at hsh
    obtain ⟨done, hc, hp, hf, hd⟩ := hsh
    cases es with
    | cons e es =>
      injection hs with hs; subst hs
      refine inv_w h hne _ _ _ (.inr ⟨_, rfl⟩) ?_ (by simp [plain]) (by simp) (by simp [hfn])
      simp only [Shape, place]
      exact ⟨done ++ [e], by simp [callbacks_append, callbacks, hc], by simpa using hp, hf, hd⟩
    | nil =>
      cases next with
      | inl b =>
        injection hs with hs; subst hs
        refine inv_w h hne _ _ _ (.inl rfl) ?_ (by simp) (by simp) (by simp [hfn])
        simp only [Shape, place]
        exact ⟨done, hc, by simpa using hp, hf, hd⟩
      | inr r =>
        injection hs with hs; subst hs
        refine inv_w h hne _ _ _ (.inl rfl) ?_ (by simp) (by simp) (by simp [hfn])
        simp only [Shape, place]
        exact ⟨hf, .inr ⟨trivial, hd, done, hc, .inl (by simpa using hp)⟩⟩
  | head b =>
    have hne : s.w ≠ .finished := by rw [hw]; intro e; cases e
    have hfn := fut_none h hne
    rw [hw] at hs
    simp only [Shape, hw, place] at hsh
    obtain ⟨done, hc, hp, hf, hd⟩ := hsh
    simp only at hs
    split at hs
    · rename_i hb
      injection hs with hs; subst hs
      refine inv_w h hne _ _ _ (.inl rfl) ?_ (by split <;> simp) (by split <;> simp) (by split <;> simp [hfn])
      by_cases hi : s.is = .pending
      · simp only [hi, Shape]
        exact ⟨done, hc, hp, hf, hd⟩
      · simp only [hi, Shape, place, if_false]
        exact ⟨hf, .inr ⟨trivial, hd, done, hc, .inr ⟨rfl, hi, b, hp, hb⟩⟩⟩
    · injection hs with hs; subst hs
      refine inv_w h hne _ _ _ (.inl rfl) ?_ (by simp) (by simp) (by simp [hfn])
      simp only [Shape, place]
      exact ⟨done, hc, hp, hf, hd⟩
  | turn b => rw [hw] at hs; cases hs
  | die pre post =>
    have hne : s.w ≠ .finished := by rw [hw]; intro e; cases e
    have hfn := fut_none h hne
    rw [hw] at hs; injection hs with hs; subst hs
    simp only [Shape, hw, place] at hsh
    refine inv_w h hne _ _ _ (.inr ⟨_, rfl⟩) ?_ (by simp [plain]) (by simp) (by simp [hfn])
    simp only [Shape, place]
    obtain ⟨hf, h2⟩ := hsh
    refine ⟨hf, ?_⟩
    rcases h2 with ⟨rfl, rfl, hc⟩ | ⟨rfl, hd, done, hc, h3⟩
    · left; simp [callbacks_append, callbacks, hc]
    · right
      simp only [Bool.true_and]
      exact ⟨hd, done, by simp [callbacks_append, callbacks, hc], h3⟩
  | setFut r =>
    have hne : s.w ≠ .finished := by rw [hw]; intro e; cases e
    rw [hw] at hs; injection hs with hs; subst hs
    simp only [Shape, hw, place] at hsh
    refine inv_w h hne _ _ _ (.inl rfl) ?_ (by simp) (by simp) (by simp)
    simp only [Shape, place]
    exact ⟨r, rfl, hsh.2⟩
  | finished => rw [hw] at hs; cases hs
  | inCb n => rw [hw] at hs; cases hs
  | selfClose c n =>
    have hne : s.w ≠ .finished := by rw [hw]; intro e; cases e
    have hfn := fut_none h hne
    have hv := valid_true h hne
    have hpl := h.nest2 _ _ hw
    rw [hw] at hs
    cases c with
    | store =>
      injection hs with hs; subst hs
      have hsh' : Shape (d := d) is { s with is := .released, w := .selfClose .valid n } :=
        hsh.congr (by simp [place, hw]) rfl rfl (.inr (by simp))
      have hr : ∀ b, Obs.closeRet b ∉ s.log := fun b hb => by simp [h.ret b hb] at hv
      refine ⟨hsh', by simp, ?_, .inr rfl, ?_, ?_, ?_, h.get, fun _ => rfl, fun _ _ => rfl, ?_, h.dret, h.ret, h.yes, h.once, h.none'⟩
      · intro c n' e; simp only [WPc.selfClose.injEq] at e; rw [← e.2]; exact hpl
      · simp [hfn]
      · intro e; simp [hv] at e
      · intro e; rfl
      · intro e; exact absurd (h.gone e) hne
    | valid =>
      simp only [show closeStep s .valid = some (s, .inl .get) from by simp [closeStep, hv]] at hs
      injection hs with hs; subst hs
      refine inv_w h hne _ _ _ (.inl rfl) (hsh.congr (by simp [place, hw]) rfl rfl (.inl rfl)) (by simp) ?_ (by simp [hfn])
      intro c n' e; simp only [WPc.selfClose.injEq] at e
      refine ⟨by rw [← e.2]; exact hpl, fun _ => h.wrel n (.inl hw)⟩
    | get => simp [closeStep, hfn] at hs

theorem inv_oStep {s s' : St B} (h : Inv d is s) (hs : oStep s = some s') : Inv d is s' := by
  have hsh := h.shape
  unfold oStep at hs
  cases ho : s.o with
  | idle => rw [ho] at hs; cases hs
  | gone => rw [ho] at hs; cases hs
  | closing c =>
    rw [ho] at hs
    have hng : s.o ≠ .gone := by rw [ho]; simp
    have hnd : Obs.dtorRet ∉ s.log := fun e => hng (h.dret.1 e)
    cases c with
    | store =>
      injection hs with hs; subst hs
      exact ⟨hsh.congr rfl rfl rfl (.inr (by simp)), h.nest1, h.nest2, .inr rfl, h.fin, h.valid, fun _ => rfl, by simp, fun _ => rfl, fun _ _ => rfl, by simp,
        by simpa using hnd, h.ret, h.yes, h.once, h.none'⟩
    | valid =>
      have hr := h.rel (.inl ho)
      cases hv : s.valid with
      | true =>
        simp only [show closeStep s .valid = some (s, .inl .get) from by simp [closeStep, hv]] at hs
        injection hs with hs; subst hs
        exact ⟨hsh.congr rfl rfl rfl (.inl rfl), h.nest1, h.nest2, h.sig, h.fin, h.valid, h.vrel, fun _ => hv, fun _ => hr, h.wrel, by simp,
          by simpa using hnd, h.ret, h.yes, h.once, h.none'⟩
      | false =>
        simp only [show closeStep s .valid = some (s, .inr false) from by simp [closeStep, hv]] at hs
        injection hs with hs; subst hs
        refine ⟨hsh.congr rfl (by simp [callbacks_append, callbacks]) rfl (.inl rfl), h.nest1, h.nest2, h.sig, h.fin, h.valid, h.vrel, by simp, by simp, h.wrel, by simp,
          by simpa using hnd, fun b _ => hv, ?_, ?_, ?_⟩
        · intro e; simp at e; exact h.yes e
        · simpa [List.countP_append, isYes] using h.once
        · intro e; simp [hv] at e
    | get =>
      have hr := h.rel (.inr (.inr (.inl ho)))
      have hv := h.get (.inl ho)
      cases hf : s.fut with
      | none => simp [closeStep, hf] at hs
      | some b =>
        have hwf := h.fin.1 (by simp [hf])
        simp only [closeStep, hf] at hs
        injection hs with hs; subst hs
        have hnr : ∀ b, Obs.closeRet b ∉ s.log := fun b hb => by simp [h.ret b hb] at hv
        have hc0 := h.none' hv
        refine ⟨hsh.congr rfl (by simp [callbacks_append, callbacks]) (by simp [hf]) (.inl rfl), h.nest1, h.nest2, h.sig, by simpa [hf] using hwf, fun _ => hwf, fun _ => hr,
          by simp, by simp, h.wrel, by simp, by simpa using hnd, fun b _ => rfl, ?_, ?_, by simp⟩
        · intro e
          simp only [List.mem_append, List.mem_singleton, Obs.closeRet.injEq] at e
          rcases e with e | e
          · exact absurd e (hnr _)
          · simp [e]
        · simp only [List.countP_append, hc0]
          cases b <;> simp [isYes]
  | dtorClosing c =>
    rw [ho] at hs
    have hng : s.o ≠ .gone := by rw [ho]; simp
    have hnd : Obs.dtorRet ∉ s.log := fun e => hng (h.dret.1 e)
    cases c with
    | store =>
      injection hs with hs; subst hs
      exact ⟨hsh.congr rfl rfl rfl (.inr (by simp)), h.nest1, h.nest2, .inr rfl, h.fin, h.valid, fun _ => rfl, by simp, fun _ => rfl, fun _ _ => rfl, by simp,
        by simpa using hnd, h.ret, h.yes, h.once, h.none'⟩
    | valid =>
      have hr := h.rel (.inr (.inl ho))
      cases hv : s.valid with
      | true =>
        simp only [show closeStep s .valid = some (s, .inl .get) from by simp [closeStep, hv]] at hs
        injection hs with hs; subst hs
        exact ⟨hsh.congr rfl rfl rfl (.inl rfl), h.nest1, h.nest2, h.sig, h.fin, h.valid, h.vrel, fun _ => hv, fun _ => hr, h.wrel, by simp,
          by simpa using hnd, h.ret, h.yes, h.once, h.none'⟩
      | false =>
        simp only [show closeStep s .valid = some (s, .inr false) from by simp [closeStep, hv]] at hs
        injection hs with hs; subst hs
        exact ⟨hsh.congr rfl rfl rfl (.inl rfl), h.nest1, h.nest2, h.sig, h.fin, h.valid, h.vrel, by simp, fun _ => hr, h.wrel, by simp,
          by simpa using hnd, h.ret, h.yes, h.once, h.none'⟩
    | get =>
      have hr := h.rel (.inr (.inr (.inr (.inl ho))))
      have hv := h.get (.inr ho)
      cases hf : s.fut with
      | none => simp [closeStep, hf] at hs
      | some b =>
        have hwf := h.fin.1 (by simp [hf])
        simp only [closeStep, hf] at hs
        injection hs with hs; subst hs
        have hnr : ∀ b, Obs.closeRet b ∉ s.log := fun b hb => by simp [h.ret b hb] at hv
        have hc0 := h.none' hv
        exact ⟨hsh.congr rfl rfl (by simp [hf]) (.inl rfl), h.nest1, h.nest2, h.sig, by simpa [hf] using hwf, fun _ => hwf, fun _ => hr,
          by simp, fun _ => hr, h.wrel, by simp, by simpa using hnd, fun b _ => rfl, fun e => absurd e (hnr _), h.once, by simp⟩
  | dtorFuture =>
    rw [ho] at hs
    have hr := h.rel (.inr (.inr (.inr (.inr (.inl ho)))))
    have fin' : ∀ s', s.w = .finished → s' = { s with o := .gone, log := s.log ++ [.dtorRet] } → Inv d is s' := by
      rintro s' hwf rfl
      refine ⟨hsh.congr rfl (by simp [callbacks_append, callbacks]) rfl (.inl rfl), h.nest1, h.nest2, h.sig, h.fin, h.valid, h.vrel, by simp, fun _ => hr, h.wrel,
        fun _ => hwf, by simp, ?_, ?_, ?_, ?_⟩
      · intro b e; simp at e; exact h.ret b e
      · intro e; simp at e; exact h.yes e
      · simpa [List.countP_append, isYes] using h.once
      · intro e; simpa [List.countP_append, isYes] using h.none' e
    cases hv : s.valid with
    | true =>
      cases hf : s.fut with
      | none => simp [hv, hf] at hs
      | some b =>
        simp only [hv, hf, if_true] at hs
        injection hs with hs
        exact fin' _ (h.fin.1 (by simp [hf])) (hs.symm.trans (by simp [hv, hf]))
    | false =>
      simp only [hv] at hs
      injection hs with hs
      exact fin' _ (h.valid hv) (hs.symm.trans (by simp [hv]))

theorem inv_step {s s' : St B} {a : Act B} (h : Inv d is s) (hs : step d s a = some s') : Inv d (is ++ answers [a]) s' := by
  have hsh := h.shape
  cases a with
  | w => simpa [answers] using inv_wStep h hs
  | o => simpa [answers] using inv_oStep h hs
  | sys i =>
    cases hw : s.w with
    | opening =>
      have hne : s.w ≠ .finished := by rw [hw]; intro e; cases e
      have hfn := fut_none h hne
      simp only [step, hw] at hs
      cases hq : B.start i with
      | none => simp [hq] at hs
      | some q =>
        rw [hq] at hs; injection hs with hs; subst hs
        simp only [Shape, hw, place] at hsh
        refine inv_w h hne _ _ _ (.inl rfl) ?_ (by simp) (by simp) (by simp [hfn])
        simp only [Shape, place]
        exact ⟨[], by simp [hsh], by simp [plays, hq, answers, hsh.2.2.2], hsh.2.1, hsh.2.2.1⟩
    | turn b =>
      have hne : s.w ≠ .finished := by rw [hw]; intro e; cases e
      have hfn := fut_none h hne
      simp only [step, hw] at hs
      cases hq : B.turn b i with
      | none => simp [hq] at hs
      | some q =>
        rw [hq] at hs; injection hs with hs; subst hs
        simp only [Shape, hw, place] at hsh
        obtain ⟨done, hc, hp, hf, hd⟩ := hsh
        refine inv_w h hne _ _ _ (.inl rfl) ?_ (by simp) (by simp) (by simp [hfn])
        simp only [Shape, place]
        exact ⟨done, hc, by rw [answers, answers, plays_snoc hp hq], hf, hd⟩
    | _ => simp [step, hw] at hs
  | cbReturn =>
    rw [show is ++ answers [(.cbReturn : Act B)] = is from by simp [answers]]
    cases hw : s.w with
    | inCb n =>
      have hne : s.w ≠ .finished := by rw [hw]; intro e; cases e
      have hfn := fut_none h hne
      have hpl := h.nest1 n hw
      simp only [step, hw] at hs
      injection hs with hs; subst hs
      refine inv_w h hne _ _ _ (.inl rfl) (hsh.congr (by simp [place, hw]) rfl rfl (.inl rfl)) ?_ ?_ ?_
      · intro m e; subst e; simp [plain] at hpl
      · intro c m e; subst e; simp [plain] at hpl
      · simp only [hfn, Option.isSome_none]
        refine ⟨by simp, ?_⟩
        intro e; subst e
        simp [Shape, hw, place, hfn] at hsh
    | _ => simp [step, hw] at hs
  | cbClose =>
    rw [show is ++ answers [(.cbClose : Act B)] = is from by simp [answers]]
    cases hw : s.w with
    | inCb n =>
      have hne : s.w ≠ .finished := by rw [hw]; intro e; cases e
      have hfn := fut_none h hne
      have hpl := h.nest1 n hw
      simp only [step, hw] at hs
      injection hs with hs; subst hs
      refine inv_w h hne _ _ _ (.inl rfl) (hsh.congr (by simp [place, hw]) rfl rfl (.inl rfl)) (by simp) ?_ (by simp [hfn])
      intro c m e; simp only [WPc.selfClose.injEq] at e
      refine ⟨by rw [← e.2]; exact hpl, fun hc => absurd e.1.symm hc⟩
    | _ => simp [step, hw] at hs
  | oClose =>
    rw [show is ++ answers [(.oClose : Act B)] = is from by simp [answers]]
    cases ho : s.o with
    | idle =>
      simp only [step, ho] at hs
      injection hs with hs; subst hs
      have hnd : Obs.dtorRet ∉ s.log := fun e => by simp [h.dret.1 e] at ho
      refine ⟨hsh.congr rfl (by simp [callbacks_append, callbacks]) rfl (.inl rfl), h.nest1, h.nest2, h.sig, h.fin, h.valid, h.vrel, by simp, by simp, h.wrel, by simp,
        by simpa using hnd, ?_, ?_, ?_, ?_⟩
      · intro b e; simp at e; exact h.ret b e
      · intro e; simp at e; exact h.yes e
      · simpa [List.countP_append, isYes] using h.once
      · intro e; simpa [List.countP_append, isYes] using h.none' e
    | _ => simp [step, ho] at hs
  | oDtor =>
    rw [show is ++ answers [(.oDtor : Act B)] = is from by simp [answers]]
    cases ho : s.o with
    | idle =>
      simp only [step, ho] at hs
      injection hs with hs; subst hs
      have hnd : Obs.dtorRet ∉ s.log := fun e => by simp [h.dret.1 e] at ho
      refine ⟨hsh.congr rfl (by simp [callbacks_append, callbacks]) rfl (.inl rfl), h.nest1, h.nest2, h.sig, h.fin, h.valid, h.vrel, by simp, by simp, h.wrel, by simp,
        by simpa using hnd, ?_, ?_, ?_, ?_⟩
      · intro b e; simp at e; exact h.ret b e
      · intro e; simp at e; exact h.yes e
      · simpa [List.countP_append, isYes] using h.once
      · intro e; simpa [List.countP_append, isYes] using h.none' e
    | _ => simp [step, ho] at hs

theorem answers_cons (a : Act B) (as : List (Act B)) : answers (a :: as) = answers [a] ++ answers as := by
  cases a <;> simp [answers]

theorem inv_run {acts : List (Act B)} : ∀ {is : List B.ι} {s s' : St B}, Inv d is s → run d s acts = some s' → Inv d (is ++ answers acts) s' := by
  induction acts with
  | nil => intro is s s' h e; injection e with e; simpa [answers] using e ▸ h
  | cons a as ih =>
    intro is s s' h e
    simp only [run] at e
    cases hs : step d s a with
    | none => simp [hs] at e
    | some s1 =>
      rw [hs] at e
      rw [answers_cons, ← List.append_assoc]
      exact ih (inv_step h hs) e

theorem inv_reached {s : St B} {acts : List (Act B)} (h : run d {} acts = some s) : Inv d (answers acts) s := by
  simpa using inv_run inv_init h

theorem inv_reachable {s : St B} (h : Reachable B d s) : ∃ is, Inv d is s := by
  obtain ⟨acts, h⟩ := h
  exact ⟨_, inv_reached h⟩

/-! ### Long runs -/

theorem run_append (as bs : List (Act B)) : ∀ s : St B, run d s (as ++ bs) = (run d s as).bind fun s' => run d s' bs := by
  induction as with
  | nil => intro s; rfl
  | cons a as ih =>
    intro s
    simp only [List.cons_append, run]
    cases step d s a with
    | none => rfl
    | some s1 => exact ih s1

theorem reachable_run {s s' : St B} {acts : List (Act B)} (h : Reachable B d s) (hr : run d s acts = some s') : Reachable B d s' := by
  obtain ⟨as, h⟩ := h
  exact ⟨as ++ acts, by rw [run_append, h]; exact hr⟩

/-- A property every step keeps. -/
theorem run_keeps {P : St B → Prop} (hP : ∀ s a s', P s → step d s a = some s' → P s') :
    ∀ (acts : List (Act B)) (s s' : St B), P s → run d s acts = some s' → P s' := by
  intro acts
  induction acts with
  | nil => intro s s' h e; injection e with e; exact e ▸ h
  | cons a as ih =>
    intro s s' h e
    simp only [run] at e
    cases hs : step d s a with
    | none => simp [hs] at e
    | some s1 => rw [hs] at e; exact ih s1 s' (hP s a s1 h hs) e

/-- What a step of the owner, or of a `close()`, leaves alone. -/
theorem closeStep_eq {s s' : St B} {c : ClosePc} {r} (h : closeStep s c = some (s', r)) :
    s'.fut = s.fut ∧ s'.w = s.w ∧ s'.o = s.o ∧ s'.log = s.log ∧ (s.is ≠ .pending → s'.is ≠ .pending) := by
  cases c with
  | store => injection h with h; injection h with h1 h2; subst h1; simp
  | valid =>
    simp only [closeStep] at h
    split at h <;> (injection h with h; injection h with h1 h2; subst h1; simp)
  | get =>
    simp only [closeStep] at h
    split at h
    · cases h
    · injection h with h; injection h with h1 h2; subst h1; simp

theorem oStep_eq {s s' : St B} (h : oStep s = some s') :
    s'.fut = s.fut ∧ s'.w = s.w ∧ callbacks s'.log = callbacks s.log ∧ (s.is ≠ .pending → s'.is ≠ .pending) := by
  unfold oStep at h
  cases ho : s.o with
  | idle => rw [ho] at h; cases h
  | gone => rw [ho] at h; cases h
  | closing c =>
    rw [ho] at h
    cases hc : closeStep s c with
    | none => simp [hc] at h
    | some p =>
      obtain ⟨s1, r⟩ := p
      obtain ⟨h1, h2, h3, h4, h5⟩ := closeStep_eq hc
      cases r with
      | inl c' => simp only [hc] at h; injection h with h; subst h; exact ⟨h1, h2, by simp [h4], h5⟩
      | inr b => simp only [hc] at h; injection h with h; subst h; exact ⟨h1, h2, by simp [h4, callbacks_append, callbacks], h5⟩
  | dtorClosing c =>
    rw [ho] at h
    cases hc : closeStep s c with
    | none => simp [hc] at h
    | some p =>
      obtain ⟨s1, r⟩ := p
      obtain ⟨h1, h2, h3, h4, h5⟩ := closeStep_eq hc
      cases r with
      | inl c' => simp only [hc] at h; injection h with h; subst h; exact ⟨h1, h2, by simp [h4], h5⟩
      | inr b => simp only [hc] at h; injection h with h; subst h; exact ⟨h1, h2, by simp [h4], h5⟩
  | dtorFuture =>
    rw [ho] at h
    simp only at h
    split at h
    · split at h
      · cases h
      · injection h with h; subst h; simp [callbacks_append, callbacks]
    · injection h with h; subst h; simp [callbacks_append, callbacks]

theorem owner_step {s s' : St B} {a : Act B} (ha : isWorker a = false) (h : step d s a = some s') :
    s'.fut = s.fut ∧ s'.w = s.w ∧ callbacks s'.log = callbacks s.log ∧ (s.is ≠ .pending → s'.is ≠ .pending) := by
  cases a with
  | o => exact oStep_eq h
  | oClose =>
    simp only [step] at h
    split at h
    · injection h with h; subst h; simp [callbacks_append, callbacks]
    · cases h
  | oDtor =>
    simp only [step] at h
    split at h
    · injection h with h; subst h; simp [callbacks_append, callbacks]
    · cases h
  | _ => simp [isWorker] at ha

theorem finished_step {s : St B} {a : Act B} (hw : s.w = .finished) (ha : isWorker a = true) : step d s a = none := by
  cases a <;> simp [isWorker] at ha <;> simp [step, wStep, hw]

theorem finished_run {s s' : St B} {acts : List (Act B)} (hw : s.w = .finished) (hr : run d s acts = some s') :
    s'.w = .finished ∧ callbacks s'.log = callbacks s.log ∧ s'.fut = s.fut := by
  refine run_keeps (P := fun x => x.w = .finished ∧ callbacks x.log = callbacks s.log ∧ x.fut = s.fut) ?_ acts s s' ⟨hw, rfl, rfl⟩ hr
  rintro x a x' ⟨h1, h2, h3⟩ hx
  cases ha : isWorker a with
  | true => rw [finished_step h1 ha] at hx; cases hx
  | false =>
    obtain ⟨k1, k2, k3, _⟩ := owner_step ha hx
    exact ⟨k2.trans h1, k3.trans h2, k1.trans h3⟩

theorem step_log {s s' : St B} {a : Act B} (h : step d s a = some s') : ∃ new, s'.log = s.log ++ new := by
  have self : ∀ s1 : St B, s1.log = s.log → ∃ new, s1.log = s.log ++ new := fun s1 e => ⟨[], by simp [e]⟩
  cases a with
  | w =>
    simp only [step, wStep] at h
    cases hw : s.w with
    | deliver es n =>
      rw [hw] at h
      cases es with
      | cons e es => injection h with h; subst h; exact ⟨_, rfl⟩
      | nil => cases n <;> (injection h with h; subst h; exact self _ rfl)
    | head b =>
      rw [hw] at h
      simp only at h
      split at h <;> (injection h with h; subst h; exact self _ rfl)
    | selfClose c n =>
      rw [hw] at h
      cases hc : closeStep s c with
      | none => simp [hc] at h
      | some p =>
        obtain ⟨s1, r⟩ := p
        have := (closeStep_eq hc).2.2.2.1
        cases r <;> (simp only [hc] at h; injection h with h; subst h; exact self _ this)
    | start => rw [hw] at h; injection h with h; subst h; exact self _ rfl
    | check => rw [hw] at h; injection h with h; subst h; exact self _ rfl
    | live pre => rw [hw] at h; injection h with h; subst h; exact ⟨_, rfl⟩
    | die a b => rw [hw] at h; injection h with h; subst h; exact ⟨_, rfl⟩
    | setFut r => rw [hw] at h; injection h with h; subst h; exact self _ rfl
    | opening => rw [hw] at h; cases h
    | turn b => rw [hw] at h; cases h
    | finished => rw [hw] at h; cases h
    | inCb n => rw [hw] at h; cases h
  | sys i =>
    simp only [step] at h
    split at h
    · cases hq : B.start i with
      | none => simp [hq] at h
      | some q => rw [hq] at h; injection h with h; subst h; exact self _ rfl
    · rename_i b _
      cases hq : B.turn b i with
      | none => simp [hq] at h
      | some q => rw [hq] at h; injection h with h; subst h; exact self _ rfl
    · cases h
  | cbReturn => simp only [step] at h; split at h; injection h with h; subst h; exact self _ rfl; cases h
  | cbClose => simp only [step] at h; split at h; injection h with h; subst h; exact self _ rfl; cases h
  | oClose => simp only [step] at h; split at h; injection h with h; subst h; exact ⟨_, rfl⟩; cases h
  | oDtor => simp only [step] at h; split at h; injection h with h; subst h; exact ⟨_, rfl⟩; cases h
  | o =>
    simp only [step, oStep] at h
    cases ho : s.o with
    | idle => rw [ho] at h; cases h
    | gone => rw [ho] at h; cases h
    | closing c =>
      rw [ho] at h
      cases hc : closeStep s c with
      | none => simp [hc] at h
      | some p =>
        obtain ⟨s1, r⟩ := p
        have := (closeStep_eq hc).2.2.2.1
        cases r with
        | inl c' => simp only [hc] at h; injection h with h; subst h; exact self _ this
        | inr b => simp only [hc] at h; injection h with h; subst h; exact ⟨[.closeRet b], by simp [this]⟩
    | dtorClosing c =>
      rw [ho] at h
      cases hc : closeStep s c with
      | none => simp [hc] at h
      | some p =>
        obtain ⟨s1, r⟩ := p
        have := (closeStep_eq hc).2.2.2.1
        cases r <;> (simp only [hc] at h; injection h with h; subst h; exact self _ this)
    | dtorFuture =>
      rw [ho] at h
      simp only at h
      split at h
      · split at h
        · cases h
        · injection h with h; subst h; exact ⟨_, rfl⟩
      · injection h with h; subst h; exact ⟨_, rfl⟩

theorem run_log {acts : List (Act B)} {s s' : St B} (h : run d s acts = some s') : ∃ new, s'.log = s.log ++ new := by
  refine run_keeps (P := fun x => ∃ new, x.log = s.log ++ new) ?_ acts s s' ⟨[], by simp⟩ h
  rintro x a x' ⟨n1, h1⟩ hx
  obtain ⟨n2, h2⟩ := step_log hx
  exact ⟨n1 ++ n2, by rw [h2, h1, List.append_assoc]⟩

/-! ### `close()` inside the callback -/

theorem selfClose_step {s s' : St B} {a : Act B} {c : ClosePc} {n : WPc B} (h : Inv d is s) (hw : s.w = .selfClose c n) (hs : step d s a = some s') :
    (∃ c', s'.w = .selfClose c' n) ∧ callbacks s'.log = callbacks s.log ∧ (∀ b, Obs.closeRet b ∉ s'.log) ∧ Obs.dtorRet ∉ s'.log := by
  have h' := inv_step h hs
  have hne : s.w ≠ .finished := by rw [hw]; intro e; cases e
  have hfn := fut_none h hne
  have hv := valid_true h hne
  have key : ∀ c', s'.w = .selfClose c' n → callbacks s'.log = callbacks s.log →
      (∃ c', s'.w = .selfClose c' n) ∧ callbacks s'.log = callbacks s.log ∧ (∀ b, Obs.closeRet b ∉ s'.log) ∧ Obs.dtorRet ∉ s'.log := by
    intro c' h1 h2
    have hne' : s'.w ≠ .finished := by rw [h1]; intro e; cases e
    have hv' := valid_true h' hne'
    refine ⟨⟨c', h1⟩, h2, ?_, ?_⟩
    · intro b hb; rw [h'.ret b hb] at hv'; cases hv'
    · intro hb; exact hne' (h'.gone (h'.dret.1 hb))
  cases ha : isWorker a with
  | false =>
    obtain ⟨_, k2, k3, _⟩ := owner_step ha hs
    exact key c (k2.trans hw) k3
  | true =>
    cases a with
    | w =>
      simp only [step, wStep, hw] at hs
      cases c with
      | store => injection hs with hs; exact key .valid (by rw [← hs]) (by rw [← hs])
      | valid =>
        simp only [show closeStep s .valid = some (s, .inl .get) from by simp [closeStep, hv]] at hs
        injection hs with hs; exact key .get (by rw [← hs]) (by rw [← hs])
      | get => simp [closeStep, hfn] at hs
    | sys i => simp [step, hw] at hs
    | cbReturn => simp [step, hw] at hs
    | cbClose => simp [step, hw] at hs
    | _ => simp [isWorker] at ha

theorem selfClose_run {acts : List (Act B)} {c : ClosePc} {n : WPc B} : ∀ {s s' : St B}, Reachable B d s → s.w = .selfClose c n → run d s acts = some s' →
    (∃ c', s'.w = .selfClose c' n) ∧ callbacks s'.log = callbacks s.log ∧ (∀ b, Obs.closeRet b ∉ s'.log) ∧ Obs.dtorRet ∉ s'.log := by
  intro s s' h hw hr
  have hne : s.w ≠ .finished := by rw [hw]; intro e; cases e
  obtain ⟨is0, hi⟩ := inv_reachable h
  have hv := valid_true hi hne
  refine (run_keeps (P := fun x => (∃ is, Inv d is x) ∧ (∃ c', x.w = .selfClose c' n) ∧ callbacks x.log = callbacks s.log ∧ (∀ b, Obs.closeRet b ∉ x.log) ∧ Obs.dtorRet ∉ x.log)
    ?_ acts s s' ⟨⟨_, hi⟩, ⟨c, hw⟩, rfl, ?_, ?_⟩ hr).2
  · rintro x a x' ⟨⟨is1, h0⟩, ⟨c', h1⟩, h2, h3, h4⟩ hx
    obtain ⟨k1, k2, k3, k4⟩ := selfClose_step h0 h1 hx
    exact ⟨⟨_, inv_step h0 hx⟩, k1, k2.trans h2, k3, k4⟩
  · intro b hb; rw [hi.ret b hb] at hv; cases hv
  · intro hb; exact hne (hi.gone (hi.dret.1 hb))

/-! ### Early closing -/

/-- The watcher will never say it is alive. -/
def Doomed (s : St B) : Prop := ((s.w = .start ∨ s.w = .check) ∧ s.is ≠ .pending) ∨ place s.w = .live false ∨ place s.w = .die false false ∨ place s.w = .setFut false ∨
  (s.w = .finished ∧ s.fut = some false)

theorem doomed_step {s s' : St B} {a : Act B} (hi : Inv d is s) (h : Doomed s) (hs : step d s a = some s') : Doomed s' := by
  cases ha : isWorker a with
  | false =>
    obtain ⟨k1, k2, _, k4⟩ := owner_step ha hs
    unfold Doomed
    rw [k2, k1]
    rcases h with h | h | h | h | h
    · exact .inl ⟨h.1, k4 h.2⟩
    · exact .inr (.inl h)
    · exact .inr (.inr (.inl h))
    · exact .inr (.inr (.inr (.inl h)))
    · exact .inr (.inr (.inr (.inr h)))
  | true =>
    cases hw : s.w with
    | start =>
      cases a <;> simp [isWorker] at ha <;> simp [step, wStep, hw] at hs
      subst hs
      simp only [Doomed, hw, place] at h
      have hp : s.is ≠ .pending := by rcases h with h | h | h | h | h <;> first | exact h.2 | (exact absurd h (by simp)) | exact absurd h.1 (by simp)
      cases d
      · right; left; simp [place]
      · left; simp [hp]
    | check =>
      cases a <;> simp [isWorker] at ha <;> simp [step, wStep, hw] at hs
      subst hs
      simp only [Doomed, hw, place] at h
      have hp : s.is ≠ .pending := by rcases h with h | h | h | h | h <;> first | exact h.2 | (exact absurd h (by simp)) | exact absurd h.1 (by simp)
      right; left; simp [place, hp]
    | live pre =>
      simp only [Doomed, hw, place] at h
      have : pre = false := by rcases h with h | h | h | h | h <;> simp_all
      subst this
      cases a <;> simp [isWorker] at ha <;> simp [step, wStep, hw] at hs
      subst hs
      right; right; left; simp [callCb, place]
    | die pre post =>
      simp only [Doomed, hw, place] at h
      have : pre = false ∧ post = false := by rcases h with h | h | h | h | h <;> simp_all
      obtain ⟨rfl, rfl⟩ := this
      cases a <;> simp [isWorker] at ha <;> simp [step, wStep, hw] at hs
      subst hs
      right; right; right; left; simp [callCb, place]
    | setFut r =>
      simp only [Doomed, hw, place] at h
      have : r = false := by rcases h with h | h | h | h | h <;> simp_all
      subst this
      cases a <;> simp [isWorker] at ha <;> simp [step, wStep, hw] at hs
      subst hs
      right; right; right; right; simp
    | finished => rw [finished_step hw ha] at hs; cases hs
    | opening => simp [Doomed, hw, place] at h
    | turn b => simp [Doomed, hw, place] at h
    | head b => simp [Doomed, hw, place] at h
    | deliver es n => simp [Doomed, hw, place] at h
    | inCb n =>
      have hp := hi.nest1 n hw
      simp only [Doomed, hw, place] at h
      have h' : place n = .live false ∨ place n = .die false false ∨ place n = .setFut false := by
        rcases h with h | h | h | h | h
        · simp at h
        · exact .inl h
        · exact .inr (.inl h)
        · exact .inr (.inr h)
        · simp at h
      have done : ∀ x : St B, place x.w = place n → Doomed x := by
        intro x hx
        rw [← hx] at h'
        rcases h' with h' | h' | h'
        · exact .inr (.inl h')
        · exact .inr (.inr (.inl h'))
        · exact .inr (.inr (.inr (.inl h')))
      cases a <;> simp [isWorker] at ha <;> simp [step, wStep, hw] at hs
      · subst hs; exact done _ rfl
      · subst hs; exact done _ rfl
    | selfClose c n =>
      simp only [Doomed, hw, place] at h
      have h' : place n = .live false ∨ place n = .die false false ∨ place n = .setFut false := by
        rcases h with h | h | h | h | h
        · simp at h
        · exact .inl h
        · exact .inr (.inl h)
        · exact .inr (.inr h)
        · simp at h
      obtain ⟨⟨c', hc'⟩, _⟩ := selfClose_step hi hw hs
      have hx : place s'.w = place n := by rw [hc']; rfl
      rw [← hx] at h'
      rcases h' with h' | h' | h'
      · exact .inr (.inl h')
      · exact .inr (.inr (.inl h'))
      · exact .inr (.inr (.inr (.inl h')))

theorem doomed_run {acts : List (Act B)} {s s' : St B} (hi : Inv d is s) (h : Doomed s) (hr : run d s acts = some s') : Doomed s' :=
  (run_keeps (P := fun x => (∃ is, Inv d is x) ∧ Doomed x) (fun x a x' hx hs => by
    obtain ⟨⟨is1, h1⟩, h2⟩ := hx
    exact ⟨⟨_, inv_step h1 hs⟩, doomed_step h1 h2 hs⟩) acts s s' ⟨⟨_, hi⟩, h⟩ hr).2

theorem doomed_live {s s' : St B} {a : Act B} (h : Doomed s) (hl : Msg.live true ∉ callbacks s.log) (hs : step d s a = some s') : Msg.live true ∉ callbacks s'.log := by
  cases ha : isWorker a with
  | false => rw [(owner_step ha hs).2.2.1]; exact hl
  | true =>
    cases a with
    | w =>
      simp only [step, wStep] at hs
      cases hw : s.w with
      | deliver es n => simp [Doomed, hw, place] at h
      | head b => simp [Doomed, hw, place] at h
      | live pre =>
        simp only [Doomed, hw, place] at h
        have : pre = false := by rcases h with h | h | h | h | h <;> simp_all
        subst this
        rw [hw] at hs; injection hs with hs; subst hs
        simpa [callCb, callbacks_append, callbacks] using hl
      | die x y => rw [hw] at hs; injection hs with hs; subst hs; simpa [callCb, callbacks_append, callbacks] using hl
      | selfClose c n =>
        rw [hw] at hs
        cases hc : closeStep s c with
        | none => simp [hc] at hs
        | some p =>
          obtain ⟨s1, r⟩ := p
          have := (closeStep_eq hc).2.2.2.1
          cases r <;> (simp only [hc] at hs; injection hs with hs; subst hs; simpa [this] using hl)
      | start => rw [hw] at hs; injection hs with hs; subst hs; exact hl
      | check => rw [hw] at hs; injection hs with hs; subst hs; exact hl
      | setFut r => rw [hw] at hs; injection hs with hs; subst hs; exact hl
      | opening => rw [hw] at hs; cases hs
      | turn b => rw [hw] at hs; cases hs
      | finished => rw [hw] at hs; cases hs
      | inCb n => rw [hw] at hs; cases hs
    | sys i =>
      simp only [step] at hs
      split at hs
      · cases hq : B.start i with
        | none => simp [hq] at hs
        | some q => rw [hq] at hs; injection hs with hs; subst hs; exact hl
      · rename_i b _
        cases hq : B.turn b i with
        | none => simp [hq] at hs
        | some q => rw [hq] at hs; injection hs with hs; subst hs; exact hl
      · cases hs
    | cbReturn => simp only [step] at hs; split at hs; injection hs with hs; subst hs; exact hl; cases hs
    | cbClose => simp only [step] at hs; split at hs; injection hs with hs; subst hs; exact hl; cases hs
    | _ => simp [isWorker] at ha

theorem doomed_run_live {acts : List (Act B)} {s s' : St B} (hi : Inv d is s) (h : Doomed s) (hl : Msg.live true ∉ callbacks s.log) (hr : run d s acts = some s') :
    Msg.live true ∉ callbacks s'.log :=
  (run_keeps (P := fun x => (∃ is, Inv d is x) ∧ Doomed x ∧ Msg.live true ∉ callbacks x.log) (fun x a x' hx hs => by
    obtain ⟨⟨is1, h1⟩, h2, h3⟩ := hx
    exact ⟨⟨_, inv_step h1 hs⟩, doomed_step h1 h2 hs, doomed_live h2 h3 hs⟩) acts s s' ⟨⟨_, hi⟩, h, hl⟩ hr).2.2

theorem mem_answers {i : B.ι} {acts : List (Act B)} (h : Act.sys i ∈ acts) : i ∈ answers acts := by
  induction acts with
  | nil => cases h
  | cons a as ih =>
    rcases List.mem_cons.1 h with h | h
    · rw [← h]; simp [answers]
    · have h' := ih h
      cases a <;> simp [answers, h']

theorem mem_callbacks {ε : Type} {m : Msg ε} {l : List (Obs ε)} (h : Obs.cb m ∈ l) : m ∈ callbacks l := by
  induction l with
  | nil => cases h
  | cons y l ih =>
    rcases List.mem_cons.1 h with h | h
    · rw [← h]; simp [callbacks]
    · have h' := ih h
      cases y <;> simp [callbacks, h']

end Verif.Lemmas.Poll
