import Verif.Spec.PyProgram
import Verif.Props.HandleEnds
import Verif.Props.TextExact
/-!
# The Python program: C139, C140
-/

namespace Verif.Props
open Verif Verif.Model Verif.Model.Life Verif.Model.Handle Verif.Model.PyProg Verif.Spec Verif.Spec.Hd Verif.Spec.PyProg
open Verif.Lemmas Verif.Lemmas.Life Verif.Lemmas.Handle Verif.Lemmas.NodeLife

private theorem pre_step {cfg : Cfg} {p q : PS} {a : Handle.PAct} (hr : PReach cfg p) (hs : Handle.pstep Spec.Bind.utf8 cfg p a = .ok (some q)) :
    PReach cfg q := by
  obtain ⟨acts, h⟩ := hr
  refine ⟨acts ++ [a], ?_⟩
  have : ∀ (acts : List Handle.PAct) (p0 : PS), Handle.prun Spec.Bind.utf8 cfg p0 acts = .ok (some p) →
      Handle.prun Spec.Bind.utf8 cfg p0 (acts ++ [a]) = .ok (some q) := by
    intro acts
    induction acts with
    | nil =>
      intro p0 h
      simp only [Handle.prun, Outcome.ok.injEq, Option.some.injEq] at h
      subst h
      simp [Handle.prun, hs]
    | cons b bs ih =>
      intro p0 h
      simp only [Handle.prun, List.cons_append] at h ⊢
      cases hb : Handle.pstep Spec.Bind.utf8 cfg p0 b with
      | ub m => rw [hb] at h; cases h
      | ok o =>
        rw [hb] at h
        cases o with
        | none => simp only [Outcome.bind_ok] at h; cases h
        | some p1 => simp only [Outcome.bind_ok] at h ⊢; exact ih p1 h
  exact this acts _ h

private theorem pinvP {cfg : Cfg} {p : PS} (hr : PReach cfg p) : PInv cfg p := by
  obtain ⟨acts, hr⟩ := hr
  exact prun_inv acts _ _ (pinv_new cfg) hr

/-- A step inside the library. -/
private theorem life_told {cfg : Cfg} {p q : PS} {a : Act} {n i : Int} (hs : Handle.pstep Spec.Bind.utf8 cfg p (.life a n i) = .ok (some q)) :
    hstep cfg p.h (.life a) = .ok (some q.h) ∧
    (∃ x, q.told = p.told ++ x ∧ ∀ e ∈ x, ∃ c, Model.Bind.pyEvent Spec.Bind.utf8 c = some e ∧ c.time = n) ∧
    (q.busy = true → p.busy = true ∧ q.alive = p.alive ∧ q.last = p.last ∧ q.attr = p.attr) ∧
    (p.busy = false → q.busy = false ∧ q.alive = p.alive ∧ q.attr = p.attr ∧ q.last = p.last) ∧
    (p.busy = true → q.busy = false → q.attr = false ∧ q.alive = !p.last ∧ q.last = p.last) := by
  simp only [Handle.pstep] at hs
  cases hh : hstep cfg p.h (.life a) with
  | ub m => rw [hh] at hs; cases hs
  | ok o =>
    rw [hh] at hs
    cases o with
    | none => simp only [Outcome.bind_ok] at hs; cases hs
    | some h1 =>
      simp only [Outcome.bind_ok] at hs
      split at hs
      · cases hs
      · simp only [pure, Outcome.ok.injEq, Option.some.injEq] at hs
        have ev : ∀ e ∈ (newCbs p.h.life.log h1.life.log).filterMap (pyOf Spec.Bind.utf8 n i), ∃ c, Model.Bind.pyEvent Spec.Bind.utf8 c = some e ∧ c.time = n := by
          intro e he
          obtain ⟨x, _, hx⟩ := List.mem_filterMap.1 he
          refine ⟨_, hx, ?_⟩
          cases x with | mk _ _ _ as => cases as <;> rfl
        subst hs
        by_cases hx : h1.inC = true
        · rw [show pback { p with h := h1, told := p.told ++ (newCbs p.h.life.log h1.life.log).filterMap (pyOf Spec.Bind.utf8 n i) } =
            { p with h := h1, told := p.told ++ (newCbs p.h.life.log h1.life.log).filterMap (pyOf Spec.Bind.utf8 n i) } by simp [pback, hx]]
          exact ⟨rfl, ⟨_, rfl, ev⟩, fun h => ⟨h, rfl, rfl, rfl⟩, fun h => ⟨h, rfl, rfl, rfl⟩, fun h g => by simp [h] at g⟩
        · by_cases hb : p.busy = true
          · rw [show pback { p with h := h1, told := p.told ++ (newCbs p.h.life.log h1.life.log).filterMap (pyOf Spec.Bind.utf8 n i) } =
              { p with h := h1, told := p.told ++ (newCbs p.h.life.log h1.life.log).filterMap (pyOf Spec.Bind.utf8 n i),
                       attr := false, busy := false, alive := !p.last } by simp [pback, hx, hb]]
            exact ⟨rfl, ⟨_, rfl, ev⟩, fun h => by simp at h, fun h => by simp [hb] at h, fun _ _ => ⟨rfl, rfl, rfl⟩⟩
          · rw [show pback { p with h := h1, told := p.told ++ (newCbs p.h.life.log h1.life.log).filterMap (pyOf Spec.Bind.utf8 n i) } =
              { p with h := h1, told := p.told ++ (newCbs p.h.life.log h1.life.log).filterMap (pyOf Spec.Bind.utf8 n i) } by simp [pback, hx, hb]]
            exact ⟨rfl, ⟨_, rfl, ev⟩, fun h => absurd h hb, fun h => ⟨h, rfl, rfl, rfl⟩, fun h => absurd h hb⟩

private structure PyInv (cfg : Cfg) (p : Py) : Prop where
  reach : PReach cfg p.ps
  plain : NotInside p.ps.h
  out : p.out = p.ps.told.map pyLine
  ev : ∀ e ∈ p.ps.told, ∃ c, Model.Bind.pyEvent Spec.Bind.utf8 c = some e
  waiting : p.phase = .waiting → p.ps.attr = true ∧ p.ps.busy = false ∧ p.ps.alive = true ∧ p.ps.last = false
  leaving : ∀ c, p.phase = .leaving c → p.ps.busy = true ∧ p.ps.alive = true ∧ p.ps.last = false
  exited : ∀ c, p.phase = .exited c → p.ps.attr = false ∧ p.ps.alive = false ∧ p.ps.busy = false

private theorem pyinv_start (cfg : Cfg) : PyInv cfg (pystart cfg) where
  reach := ⟨[], rfl⟩
  plain := by intro c n h; cases h
  out := rfl
  ev := by intro e h; cases h
  waiting := fun _ => ⟨rfl, rfl, rfl, rfl⟩
  leaving := by intro c h; cases h
  exited := by intro c h; cases h

/-- `__exit__` is still running, or it has returned and the object is deleted. -/
private theorem settle_cases {cfg : Cfg} {p q : Py} {c : Nat} (hl : p.phase = .leaving c) (hs : pysettle Spec.Bind.utf8 cfg p = .ok (some q)) :
    (p.ps.busy = true ∧ q = p) ∨ (p.ps.busy = false ∧ ∃ r, Handle.pstep Spec.Bind.utf8 cfg p.ps .del = .ok (some r) ∧ q = { p with ps := r, phase := .exited c }) := by
  simp only [pysettle, hl] at hs
  cases hb : p.ps.busy with
  | true => simp [hb] at hs; exact .inl ⟨rfl, hs.symm⟩
  | false =>
    simp only [hb, Bool.false_eq_true, if_false] at hs
    cases hd : Handle.pstep Spec.Bind.utf8 cfg p.ps .del with
    | ub m => rw [hd] at hs; cases hs
    | ok o =>
      rw [hd] at hs
      cases o with
      | none => simp only [Outcome.bind_ok] at hs; cases hs
      | some r =>
        simp only [Outcome.bind_ok, pure, Outcome.ok.injEq, Option.some.injEq] at hs
        exact .inr ⟨rfl, r, rfl, hs.symm⟩

private theorem del_closed {cfg : Cfg} {p q : PS} (ha : p.attr = false) (hal : p.alive = true) (hb : p.busy = false)
    (hs : Handle.pstep Spec.Bind.utf8 cfg p .del = .ok (some q)) : q = { p with alive := false } := by
  simp only [Handle.pstep, ha, hal, hb, pure, Bool.not_true, Bool.or_false, Bool.false_eq_true, if_false, Bool.not_false, if_true,
    Outcome.ok.injEq, Option.some.injEq] at hs
  rw [← hs]; simp [ha, hb]

private theorem close_step {cfg : Cfg} {p q : PS} (ha : p.attr = true) (hal : p.alive = true) (hb : p.busy = false)
    (hs : Handle.pstep Spec.Bind.utf8 cfg p .close = .ok (some q)) : ∃ h, hstep cfg p.h .close = .ok (some h) ∧ q = { p with h := h, busy := true } := by
  simp only [Handle.pstep, ha, hal, hb, Bool.not_true, Bool.or_false, Bool.false_eq_true, if_false] at hs
  cases hh : hstep cfg p.h .close with
  | ub m => rw [hh] at hs; cases hs
  | ok o =>
    rw [hh] at hs
    cases o with
    | none => simp only [Outcome.bind_ok] at hs; cases hs
    | some h =>
      simp only [Outcome.bind_ok, pure, Outcome.ok.injEq, Option.some.injEq] at hs
      exact ⟨h, rfl, by rw [← hs]; simp [ha, hal]⟩

private theorem pyleave_inv {cfg : Cfg} {p q : Py} {c : Came} (hi : PyInv cfg p) (hp : p.phase = .waiting)
    (hs : pyleave Spec.Bind.utf8 cfg p c = .ok (some q)) : PyInv cfg q ∧ q.phase = .leaving (status c) ∧ q.ps.told = p.ps.told := by
  obtain ⟨w1, w2, w3, w4⟩ := hi.waiting hp
  simp only [pyleave] at hs
  cases hc : Handle.pstep Spec.Bind.utf8 cfg p.ps .close with
  | ub m => rw [hc] at hs; cases hs
  | ok o =>
    rw [hc] at hs
    cases o with
    | none => simp only [Outcome.bind_ok] at hs; cases hs
    | some r =>
      simp only [Outcome.bind_ok] at hs
      have hreach := pre_step hi.reach hc
      obtain ⟨h, hh, he⟩ := close_step w1 w3 w2 hc
      have hpl := plain_hstep (pinvP hi.reach).h (by intro e; cases e) hi.plain hh
      subst he
      rcases settle_cases (c := status c) rfl hs with ⟨_, rfl⟩ | ⟨hb, _⟩
      · exact ⟨⟨hreach, hpl, hi.out, hi.ev, fun h => by simp at h, fun _ _ => ⟨rfl, w3, w4⟩, fun c h => by simp at h⟩, rfl, rfl⟩
      · cases hb

private theorem pyinside_inv {cfg : Cfg} {p q : Py} {a : Act} {n i : Int} (hi : PyInv cfg p) (ha : a ≠ .cbClose)
    (hs : pyinside Spec.Bind.utf8 cfg p a n i = .ok (some q)) :
    PyInv cfg q ∧ hstep cfg p.ps.h (.life a) = .ok (some q.ps.h) ∧
    (p.phase = .waiting → q.phase = .waiting) ∧ (∀ c, p.phase = .leaving c → q.phase = .leaving c ∨ q.phase = .exited c) ∧
    (∀ c, p.phase = .exited c → q.phase = .exited c) ∧ ∃ x, q.ps.told = p.ps.told ++ x ∧ ∀ e ∈ x, e.time = n := by
  simp only [pyinside] at hs
  cases hc : Handle.pstep Spec.Bind.utf8 cfg p.ps (.life a n i) with
  | ub m => rw [hc] at hs; cases hs
  | ok o =>
    rw [hc] at hs
    cases o with
    | none => simp only [Outcome.bind_ok] at hs; cases hs
    | some r =>
      simp only [Outcome.bind_ok] at hs
      have hreach := pre_step hi.reach hc
      obtain ⟨hh, ⟨x, hx, hxe⟩, k1, k2, k3⟩ := life_told hc
      have hpl := plain_hstep (pinvP hi.reach).h (by intro e; exact ha (by cases e; rfl)) hi.plain hh
      have hout : p.out ++ (r.told.drop p.ps.told.length).map pyLine = r.told.map pyLine := by rw [hx, hi.out]; simp
      have hev : ∀ e ∈ r.told, ∃ c, Model.Bind.pyEvent Spec.Bind.utf8 c = some e := by
        intro e he
        rw [hx] at he
        rcases List.mem_append.1 he with he | he
        · exact hi.ev e he
        · obtain ⟨c, h, _⟩ := hxe e he; exact ⟨c, h⟩
      have htm : ∃ x, r.told = p.ps.told ++ x ∧ ∀ e ∈ x, e.time = n := by
        refine ⟨x, hx, fun e he => ?_⟩
        obtain ⟨c, h, ht⟩ := hxe e he
        rw [(py_types h).1, ht]
      cases hp : p.phase with
      | exited c =>
        obtain ⟨w1, w2, w3⟩ := hi.exited c hp
        simp only [pysettle, hp, Outcome.ok.injEq, Option.some.injEq] at hs
        subst hs
        obtain ⟨e1, e2, e3, e4⟩ := k2 w3
        exact ⟨⟨hreach, hpl, hout, hev, fun h => by simp at h, fun c h => by simp at h, fun _ _ => ⟨e3.trans w1, e2.trans w2, e1⟩⟩,
          hh, fun h => by simp at h, fun c h => by simp at h, fun c h => h, htm⟩
      | waiting =>
        obtain ⟨w1, w2, w3, w4⟩ := hi.waiting hp
        simp only [pysettle, hp, Outcome.ok.injEq, Option.some.injEq] at hs
        subst hs
        obtain ⟨e1, e2, e3, e4⟩ := k2 w2
        exact ⟨⟨hreach, hpl, hout, hev, fun _ => ⟨e3.trans w1, e1, e2.trans w3, e4.trans w4⟩, fun c h => by simp at h, fun c h => by simp at h⟩,
          hh, fun _ => rfl, fun c h => by simp at h, fun c h => by simp at h, htm⟩
      | leaving c =>
        obtain ⟨w1, w2, w3⟩ := hi.leaving c hp
        rcases settle_cases (c := c) (by exact hp) hs with ⟨hb, rfl⟩ | ⟨hb, r', hd, rfl⟩
        · obtain ⟨_, e2, e3, e4⟩ := k1 hb
          exact ⟨⟨hreach, hpl, hout, hev, fun h => by simp [hp] at h, fun _ _ => ⟨hb, e2.trans w2, e3.trans w3⟩, fun c h => by simp [hp] at h⟩,
            hh, fun h => by simp at h, fun c' h => by left; rw [← h]; exact hp, fun c h => by simp at h, htm⟩
        · obtain ⟨e1, e2, e3⟩ := k3 w1 hb
          have hal : r.alive = true := by rw [e2, w3]; rfl
          have hreach' := pre_step hreach hd
          have := del_closed e1 hal hb hd
          subst this
          exact ⟨⟨hreach', hpl, hout, hev, fun h => by simp at h, fun c h => by simp at h, fun _ _ => ⟨e1, rfl, hb⟩⟩, hh, fun h => by simp at h,
            fun c' h => by right; simp at h; simp [h], fun c h => by simp at h, htm⟩

/-- What a step is. -/
private theorem pystep_cases {cfg : Cfg} {p : Py} {a : PyAct} {o : Outcome (Option Py)} (hs : pystep Spec.Bind.utf8 cfg p a = o) :
    o = .ok none ∨ (∃ c, a = .came c ∧ p.phase = .waiting ∧ pyleave Spec.Bind.utf8 cfg p c = o) ∨
    ∃ x n i, a = .life x n i ∧ x ≠ .cbClose ∧ pyinside Spec.Bind.utf8 cfg p x n i = o := by
  cases a with
  | came c =>
    simp only [pystep] at hs
    split at hs
    · rename_i hp; exact .inr (.inl ⟨c, rfl, hp, hs⟩)
    · exact .inl hs.symm
  | life x n i =>
    simp only [pystep] at hs
    split at hs
    · exact .inl hs.symm
    · rename_i hx; exact .inr (.inr ⟨x, n, i, rfl, hx, hs⟩)

private theorem pystep_inv {cfg : Cfg} {p q : Py} {a : PyAct} (hi : PyInv cfg p) (hs : pystep Spec.Bind.utf8 cfg p a = .ok (some q)) : PyInv cfg q := by
  rcases pystep_cases hs with h | ⟨c, _, hp, h⟩ | ⟨x, n, i, _, hx, h⟩
  · cases h
  · exact (pyleave_inv hi hp h).1
  · exact (pyinside_inv hi hx h).1

private theorem pyrun_inv {cfg : Cfg} : ∀ (acts : List PyAct) (p q : Py), PyInv cfg p → pyrun Spec.Bind.utf8 cfg p acts = .ok (some q) → PyInv cfg q := by
  intro acts
  induction acts with
  | nil => intro p q hi h; simp only [pyrun, Outcome.ok.injEq, Option.some.injEq] at h; subst h; exact hi
  | cons a as ih =>
    intro p q hi h
    simp only [pyrun] at h
    cases hs : pystep Spec.Bind.utf8 cfg p a with
    | ub m => rw [hs] at h; cases h
    | ok o =>
      rw [hs] at h
      cases o with
      | none => simp only [Outcome.bind_ok] at h; cases h
      | some p1 => simp only [Outcome.bind_ok] at h; exact ih p1 q (pystep_inv hi hs) h

private theorem pyinv {cfg : Cfg} {p : Py} (h : PyRuns cfg p) : PyInv cfg p := by
  obtain ⟨acts, h⟩ := h
  exact pyrun_inv acts _ _ (pyinv_start cfg) h

private theorem times64 {cfg : Cfg} : ∀ (acts : List PyAct) (p q : Py), PyInv cfg p → (∀ e ∈ p.ps.told, Is64 e.time) → (∀ a ∈ acts, Clock64 a) →
    pyrun Spec.Bind.utf8 cfg p acts = .ok (some q) → ∀ e ∈ q.ps.told, Is64 e.time := by
  intro acts
  induction acts with
  | nil => intro p q _ hp _ h; simp only [pyrun, Outcome.ok.injEq, Option.some.injEq] at h; subst h; exact hp
  | cons a as ih =>
    intro p q hi hp hc h
    simp only [pyrun] at h
    cases hs : pystep Spec.Bind.utf8 cfg p a with
    | ub m => rw [hs] at h; cases h
    | ok o =>
      rw [hs] at h
      cases o with
      | none => simp only [Outcome.bind_ok] at h; cases h
      | some p1 =>
        simp only [Outcome.bind_ok] at h
        refine ih p1 q (pystep_inv hi hs) ?_ (fun b hb => hc b (List.mem_cons_of_mem _ hb)) h
        have ha := hc a List.mem_cons_self
        rcases pystep_cases hs with h | ⟨c, _, hph, h⟩ | ⟨x, n, i, hax, hx, h⟩
        · cases h
        · rw [(pyleave_inv hi hph h).2.2]; exact hp
        · obtain ⟨y, hy, ht⟩ := (pyinside_inv hi hx h).2.2.2.2.2
          subst hax
          intro e he
          rw [hy] at he
          rcases List.mem_append.1 he with he | he
          · exact hp e he
          · rw [ht e he]; exact ha

/-! ## C139 -/

/-- C139 in full: the program prints exactly one line per event, in order, each the JSON document of the event. -/
def C139_full : Prop := ∀ (cfg : Cfg) (acts : List PyAct) (p : Py), (∀ a ∈ acts, Clock64 a) → pyrun Spec.Bind.utf8 cfg (pystart cfg) acts = .ok (some p) →
  ∃ es, EachHeard (callbacks p.ps.h.life.log) es ∧ (Spec.Prog.linesOf p.out.flatten).map Json.parse = es.map (fun e => some (doc e))

private theorem linesFrom_one (l cur rest : Str) (h : (10 : UInt8) ∉ l) : Spec.Prog.linesFrom cur (l ++ 10 :: rest) = (cur ++ l) :: Spec.Prog.linesFrom [] rest := by
  induction l generalizing cur with
  | nil => simp [Spec.Prog.linesFrom]
  | cons c l ih =>
    have hc : c ≠ 10 := fun e => h (by simp [e])
    simp only [List.cons_append, Spec.Prog.linesFrom, hc, if_false]
    rw [ih _ (fun hm => h (List.mem_cons_of_mem _ hm))]
    simp

private theorem plain_line {s : Str} (h : PlainText s) : (10 : UInt8) ∉ s := fun hm => absurd (h _ hm).1 (by decide)

private theorem py_no_nl {c : Model.Bind.CEvent} {e : Model.Bind.PyEvent} (h : Model.Bind.pyEvent Spec.Bind.utf8 c = some e) (h64 : Is64 e.time) (hs : Simple e) :
    (10 : UInt8) ∉ Model.Bind.pyJson e := by
  obtain ⟨_, h1, h2, _⟩ := py_types h
  have ht := plain_line (decimal_plain (toChars_decimal e.time h64))
  have hp := plain_line hs.1
  have he := plain_line h1
  have hpt := plain_line h2
  simp only [Model.Bind.pyJson]
  have key : ∀ (m : Str), (10 : UInt8) ∉ m → (10 : UInt8) ∉ b!"{\"effect_time\":" ++ toChars e.time ++ b!",\"path_name\":\"" ++ e.path
    ++ b!"\",\"associated_path_name\":" ++ m ++ b!",\"effect_type\":\"" ++ e.effect
    ++ b!"\",\"path_type\":\"" ++ e.ptype ++ b!"\"}" := by
    intro m hm
    simp only [List.mem_append, not_or]
    simp [ht, hp, he, hpt, hm]
  refine key _ ?_
  cases ha : e.assoc with
  | none => simp
  | some a =>
    have := plain_line (hs.2 a ha)
    simp only
    split
    · simp
    · simp [this]

private theorem py_read_back (es : List Model.Bind.PyEvent) (h : ∀ e ∈ es, ∃ c, Model.Bind.pyEvent Spec.Bind.utf8 c = some e) (h64 : ∀ e ∈ es, Is64 e.time)
    (hs : ∀ e ∈ es, Simple e) : (Spec.Prog.linesOf (es.map pyLine).flatten).map Json.parse = es.map (fun e => some (doc e)) := by
  induction es with
  | nil => rfl
  | cons x xs ih =>
    obtain ⟨c, hc⟩ := h x (by simp)
    have hx := hs x (by simp)
    have h6 := h64 x (by simp)
    simp only [List.map_cons, List.flatten_cons]
    rw [show pyLine x ++ (List.map pyLine xs).flatten = Model.Bind.pyJson x ++ 10 :: (List.map pyLine xs).flatten by simp [pyLine]]
    rw [Spec.Prog.linesOf, linesFrom_one _ _ _ (py_no_nl hc h6 hx)]
    simp only [List.map_cons, List.nil_append, C74_json_partial c x (by rw [← (py_types hc).1]; exact h6) hc hx.1 hx.2]
    rw [show Spec.Prog.linesFrom [] = Spec.Prog.linesOf from rfl, ih (fun y hy => h y (by simp [hy])) (fun y hy => h64 y (by simp [hy])) (fun y hy => hs y (by simp [hy]))]
    rfl

/-- C139 (partial: events whose names are not UTF-8 are missed, and the lines of names with a quotation mark, a backslash or a
control character are not JSON): at any time the program has printed one text for each other event so far, in order; and if
those are simple, whoever reads the output line by line gets exactly their documents. -/
theorem C139_lines_partial (cfg : Cfg) (acts : List PyAct) (p : Py) (hc : ∀ a ∈ acts, Clock64 a)
    (h : pyrun Spec.Bind.utf8 cfg (pystart cfg) acts = .ok (some p)) :
    ∃ es, Heard (callbacks p.ps.h.life.log) es ∧ p.out.length = es.length ∧
      ((∀ e ∈ es, Simple e) → (Spec.Prog.linesOf p.out.flatten).map Json.parse = es.map (fun e => some (doc e))) := by
  have hi := pyrun_inv acts _ _ (pyinv_start cfg) h
  refine ⟨p.ps.told, (pinvP hi.reach).same, by rw [hi.out]; simp, fun hs => ?_⟩
  rw [hi.out]
  exact py_read_back _ hi.ev (times64 acts _ _ (pyinv_start cfg) (by intro e h; cases h) hc h) hs

/-- C139 (partial likewise): if all names are UTF-8, none is missed. -/
theorem C139_utf8_partial (cfg : Cfg) (acts : List PyAct) (p : Py) (hc : ∀ a ∈ acts, Clock64 a)
    (h : pyrun Spec.Bind.utf8 cfg (pystart cfg) acts = .ok (some p)) (hu : ∀ e ∈ callbacks p.ps.h.life.log, Readable e) :
    ∃ es, EachHeard (callbacks p.ps.h.life.log) es ∧ p.out.length = es.length ∧
      ((∀ e ∈ es, Simple e) → (Spec.Prog.linesOf p.out.flatten).map Json.parse = es.map (fun e => some (doc e))) := by
  have hi := pyrun_inv acts _ _ (pyinv_start cfg) h
  refine ⟨p.ps.told, C114_utf8_partial cfg p.ps hi.reach hu, by rw [hi.out]; simp, fun hs => ?_⟩
  rw [hi.out]
  exact py_read_back _ hi.ev (times64 acts _ _ (pyinv_start cfg) (by intro e h; cases h) hc h) hs

/-- C139 (partial likewise): when the program has ended, it was the whole story from the live to the die message, and if the
path is UTF-8 (otherwise see `C140_path_partial`) the first text is about the live and the last about the die message. -/
theorem C139_whole_story_partial (cfg : Cfg) (hfd : cfg.fdOk = true) (p : Py) (h : PyRuns cfg p) (c : Nat) (hc : p.phase = .exited c) :
    (∃ a d l es, Ended cfg.path a d l ∧ Heard l es ∧ p.out = es.map pyLine) ∧
    (Spec.Bind.utf8 (upToNul cfg.path) = true → ∃ a d first mids last, p.out = (first :: mids ++ [last]).map pyLine ∧
      SamePy (liveMsg cfg.path a) first ∧ SamePy (dieMsg cfg.path d) last) := by
  have hi := pyinv h
  have ha := (hi.exited c hc).1
  refine ⟨?_, fun hu => ?_⟩
  · obtain ⟨⟨a, d, l, h1, h2⟩, _⟩ := C114_nothing_after_close_partial cfg hfd p.ps hi.reach ha
    exact ⟨a, d, l, p.ps.told, h1, h2, hi.out⟩
  · obtain ⟨a, d, first, mids, last, h1, h2, h3⟩ := C114_ends_partial cfg hfd p.ps hi.reach ha hu
    exact ⟨a, d, first, mids, last, by rw [hi.out, h1], h2, h3⟩

/-! ## C140 -/

/-- C140 in full: when its input ends, the program stops watching and ends, with status 0 exactly if the watch reported
no error. -/
def C140_full : Prop := ∀ (cfg : Cfg) (p : Py) (c : Nat), cfg.fdOk = true → PyRuns cfg p → p.phase = .exited c →
  (c = 0 ↔ ∀ e ∈ callbacks p.ps.h.life.log, ¬ IsErrorMsg e)

/-- How the program's phase goes with the input. -/
private theorem phase_run {cfg : Cfg} : ∀ (acts : List PyAct) (p q : Py), PyInv cfg p → pyrun Spec.Bind.utf8 cfg p acts = .ok (some q) →
    (p.phase = .waiting → (inputs acts = [] ∧ q.phase = .waiting) ∨ ∃ c, inputs acts = [c] ∧ (q.phase = .leaving (status c) ∨ q.phase = .exited (status c))) ∧
    (∀ s, p.phase = .leaving s → inputs acts = [] ∧ (q.phase = .leaving s ∨ q.phase = .exited s)) ∧
    (∀ s, p.phase = .exited s → inputs acts = [] ∧ q.phase = .exited s) := by
  intro acts
  induction acts with
  | nil =>
    intro p q _ h
    simp only [pyrun, Outcome.ok.injEq, Option.some.injEq] at h
    subst h
    exact ⟨fun h => .inl ⟨rfl, h⟩, fun s h => ⟨rfl, .inl h⟩, fun s h => ⟨rfl, h⟩⟩
  | cons a as ih =>
    intro p q hi h
    simp only [pyrun] at h
    cases hs : pystep Spec.Bind.utf8 cfg p a with
    | ub m => rw [hs] at h; cases h
    | ok o =>
      rw [hs] at h
      cases o with
      | none => simp only [Outcome.bind_ok] at h; cases h
      | some p1 =>
        simp only [Outcome.bind_ok] at h
        obtain ⟨i1, i2, i3⟩ := ih p1 q (pystep_inv hi hs) h
        rcases pystep_cases hs with h | ⟨c, rfl, hp, h⟩ | ⟨x, n, i, rfl, hx, h⟩
        · cases h
        · obtain ⟨g1, g2⟩ := i2 _ (pyleave_inv hi hp h).2.1
          refine ⟨fun _ => .inr ⟨c, by simp [inputs, g1], g2⟩, fun s h => ?_, fun s h => ?_⟩
          · rw [hp] at h; cases h
          · rw [hp] at h; cases h
        · obtain ⟨_, _, k1, k2, k3, _⟩ := pyinside_inv hi hx h
          refine ⟨fun h => i1 (k1 h), fun s h => ?_, fun s h => i3 s (k3 s h)⟩
          rcases k2 s h with k | k
          · exact i2 s k
          · exact ⟨(i3 s k).1, .inr (i3 s k).2⟩

/-- C140 (partial: the status does not tell about the watch): while the input goes on, the program waits; when it has ended, the
status tells how the input ended and nothing else: 0 after a line, 1 at the end of the input, 130 (an interrupt) after Ctrl-C. -/
theorem C140_status_partial (cfg : Cfg) (acts : List PyAct) (p : Py) (h : pyrun Spec.Bind.utf8 cfg (pystart cfg) acts = .ok (some p)) :
    (inputs acts = [] → p.phase = .waiting) ∧
    ∀ s, p.phase = .exited s → (inputs acts = [.line] ∧ s = 0) ∨ (inputs acts = [.eof] ∧ s = 1) ∨ (inputs acts = [.interrupt] ∧ s = 130) := by
  rcases (phase_run acts _ _ (pyinv_start cfg) h).1 rfl with ⟨h1, h2⟩ | ⟨c, h1, h2⟩
  · exact ⟨fun _ => h2, fun s hs => by simp [h2] at hs⟩
  · refine ⟨fun he => by simp [h1] at he, fun s hs => ?_⟩
    rcases h2 with h2 | h2
    · rw [h2] at hs; cases hs
    · rw [h2] at hs
      cases hs
      cases c
      · exact .inl ⟨h1, rfl⟩
      · exact .inr (.inl ⟨h1, rfl⟩)
      · exact .inr (.inr ⟨h1, rfl⟩)

/-- C140 (partial likewise): when the program has ended, so has the watcher's thread, before it: nothing more is printed. -/
theorem C140_over_partial (cfg : Cfg) (hfd : cfg.fdOk = true) (p : Py) (h : PyRuns cfg p) (c : Nat) (hc : p.phase = .exited c) :
    p.ps.h.life.w = .finished ∧ ∀ acts q, pyrun Spec.Bind.utf8 cfg p acts = .ok (some q) → q.out = p.out ∧ q.phase = .exited c := by
  have hi := pyinv h
  obtain ⟨ha, hal, _⟩ := hi.exited c hc
  have hp := pinvP hi.reach
  obtain ⟨hC, hlen⟩ := hp.let_go ha
  refine ⟨ended_of_rets hfd hp.h hC (by intro h; rw [h] at hlen; cases hlen), ?_⟩
  have main : ∀ (acts : List PyAct) (p q : Py), PyInv cfg p → p.phase = .exited c → pyrun Spec.Bind.utf8 cfg p acts = .ok (some q) →
      q.ps.told = p.ps.told ∧ q.phase = .exited c := by
    intro acts
    induction acts with
    | nil => intro p q _ hc h; simp only [pyrun, Outcome.ok.injEq, Option.some.injEq] at h; subst h; exact ⟨rfl, hc⟩
    | cons a as ih =>
      intro p q hi hc h
      simp only [pyrun] at h
      cases hs : pystep Spec.Bind.utf8 cfg p a with
      | ub m => rw [hs] at h; cases h
      | ok o =>
        rw [hs] at h
        cases o with
        | none => simp only [Outcome.bind_ok] at h; cases h
        | some p1 =>
          simp only [Outcome.bind_ok] at h
          have hi1 := pystep_inv hi hs
          rcases pystep_cases hs with h | ⟨c, rfl, hp, h⟩ | ⟨x, n, i, rfl, hx, hin⟩
          · cases h
          · rw [hc] at hp; cases hp
          · obtain ⟨_, _, _, _, k3, _⟩ := pyinside_inv hi hx hin
            obtain ⟨g1, g2⟩ := ih p1 q hi1 (k3 c hc) h
            refine ⟨g1.trans ?_, g2⟩
            have hps : Handle.pstep Spec.Bind.utf8 cfg p.ps (.life x n i) = .ok (some p1.ps) := by
              simp only [pyinside] at hin
              cases hq : Handle.pstep Spec.Bind.utf8 cfg p.ps (.life x n i) with
              | ub m => rw [hq] at hin; cases hin
              | ok o =>
                rw [hq] at hin
                cases o with
                | none => simp only [Outcome.bind_ok] at hin; cases hin
                | some r =>
                  simp only [Outcome.bind_ok, pysettle, hc, Outcome.ok.injEq, Option.some.injEq] at hin
                  subst hin; rfl
            exact (C114_nothing_after_close_partial cfg hfd p.ps hi.reach (hi.exited c hc).1).2 [.life x n i] p1.ps (by simp [Handle.prun, hps])
  intro acts q hq
  obtain ⟨h1, h2⟩ := main acts p q hi hc hq
  exact ⟨by rw [(pyrun_inv acts _ _ hi hq).out, hi.out, h1], h2⟩

/-- When a step of the program is undefined. -/
private theorem pystep_ub {cfg : Cfg} {p : Py} {a : PyAct} {m : String} (hi : PyInv cfg p) (hs : pystep Spec.Bind.utf8 cfg p a = .ub m) :
    p.ps.alive = false ∧ p.ps.h.life.w ≠ .finished := by
  have hset : ∀ (r : PS) (p' : Py), p'.ps = r → (∀ c, p'.phase = .leaving c → r.busy = false → r.attr = false ∧ r.alive = true) →
      pysettle Spec.Bind.utf8 cfg p' = .ub m → False := by
    intro r p' hr hl hs
    simp only [pysettle] at hs
    cases hp : p'.phase with
    | waiting => rw [hp] at hs; cases hs
    | exited c => rw [hp] at hs; cases hs
    | leaving c =>
      rw [hp] at hs
      simp only [hr] at hs
      cases hb : r.busy with
      | true => simp [hb] at hs
      | false =>
        obtain ⟨h1, h2⟩ := hl c hp hb
        simp [hb, Handle.pstep, h1, h2, pure] at hs
  rcases pystep_cases hs with h | ⟨c, rfl, hp, h⟩ | ⟨x, n, i, rfl, hx, h⟩
  · cases h
  · simp only [pyleave] at h
    cases hq : Handle.pstep Spec.Bind.utf8 cfg p.ps .close with
    | ub m => exact pstep_ub (pinvP hi.reach) hq
    | ok o =>
      rw [hq] at h
      cases o with
      | none => simp only [Outcome.bind_ok] at h; cases h
      | some r =>
        simp only [Outcome.bind_ok] at h
        obtain ⟨w1, w2, w3, w4⟩ := hi.waiting hp
        obtain ⟨_, _, rfl⟩ := close_step w1 w3 w2 hq
        exact (hset _ _ rfl (by intro c _ hb; cases hb) h).elim
  · simp only [pyinside] at h
    cases hq : Handle.pstep Spec.Bind.utf8 cfg p.ps (.life x n i) with
    | ub m => exact pstep_ub (pinvP hi.reach) hq
    | ok o =>
      rw [hq] at h
      cases o with
      | none => simp only [Outcome.bind_ok] at h; cases h
      | some r =>
        simp only [Outcome.bind_ok] at h
        obtain ⟨_, _, _, _, k3⟩ := life_told hq
        refine (hset r _ rfl ?_ h).elim
        intro c hl hb
        obtain ⟨w1, w2, w3⟩ := hi.leaving c hl
        obtain ⟨e1, e2, _⟩ := k3 w1 hb
        exact ⟨e1, by rw [e2, w3]; rfl⟩

/-- C140 (partial likewise, and the stop signal works): the program never reaches undefined behaviour. -/
theorem C140_safe_partial (cfg : Cfg) (hfd : cfg.fdOk = true) (acts : List PyAct) (m : String) :
    pyrun Spec.Bind.utf8 cfg (pystart cfg) acts ≠ .ub m := by
  have main : ∀ (acts : List PyAct) (p : Py), PyInv cfg p → pyrun Spec.Bind.utf8 cfg p acts ≠ .ub m := by
    intro acts
    induction acts with
    | nil => intro p _ hm; cases hm
    | cons a as ih =>
      intro p hi hr
      simp only [pyrun] at hr
      cases hs : pystep Spec.Bind.utf8 cfg p a with
      | ub m' =>
        obtain ⟨h1, h2⟩ := pystep_ub hi hs
        have hp := pinvP hi.reach
        obtain ⟨h3, h4⟩ := hp.dead h1
        have := (hp.let_go h4).2
        exact h2 (ended_of_rets hfd hp.h h3 (by intro h; rw [h] at this; cases this))
      | ok o =>
        rw [hs] at hr
        cases o with
        | none => simp only [Outcome.bind_ok] at hr; cases hr
        | some p1 => simp only [Outcome.bind_ok] at hr; exact ih p1 (pystep_inv hi hs) hr
  exact main acts _ (pyinv_start cfg)

private def leftP (h : H) : Nat := cost h.life.w + oCost h.life.o

/-- C140 (partial likewise): when files are not changed any more, only so many steps can be made inside the library, by both
threads together: a number known in advance, plus two for each warning while opening. -/
theorem C140_bounded_partial (cfg : Cfg) (p : Py) (h : PyRuns cfg p) :
    ∃ bound, ∀ acts q, (∀ a ∈ acts, QuietPy a) → pyrun Spec.Bind.utf8 cfg p acts = .ok (some q) → acts.length ≤ bound + (acts.map costPy).sum := by
  have gen : ∀ (acts : List PyAct) (p q : Py), PyInv cfg p → (∀ a ∈ acts, QuietPy a) → pyrun Spec.Bind.utf8 cfg p acts = .ok (some q) →
      acts.length ≤ leftP p.ps.h + (acts.map costPy).sum := by
    intro acts
    induction acts with
    | nil => intro h h' _ _ _; simp
    | cons a as ih =>
      intro p q hi hq hr
      simp only [pyrun] at hr
      cases hs : pystep Spec.Bind.utf8 cfg p a with
      | ub m => rw [hs] at hr; cases hr
      | ok o =>
        rw [hs] at hr
        cases o with
        | none => simp only [Outcome.bind_ok] at hr; cases hr
        | some p1 =>
          simp only [Outcome.bind_ok] at hr
          have h2 := ih p1 q (pystep_inv hi hs) (fun b hb => hq b (List.mem_cons_of_mem _ hb)) hr
          have hqa := hq a List.mem_cons_self
          rcases pystep_cases hs with h | ⟨c, rfl, hp, h⟩ | ⟨x, n, i, rfl, hx, h⟩
          · cases h
          · exact hqa.elim
          · have := quiet_hstep (pinvP hi.reach).h hqa (pyinside_inv hi hx h).2.1
            simp only [List.length_cons, List.map_cons, List.sum_cons, costPy, leftP] at h2 ⊢
            omega
  exact ⟨leftP p.ps.h, fun acts q hq hx => gen acts p q (pyinv h) hq hx⟩

private theorem pystuck {cfg : Cfg} {p : Py} (hi : PyInv cfg p) (s : Nat) (hl : p.phase = .leaving s) (now inner : Int) :
    ∃ a q, Quiet a ∧ openCost a = 0 ∧ pystep Spec.Bind.utf8 cfg p (.life a now inner) = .ok (some q) := by
  obtain ⟨w1, w2, w3⟩ := hi.leaving s hl
  obtain ⟨a, r, h1, h2, h3⟩ := C134_python_never_stuck cfg p.ps hi.reach w1 hi.plain now inner
  have ha : a ≠ .cbClose := by rintro rfl; exact h1
  cases hs : pystep Spec.Bind.utf8 cfg p (.life a now inner) with
  | ub m => rw [(pystep_ub hi hs).1] at w2; cases w2
  | ok o =>
    cases o with
    | some q => exact ⟨a, q, h1, h2, hs⟩
    | none =>
      exfalso
      simp only [pystep, if_neg ha, pyinside, h3, Outcome.bind_ok, pysettle, hl] at hs
      cases hb : r.busy with
      | true => simp [hb] at hs
      | false =>
        obtain ⟨_, _, _, _, k3⟩ := life_told h3
        obtain ⟨e1, e2, _⟩ := k3 w1 hb
        simp [hb, Handle.pstep, e1, e2, w3, pure] at hs

/-- C140 (partial likewise): when the input has ended, the program is never stuck, -/
theorem C140_never_stuck_partial (cfg : Cfg) (p : Py) (h : PyRuns cfg p) (s : Nat) (hl : p.phase = .leaving s) (now inner : Int) :
    ∃ a q, QuietPy (.life a now inner) ∧ costPy (.life a now inner) = 0 ∧ pystep Spec.Bind.utf8 cfg p (.life a now inner) = .ok (some q) :=
  pystuck (pyinv h) s hl now inner

/-- and it can end. -/
theorem C140_ends_partial (cfg : Cfg) (p : Py) (h : PyRuns cfg p) (s : Nat) (hl : p.phase = .leaving s) :
    ∃ acts q, (∀ a ∈ acts, QuietPy a) ∧ pyrun Spec.Bind.utf8 cfg p acts = .ok (some q) ∧ q.phase = .exited s := by
  have gen : ∀ (k : Nat) (p : Py), leftP p.ps.h ≤ k → PyInv cfg p → p.phase = .leaving s →
      ∃ acts q, (∀ a ∈ acts, QuietPy a) ∧ pyrun Spec.Bind.utf8 cfg p acts = .ok (some q) ∧ q.phase = .exited s := by
    intro k
    induction k with
    | zero =>
      intro p hk hi hl
      obtain ⟨a, q, g1, g2, g3⟩ := pystuck hi s hl 0 0
      rcases pystep_cases g3 with h | ⟨c, hc, hp, h⟩ | ⟨x, n, i, hx, hne, h⟩
      · cases h
      · cases hc
      · cases hx
        have := quiet_hstep (pinvP hi.reach).h g1 (pyinside_inv hi hne h).2.1
        unfold leftP at hk; omega
    | succ k ih =>
      intro p hk hi hl
      obtain ⟨a, q, g1, g2, g3⟩ := pystuck hi s hl 0 0
      rcases pystep_cases g3 with h | ⟨c, hc, hp, h⟩ | ⟨x, n, i, hx, hne, h⟩
      · cases h
      · cases hc
      · cases hx
        obtain ⟨hi1, hh, _, k2, _⟩ := pyinside_inv hi hne h
        have hq := quiet_hstep (pinvP hi.reach).h g1 hh
        rcases k2 s hl with hl1 | hl1
        · obtain ⟨acts, q', r1, r2, r3⟩ := ih q (by unfold leftP at hk ⊢; omega) hi1 hl1
          refine ⟨.life a 0 0 :: acts, q', ?_, by simp [pyrun, g3, r2], r3⟩
          intro b hb
          rcases List.mem_cons.1 hb with rfl | hb
          · exact g1
          · exact r1 b hb
        · exact ⟨[.life a 0 0], q, by intro b hb; simp at hb; subst hb; exact g1, by simp [pyrun, g3], hl1⟩
  exact gen _ p (Nat.le_refl _) (pyinv h) hl

/-- C140 (partial likewise): the watched path is the first argument, or the present directory; an argument that is not
UTF-8 is refused before anything is watched. -/
theorem C140_path_partial (args : List Str) :
    (args = [] → pyPath Spec.Bind.utf8 args = some b!".") ∧
    (∀ a as, args = a :: as → Spec.Bind.utf8 a = true → pyPath Spec.Bind.utf8 args = some a) ∧
    (∀ a as, args = a :: as → Spec.Bind.utf8 a = false → pyPath Spec.Bind.utf8 args = none) := by
  refine ⟨?_, ?_, ?_⟩
  · rintro rfl; decide +kernel
  · rintro a as rfl h; simp [pyPath, h]
  · rintro a as rfl h; simp [pyPath, h]

private def cfgPy : Cfg := { path := b!"/d", dirOk := true, fdOk := true }
private def cfgNone : Cfg := { path := b!"/f", dirOk := false, fdOk := true }
private def cfgLost : Cfg := { path := b!"/d", dirOk := true, fdOk := false }
private def lifePy (now : Int) (l : List Life.Act) : List PyAct := l.map fun a => .life a now 0
private def upPy : List Life.Act := [.w, .w, .w, .cbReturn, .wOpen [] .pending, .w, .w,
  .wWake [.ke [⟨b!"/d/a", .create, .file, none⟩] .pending], .w, .w, .cbReturn, .w, .w]
private def downPy : List Life.Act := [.o, .o, .o, .o, .wWake [.il], .w, .w, .w, .w, .cbReturn, .w, .o, .o, .o, .o, .o]
private def badPy : List Life.Act := [.w, .w, .cbReturn, .w, .cbReturn, .w, .o, .o, .o, .o, .o]

private theorem ranPy {o : Outcome (Option Py)} {p : Py → Prop} [DecidablePred p]
    (h : (match o with | .ok (some a) => decide (p a) | _ => false) = true) : ∃ a, o = .ok (some a) ∧ p a := by
  cases o with
  | ok a =>
    cases a with
    | none => cases h
    | some a => exact ⟨a, rfl, by simpa using h⟩
  | ub => cases h

private theorem py_good : ∃ p, pyrun Spec.Bind.utf8 cfgPy (pystart cfgPy) (lifePy 5 upPy ++ [.came .line] ++ lifePy 7 downPy) = .ok (some p) ∧
    p.phase = .exited 0 ∧ p.out.length = 3 := ranPy (by decide +kernel)

private theorem py_bad : ∃ p, pyrun Spec.Bind.utf8 cfgNone (pystart cfgNone) ([.came .line] ++ lifePy 7 badPy) = .ok (some p) ∧
    p.phase = .exited 0 ∧ ¬ ∀ e ∈ callbacks p.ps.h.life.log, ¬ (e.ptype = .watcher ∧ e.path.head? = some 101) := ranPy (by decide +kernel)

private theorem py_lost : ∃ p, pyrun Spec.Bind.utf8 cfgPy (pystart cfgPy) (lifePy 5 [Life.Act.w, .w, .w, .cbReturn, .wOpen [] .pending, .w, .w,
    .wWake [.ke [⟨[47, 100, 47, 255], .create, .file, none⟩] .pending], .w, .w, .cbReturn, .w, .w]) = .ok (some p) ∧
    (callbacks p.ps.h.life.log).length = 2 ∧ (Spec.Prog.linesOf p.out.flatten).length = 1 := ranPy (by decide +kernel)

/-- C139 as stated is false of the code: a file whose name is the byte 255 is made, and no line is printed. -/
theorem C139_refuted : ¬ C139_full := by
  intro h
  obtain ⟨p, h1, h2, h3⟩ := py_lost
  obtain ⟨es, g1, g2⟩ := h cfgPy _ p (by intro a ha; simp only [lifePy, List.mem_map] at ha; obtain ⟨x, _, rfl⟩ := ha; simp [Clock64, Is64]) h1
  have hl : ∀ (l : List Ev) (es : List Model.Bind.PyEvent), EachHeard l es → l.length = es.length := by
    intro l es h
    induction h with
    | nil => rfl
    | cons _ _ ih => simp [ih]
  have e1 := hl _ _ g1
  have e2 := congrArg List.length g2
  simp only [List.length_map] at e2
  omega

/-- C140 as stated is false of the code: nobody looks at what the watch reported, and the status is 0 for a path that cannot
be watched. -/
theorem C140_refuted : ¬ C140_full := by
  intro h
  obtain ⟨p, h1, h2, h3⟩ := py_bad
  exact h3 ((h cfgNone p 0 rfl ⟨_, h1⟩ h2).1 rfl)

/-- Without descriptors for the stop signal the main thread can end while the watcher's thread still runs, which then calls a
callback that is gone. -/
theorem C140_mute_is_undefined : ∃ acts m, pyrun Spec.Bind.utf8 cfgLost (pystart cfgLost) acts = .ub m :=
  ⟨[.came .line] ++ lifePy 7 [.o, .o, .o, .o, .w, .w, .w, .w, .w], "callback of a deleted object", by decide +kernel⟩

/-- Met: three lines, then the end. -/
example : ∃ p, PyRuns cfgPy p ∧ p.phase = .exited 0 ∧ p.out.length = 3 ∧ Spec.Bind.utf8 (upToNul cfgPy.path) = true ∧ cfgPy.fdOk = true := by
  obtain ⟨p, h1, h2, h3⟩ := py_good
  exact ⟨p, ⟨_, h1⟩, h2, h3, by decide +kernel, rfl⟩
example : ∃ p, PyRuns cfgPy p ∧ p.phase = .leaving 1 := by
  obtain ⟨p, h1, h2⟩ := ranPy (o := pyrun Spec.Bind.utf8 cfgPy (pystart cfgPy) (lifePy 5 upPy ++ [.came .eof])) (p := fun p => p.phase = .leaving 1) (by decide +kernel)
  exact ⟨p, ⟨_, h1⟩, h2⟩
example : ∀ a ∈ lifePy 5 upPy ++ [.came .line] ++ lifePy 7 downPy, Clock64 a := by
  intro a ha
  simp only [lifePy, List.mem_append, List.mem_map, List.mem_singleton] at ha
  rcases ha with (⟨x, _, rfl⟩ | rfl) | ⟨x, _, rfl⟩ <;> simp [Clock64, Is64]
example : Simple ⟨5, b!"/d/a", none, b!"create", b!"file"⟩ := ⟨by decide, by intro a h; cases h⟩
example : pyPath Spec.Bind.utf8 [[255]] = none ∧ pyPath Spec.Bind.utf8 [b!"/d", b!"x"] = some b!"/d" := by decide +kernel

end Verif.Props
