import Verif.Model.Cli
import Verif.Spec.Cli
import Verif.Props.Text
/-!
# The command line programs: C61, C77, C78
-/

namespace Verif.Props
open Verif Verif.Model Verif.Model.Cli Verif.Spec Verif.Spec.Cli

/-- What is assumed of the library: `strtod` reads numerals exactly as far as doubles go. -/
def StrtodExact (env : Env) : Prop :=
  ∀ s n, numeral s = some n → n ≤ 2 ^ 53 → env.strtod s = .fin (n : Rat)

/-- Help is asked for by the first argument. -/
def HelpAsked (argv : List Str) : Prop := argv[1]? = some b!"-h" ∨ argv[1]? = some b!"--help"

/-- The first argument names nothing. -/
def MissingPath (env : Env) (argv : List Str) : Prop := ∃ a, argv[1]? = some a ∧ env.exist a = some false

/-- The path a run is about. -/
def PathOf (env : Env) (argv : List Str) (p : Str) : Prop :=
  (argv[1]? = none ∧ env.cwd = some p) ∨ (argv[1]? = some p ∧ env.exist p = some true)

/-- A successful exit status. -/
def exitOf (env : Env) : Nat := if env.closeOk then 0 else 1

theorem argis_iff (argv : List Str) (i : Nat) (a : Str) : argis argv i a = true ↔ argv[i]? = some a := by
  unfold argis
  cases h : argv[i]? with
  | none => simp
  | some x => simp

theorem help_iff (argv : List Str) :
    (argis argv 1 b!"-h" || argis argv 1 b!"--help") = true ↔ HelpAsked argv := by
  rw [Bool.or_eq_true, argis_iff, argis_iff]; rfl

/-- **C61, all argument vectors.** A run that comes to its end has exit status 0 or 1; it is 0 exactly
when help was asked for or a watch was opened and closed successfully; what is watched is the first
argument, which exists, or without arguments the current directory; a run that watches nothing shows
help, on the standard output exactly when it was asked for. -/
theorem C61_exit_and_help (env : Env) (argv : List Str) (r : Run) (h : main env argv = .ok r) :
    (r.exit = 0 ∨ r.exit = 1) ∧
    (r.exit = 0 ↔ HelpAsked argv ∨ (r.watched.isSome ∧ env.closeOk = true)) ∧
    (r.helpOut = true ↔ HelpAsked argv) ∧
    (r.helpErr = true ↔ ¬ HelpAsked argv ∧ MissingPath env argv) ∧
    (r.watched.isSome ↔ r.helpOut = false ∧ r.helpErr = false) ∧
    (∀ p w, r.watched = some (p, w) → ¬ HelpAsked argv ∧ PathOf env argv p) := by
  unfold main tryParse at h
  by_cases hh : (argis argv 1 b!"-h" || argis argv 1 b!"--help") = true
  · have ha := (help_iff argv).1 hh
    simp only [hh, if_true, Res.bind, timeArg, Bool.true_or] at h
    cases h
    simp [ha]
  · have ha : ¬ HelpAsked argv := fun q => hh ((help_iff argv).2 q)
    simp only [Bool.not_eq_true] at hh
    simp only [hh, Bool.false_eq_true, if_false, Bool.false_or] at h
    cases h1 : argv[1]? with
    | none =>
      simp only [h1] at h
      cases hc : env.cwd with
      | none => simp [hc, Res.bind] at h
      | some d =>
        simp only [hc, Res.bind] at h
        cases ht : timeArg env argv false with
        | abort => simp [ht] at h
        | ub w => simp [ht] at h
        | ok t =>
          simp only [ht, Option.isSome_some, Bool.true_or, if_true] at h
          cases h
          cases env.closeOk <;> simp [ha, MissingPath, PathOf, h1, hc]
    | some a =>
      simp only [h1] at h
      cases he : env.exist a with
      | none => simp [he, Res.bind] at h
      | some b =>
        cases b with
        | true =>
          simp only [he, Res.bind] at h
          cases ht : timeArg env argv false with
          | abort => simp [ht] at h
          | ub w => simp [ht] at h
          | ok t =>
            simp only [ht, Option.isSome_some, Bool.true_or, if_true] at h
            cases h
            cases env.closeOk <;> simp [ha, MissingPath, PathOf, h1, he]
        | false =>
          simp only [he, Res.bind] at h
          cases ht : timeArg env argv false with
          | abort => simp [ht] at h
          | ub w => simp [ht] at h
          | ok t =>
            cases t <;> simp [ht] at h <;> cases h <;> simp [ha, MissingPath, h1, he]


theorem unit_lit (argv : List Str) (u : Str) (k : Nat) (h2 : argv[2]? = some u) (hu : unitNs u = some k) :
    ttons argv = k := by
  unfold unitNs at hu
  cases hf : units.find? (fun x => x.1 == u || x.2.1 == u) with
  | none => simp [hf] at hu
  | some x =>
    rw [hf] at hu
    simp only [Option.map_some, Option.some.injEq] at hu
    have hm := List.mem_of_find?_eq_some hf
    have hp := List.find?_some hf
    simp only [Bool.or_eq_true, beq_iff_eq] at hp
    simp only [units, List.mem_cons, List.not_mem_nil, or_false] at hm
    rcases hm with rfl | rfl | rfl | rfl | rfl | rfl | rfl | rfl | rfl | rfl <;>
      (rcases hp with hp | hp <;> simp only at hp hu <;> subst hp <;> subst hu <;>
        simp [ttons, argis, h2])

theorem unit_none (argv : List Str) (h : ∀ u, argv[2]? = some u → unitNs u = none) :
    ttons argv = 1000000 := by
  cases h2 : argv[2]? with
  | none => simp [ttons, argis, h2]
  | some u =>
    have hu := h u h2
    unfold unitNs at hu
    simp only [Option.map_eq_none_iff, List.find?_eq_none, units, List.mem_cons, List.not_mem_nil,
      or_false, forall_eq_or_imp, forall_eq, Bool.or_eq_true, beq_iff_eq, not_or] at hu
    obtain ⟨h1, h2', h3, h4, h5, h6, h7, h8, h9, h10⟩ := hu
    have n : ∀ a : Str, ¬ a = u → argis argv 2 a = false := by
      intro a ha
      simp only [argis, h2, beq_eq_false_iff_ne, ne_eq]
      exact fun q => ha q.symm
    simp [ttons, n _ h1.1, n _ h1.2, n _ h2'.1, n _ h2'.2, n _ h3.1, n _ h3.2, n _ h4.1, n _ h4.2,
      n _ h5.1, n _ h5.2, n _ h6.1, n _ h6.2, n _ h7.1, n _ h7.2, n _ h8.1, n _ h8.2, n _ h9.1,
      n _ h9.2, n _ h10.1, n _ h10.2]

theorem roundPos_nat (n : Nat) : roundPos (n : Rat) = n := by
  unfold roundPos
  have h : ((n : Rat) + 1 / 2) = (1 / 2 : Rat) + ((n : Int) : Rat) := by
    rw [Rat.add_comm]; rfl
  rw [h, Rat.floor_add_intCast]
  have : (1 / 2 : Rat).floor = 0 := by decide +kernel
  rw [this, Int.zero_add]

/-- The path argument does not decide anything about help. -/
theorem time_lit (env : Env) (argv : List Str) (u t : Str) (k n : Nat) (hs : StrtodExact env)
    (h2 : argv[2]? = some u) (h3 : argv[3]? = some t) (hu : unitNs u = some k)
    (ht : numeral t = some n) (h0 : 0 < n) (hn : n ≤ 2 ^ 53) :
    timeArg env argv false =
      if n * k < 2 ^ 63 then .ok (some ((n * k : Nat) : Int)) else .ub "signed overflow" := by
  unfold timeArg
  simp only [h3, Bool.false_eq_true, if_false, hs t n ht hn]
  have hpos : ¬ ((n : Rat) ≤ 0) := by
    rw [Rat.not_le]
    exact_mod_cast h0
  simp only [hpos, if_false, roundPos_nat, unit_lit argv u k h2 hu]
  have hf : fitsLL (n : Int) = true := by
    simp only [fitsLL, Bool.and_eq_true, decide_eq_true_eq]
    omega
  simp only [hf, if_true, scale]
  by_cases hk : n * k < 2 ^ 63
  · have : fitsLL ((n : Int) * (k : Int)) = true := by
      rw [← Int.natCast_mul]
      simp only [fitsLL, Bool.and_eq_true, decide_eq_true_eq]
      omega
    simp [this, hk]
  · have : fitsLL ((n : Int) * (k : Int)) = false := by
      rw [← Int.natCast_mul]
      simp only [fitsLL, Bool.and_eq_false_iff, decide_eq_false_iff_not]
      omega
    simp [this, hk]


/-- The run of a program that was not asked for help, from its parts. -/
theorem main_parts (env : Env) (argv : List Str) (ha : ¬ HelpAsked argv) :
    (∀ p t, PathOf env argv p → timeArg env argv false = .ok t →
      main env argv = .ok ⟨false, false, some (p, match t with | none => .untilInput | some n => .ns n),
        exitOf env⟩) ∧
    (∀ t, MissingPath env argv → timeArg env argv false = .ok t →
      main env argv = .ok ⟨false, true, none, 1⟩) ∧
    (∀ why, (MissingPath env argv ∨ ∃ p, PathOf env argv p) → timeArg env argv false = .ub why →
      main env argv = .ub why) ∧
    (((argv[1]? = none ∧ env.cwd = none) ∨ ∃ a, argv[1]? = some a ∧ env.exist a = none) →
      main env argv = .abort) := by
  have hh : (argis argv 1 b!"-h" || argis argv 1 b!"--help") = false := by
    rw [← Bool.not_eq_true]; exact fun q => ha ((help_iff argv).1 q)
  refine ⟨?_, ?_, ?_, ?_⟩
  · rintro p t (⟨h1, h2⟩ | ⟨h1, h2⟩) ht <;>
      cases t <;> simp [main, tryParse, hh, h1, h2, ht, Res.bind, exitOf]
  · rintro t ⟨a, h1, h2⟩ ht
    cases t <;> simp [main, tryParse, hh, h1, h2, ht, Res.bind]
  · rintro why (⟨a, h1, h2⟩ | ⟨p, (⟨h1, h2⟩ | ⟨h1, h2⟩)⟩) ht <;>
      simp [main, tryParse, hh, h1, h2, ht, Res.bind]
  · rintro (⟨h1, h2⟩ | ⟨a, h1, h2⟩) <;> simp [main, tryParse, hh, h1, h2, Res.bind]

theorem time_default (env : Env) (argv : List Str) (hs : StrtodExact env) (h3 : argv[3]? = none) :
    timeArg env argv false = .ok none := by
  have hz : env.strtod b!"0" = .fin 0 := hs b!"0" 0 (by decide) (by decide)
  unfold timeArg
  simp [h3, hz]

/-- The arguments are in the usage text and ask for nothing beyond what a `long long` of nanoseconds
and a double hold. -/
def Fits : List Str → Prop
  | [_, _, t] => ∀ n, numeral t = some n → n ≤ 2 ^ 53
  | _ => True

/-- What the usage text promises of a program that was asked for `rq`. A path that names nothing is
answered with help: that is what C61 says, and C77 is about what the usage text says. -/
def Promised (env : Env) (rq : Request) (r : Res Run) : Prop :=
  match rq with
  | .help => r = .ok ⟨true, false, none, 0⟩
  | .bad => r = .ok ⟨false, true, none, 1⟩
  | .watch p ns =>
    let w := match ns with
      | none => Wait.untilInput
      | some n => Wait.ns n
    match p with
    | none => ∀ d, env.cwd = some d → r = .ok ⟨false, false, some (d, w), exitOf env⟩
    | some a =>
      (env.exist a = some true → r = .ok ⟨false, false, some (a, w), exitOf env⟩) ∧
      (env.exist a = some false → r = .ok ⟨false, true, none, 1⟩)

/-- **C61 in full**: every argument vector is answered as the usage text says. -/
def C61_full : Prop :=
  ∀ (env : Env), StrtodExact env → ∀ (prog : Str) (args : List Str),
    Promised env (request args) (main env (prog :: args))

/-- **C61, the uses the usage text lists**: they do what it says, provided the duration is below 2^63
nanoseconds (292 years) and its numeral at most 2^53. -/
theorem C61_documented_use_partial (env : Env) (hs : StrtodExact env) (prog : Str) (args : List Str)
    (hb : request args ≠ .bad) (hf : Fits args) (hl : ∀ p ns, request args = .watch p (some ns) → ns < 2 ^ 63) :
    Promised env (request args) (main env (prog :: args)) := by
  match args with
  | [] =>
    intro d hd
    exact (main_parts env [prog] (by simp [HelpAsked])).1 d none (.inl ⟨rfl, hd⟩) (time_default env _ hs rfl)
  | [a] =>
    simp only [request]
    split
    · rename_i q
      rcases q with rfl | rfl <;> rfl
    · rename_i q
      have ha : ¬ HelpAsked [prog, a] := by simpa [HelpAsked] using q
      exact ⟨fun he => (main_parts env _ ha).1 a none (.inr ⟨rfl, he⟩) (time_default env _ hs rfl),
        fun he => (main_parts env _ ha).2.1 none ⟨a, rfl, he⟩ (time_default env _ hs rfl)⟩
  | [a, u, t] =>
    simp only [request] at hb hl ⊢
    split at hb
    · exact absurd rfl hb
    · rename_i q
      have ha : ¬ HelpAsked [prog, a, u, t] := by simpa [HelpAsked] using q
      rw [if_neg q] at hl ⊢
      cases hu : unitNs u with
      | none => simp [hu] at hb
      | some k =>
        cases ht : numeral t with
        | none => simp [hu, ht] at hb
        | some n =>
          by_cases h0 : 0 < n
          · simp only [hu, ht, if_pos h0] at hl ⊢
            have tl := time_lit env [prog, a, u, t] u t k n hs rfl rfl hu ht h0 (hf n ht)
            rw [if_pos (hl _ _ rfl)] at tl
            exact ⟨fun he => (main_parts env _ ha).1 a _ (.inr ⟨rfl, he⟩) tl,
              fun he => (main_parts env _ ha).2.1 _ ⟨a, rfl, he⟩ tl⟩
          · simp [hu, ht, h0] at hb
  | [a, b] => exact absurd rfl hb
  | a :: b :: c :: d :: rest => exact absurd rfl hb

/-- **C61**: the duration limit is real. Every documented use whose duration does not fit is a signed
overflow. -/
theorem C61_overflow (env : Env) (hs : StrtodExact env) (prog a u t : Str) (p : Option Str) (ns : Nat)
    (hr : request [a, u, t] = .watch p (some ns)) (hf : Fits [a, u, t]) (he : env.exist a ≠ none)
    (hl : 2 ^ 63 ≤ ns) : main env [prog, a, u, t] = .ub "signed overflow" := by
  simp only [request] at hr
  split at hr
  · cases hr
  · rename_i q
    have ha : ¬ HelpAsked [prog, a, u, t] := by simpa [HelpAsked] using q
    cases hu : unitNs u with
    | none => simp [hu] at hr
    | some k =>
      cases ht : numeral t with
      | none => simp [hu, ht] at hr
      | some n =>
        by_cases h0 : 0 < n
        · simp only [hu, ht, if_pos h0] at hr
          cases hr
          have tl := time_lit env [prog, a, u, t] u t k n hs rfl rfl hu ht h0 (hf n ht)
          rw [if_neg (by omega)] at tl
          refine (main_parts env _ ha).2.2.1 _ ?_ tl
          cases hx : env.exist a with
          | none => exact absurd hx he
          | some b =>
            cases b with
            | true => exact .inr ⟨a, .inr ⟨rfl, hx⟩⟩
            | false => exact .inl ⟨a, rfl, hx⟩
        · simp [hu, ht, h0] at hr

/-- **C61**: the program dies of an uncaught exception exactly when it was not asked for help and the
file system does not say whether the path exists, or what the current directory is. -/
theorem C61_abort_iff (env : Env) (argv : List Str) :
    main env argv = .abort ↔ ¬ HelpAsked argv ∧
      ((argv[1]? = none ∧ env.cwd = none) ∨ ∃ a, argv[1]? = some a ∧ env.exist a = none) := by
  constructor
  · intro h
    have ha : ¬ HelpAsked argv := by
      intro ha
      have hh := (help_iff argv).2 ha
      simp [main, tryParse, hh, timeArg, Res.bind] at h
    refine ⟨ha, ?_⟩
    have nt : timeArg env argv false ≠ .abort := by
      unfold timeArg scale
      cases h3 : argv[3]? with
      | none =>
        simp only [Bool.false_eq_true, if_false]
        cases env.strtod b!"0" with
        | nan => simp only; split <;> simp
        | posInf => simp
        | negInf => simp
        | fin x =>
          simp only
          split
          · simp
          · split <;> split <;> simp
      | some t =>
        simp only [Bool.false_eq_true, if_false]
        cases env.strtod t with
        | nan => simp only; split <;> simp
        | posInf => simp
        | negInf => simp
        | fin x =>
          simp only
          split
          · simp
          · split <;> split <;> simp
    have key : (MissingPath env argv ∨ ∃ p, PathOf env argv p) → False := by
      intro hp
      cases ht : timeArg env argv false with
      | abort => exact nt ht
      | ub w => rw [(main_parts env argv ha).2.2.1 w hp ht] at h; cases h
      | ok t =>
        rcases hp with hm | ⟨p, hp⟩
        · rw [(main_parts env argv ha).2.1 t hm ht] at h; cases h
        · rw [(main_parts env argv ha).1 p t hp ht] at h; cases h
    cases h1 : argv[1]? with
    | none =>
      cases hc : env.cwd with
      | none => exact .inl ⟨rfl, rfl⟩
      | some d => exact absurd (.inr ⟨d, .inl ⟨h1, hc⟩⟩) key
    | some a =>
      cases he : env.exist a with
      | none => exact .inr ⟨a, rfl, he⟩
      | some b =>
        cases b with
        | true => exact absurd (.inr ⟨a, .inr ⟨h1, he⟩⟩) key
        | false => exact absurd (.inl ⟨a, h1, he⟩) key
  · rintro ⟨ha, h⟩
    exact (main_parts env argv ha).2.2.2 h

/-- **C61, all argument vectors**: how long is watched. A run waits for a time exactly when the third
argument is read as a positive number, and then it waits for that number, rounded to the nearest integer (halves upwards), of
the unit given second, or of milliseconds if that is none of the units. -/
theorem C61_duration (env : Env) (argv : List Str) (r : Run) (p : Str) (w : Wait)
    (h : main env argv = .ok r) (hw : r.watched = some (p, w)) (t : Str) (x : Rat) (unit : Nat)
    (ht : t = (argv[3]?).getD b!"0") (hx : env.strtod t = .fin x)
    (hr : x + 1 / 2 < 2 ^ 63)
    (hu : (∃ u, argv[2]? = some u ∧ unitNs u = some unit) ∨
          ((∀ u, argv[2]? = some u → unitNs u = none) ∧ unit = 1000000)) :
    (x ≤ 0 → w = .untilInput) ∧
    (0 < x → ∃ n : Int, w = .ns (n * unit) ∧ (n : Rat) ≤ x + 1 / 2 ∧ x + 1 / 2 < ((n + 1 : Int) : Rat)) := by
  have hfit : 0 < x → fitsLL (roundPos x) = true := by
    intro h0
    have h1 : roundPos x < 2 ^ 63 := by
      unfold roundPos
      rw [Rat.floor_lt_iff]
      exact_mod_cast hr
    have h2 : 0 ≤ roundPos x := by
      unfold roundPos
      rw [Rat.le_floor_iff]
      have : (0 : Rat) ≤ x + 1 / 2 := Rat.add_nonneg (Rat.le_of_lt h0) (by decide +kernel)
      exact_mod_cast this
    simp only [fitsLL, Bool.and_eq_true, decide_eq_true_eq]
    omega
  have hun : ttons argv = unit := by
    rcases hu with ⟨u, h1, h2⟩ | ⟨h1, rfl⟩
    · exact unit_lit argv u unit h1 h2
    · exact unit_none argv h1
  have ta : timeArg env argv false = if x ≤ 0 then .ok none else scale (roundPos x) unit := by
    have hif : (if x ≤ 0 then (.ok none : Res (Option Int))
        else scale (if fitsLL (roundPos x) then roundPos x else env.roundBad (.fin x)) unit) =
        if x ≤ 0 then .ok none else scale (roundPos x) unit := by
      by_cases h0 : x ≤ 0
      · rw [if_pos h0, if_pos h0]
      · rw [if_neg h0, if_neg h0, if_pos (hfit (Rat.not_le.1 h0))]
    unfold timeArg
    cases h3 : argv[3]? with
    | none =>
      rw [h3] at ht
      simp only [Option.getD_none] at ht
      subst ht
      simp only [hx, Bool.false_eq_true, if_false, hun]
      exact hif
    | some s =>
      rw [h3] at ht
      simp only [Option.getD_some] at ht
      subst ht
      simp only [hx, Bool.false_eq_true, if_false, hun]
      exact hif
  obtain ⟨hna, hpo⟩ := (C61_exit_and_help env argv r h).2.2.2.2.2 p w hw
  constructor
  · intro h0
    rw [if_pos h0] at ta
    have := (main_parts env argv hna).1 p none hpo ta
    rw [this] at h
    cases h
    simp only [Option.some.injEq, Prod.mk.injEq] at hw
    exact hw.2.symm
  · intro h0
    rw [if_neg (Rat.not_le.2 h0)] at ta
    unfold scale at ta
    by_cases hf : fitsLL (roundPos x * unit) = true
    · rw [if_pos hf] at ta
      have := (main_parts env argv hna).1 p _ hpo ta
      rw [this] at h
      cases h
      simp only [Option.some.injEq, Prod.mk.injEq] at hw
      exact ⟨roundPos x, hw.2.symm, Rat.floor_le _, Rat.lt_floor_add_one _⟩
    · rw [if_neg hf] at ta
      rw [(main_parts env argv hna).2.2.1 _ (.inr ⟨p, hpo⟩) ta] at h
      cases h

/-- An environment for the examples: everything but "gone" exists. -/
def demoEnv : Env where
  exist p := some (p != b!"gone")
  cwd := some b!"/home"
  strtod s := match numeral s with
    | some n => .fin n
    | none => .fin 0
  roundBad _ := 0
  closeOk := true

theorem demo_exact : StrtodExact demoEnv := by
  intro s n h _
  simp only [demoEnv, h]

/-- **C61 in full is false**, in each of these ways: an unknown unit counts as milliseconds instead of
being answered with help, a unit without a time and a time that is no number watch for ever, further
arguments are ignored, and 293 years are a signed overflow. -/
theorem C61_refuted : ¬ C61_full ∧
    request [b!"d", b!"-fortnights", b!"2"] = .bad ∧
    main demoEnv [b!"w", b!"d", b!"-fortnights", b!"2"] =
      .ok ⟨false, false, some (b!"d", .ns 2000000), 0⟩ ∧
    request [b!"d", b!"-s"] = .bad ∧
    main demoEnv [b!"w", b!"d", b!"-s"] = .ok ⟨false, false, some (b!"d", .untilInput), 0⟩ ∧
    request [b!"d", b!"-s", b!"soon"] = .bad ∧
    main demoEnv [b!"w", b!"d", b!"-s", b!"soon"] = .ok ⟨false, false, some (b!"d", .untilInput), 0⟩ ∧
    request [b!"d", b!"-s", b!"1", b!"more"] = .bad ∧
    main demoEnv [b!"w", b!"d", b!"-s", b!"1", b!"more"] =
      .ok ⟨false, false, some (b!"d", .ns 1000000000), 0⟩ ∧
    request [b!"d", b!"-y", b!"293"] = .watch (some b!"d") (some 9240048000000000000) ∧
    main demoEnv [b!"w", b!"d", b!"-y", b!"293"] = .ub "signed overflow" := by
  refine ⟨fun h => ?_, by decide +kernel, by decide +kernel, by decide +kernel, by decide +kernel,
    by decide +kernel, by decide +kernel, by decide +kernel, by decide +kernel, by decide +kernel,
    by decide +kernel⟩
  have := h demoEnv demo_exact b!"w" [b!"d", b!"-s"]
  revert this
  have e : request [b!"d", b!"-s"] = .bad := rfl
  rw [e]
  simp only [Promised]
  decide +kernel

/-- Non-vacuity: a documented use. -/
example : request [b!"d", b!"-h", b!"12"] = .watch (some b!"d") (some (12 * 3600 * 1000000000)) ∧
    Fits [b!"d", b!"-h", b!"12"] ∧ demoEnv.exist b!"d" = some true ∧
    main demoEnv [b!"w", b!"d", b!"-h", b!"12"] =
      .ok ⟨false, false, some (b!"d", .ns 43200000000000), 0⟩ := by
  refine ⟨by decide +kernel, ?_, by decide +kernel, by decide +kernel⟩
  intro n hn
  have : numeral b!"12" = some 12 := by decide +kernel
  rw [this] at hn
  cases hn
  decide

/-- Non-vacuity: help, and a path that names nothing. -/
example : main demoEnv [b!"w", b!"--help", b!"x"] = .ok ⟨true, false, none, 0⟩ ∧
    main demoEnv [b!"w", b!"gone"] = .ok ⟨false, true, none, 1⟩ := by decide +kernel

/-! ### C77 -/

/-- **C77 in full**, the usage text: "If the given path doesn't exist, the current directory is used." -/
def C77_full : Prop :=
  ∀ (env : Env), StrtodExact env → ∀ (prog a d : Str), request [a] ≠ .help → env.exist a = some false →
    env.cwd = some d → main env [prog, a] = .ok ⟨false, false, some (d, .untilInput), exitOf env⟩

/-- **C77 fails always**: no run whose first argument names nothing watches anything. -/
theorem C77_missing_path_never_watched (env : Env) (argv : List Str) (r : Run)
    (hm : MissingPath env argv) (h : main env argv = .ok r) :
    r.watched = none ∧ (¬ HelpAsked argv → r = ⟨false, true, none, 1⟩) := by
  have H := C61_exit_and_help env argv r h
  obtain ⟨e01, e0, ho, herr, hwt, -⟩ := H
  by_cases ha : HelpAsked argv
  · have := ho.2 ha
    refine ⟨?_, fun q => absurd ha q⟩
    cases hw : r.watched with
    | none => rfl
    | some x => rw [hw] at hwt; simp [this] at hwt
  · have he := herr.2 ⟨ha, hm⟩
    have hw : r.watched = none := by
      cases hw : r.watched with
      | none => rfl
      | some x => rw [hw] at hwt; simp [he] at hwt
    refine ⟨hw, fun _ => ?_⟩
    have h1 : r.helpOut = false := by
      cases q : r.helpOut with
      | false => rfl
      | true => exact absurd (ho.1 q) ha
    have h2 : r.exit = 1 := by
      rcases e01 with q | q
      · rw [hw] at e0; have := e0.1 q; simp [ha] at this
      · exact q
    cases r
    simp_all

theorem C77_refuted : ¬ C77_full := by
  intro h
  have := h demoEnv demo_exact b!"w" b!"gone" b!"/home" (by decide) (by decide) rfl
  revert this
  decide +kernel

/-- **C77, the part that holds**: without arguments, the current directory is watched until there is
input. -/
theorem C77_default_is_cwd_partial (env : Env) (hs : StrtodExact env) (prog d : Str) (hd : env.cwd = some d) :
    main env [prog] = .ok ⟨false, false, some (d, .untilInput), exitOf env⟩ :=
  C61_documented_use_partial env hs prog [] (by simp [request]) trivial (by simp [request]) d hd

/-- Non-vacuity. -/
example : MissingPath demoEnv [b!"w", b!"gone", b!"-s", b!"3"] ∧
    main demoEnv [b!"w", b!"gone", b!"-s", b!"3"] = .ok ⟨false, true, none, 1⟩ :=
  ⟨⟨b!"gone", rfl, by decide⟩, by decide +kernel⟩

/-! ### C78 -/

theorem cut_first (sep : Str) (hs : sep ≠ []) (s rest : Str)
    (h : ∀ a b, s ++ sep.dropLast = a ++ sep ++ b → False) :
    cut sep (s ++ sep ++ rest) = some (s, rest) := by
  induction s with
  | nil =>
    cases sep with
    | nil => exact absurd rfl hs
    | cons c t =>
      have hp : (c :: t).isPrefixOf (c :: (t ++ rest)) = true := by
        rw [List.isPrefixOf_iff_prefix]; exact ⟨rest, rfl⟩
      simp only [List.nil_append, List.cons_append, cut, hp, if_true]
      simp
  | cons c t ih =>
    have hp : ¬ sep.isPrefixOf (c :: (t ++ sep ++ rest)) = true := by
      rw [List.isPrefixOf_iff_prefix]
      rintro ⟨b, hb⟩
      have hlen : sep.length ≤ (c :: (t ++ sep.dropLast)).length := by
        simp only [List.length_cons, List.length_append, List.length_dropLast]
        omega
      have hpre : sep <+: c :: (t ++ sep.dropLast) := by
        have h1 : sep <+: c :: (t ++ sep ++ rest) := ⟨b, hb⟩
        have h2 : c :: (t ++ sep.dropLast) <+: c :: (t ++ sep ++ rest) := by
          refine ⟨[sep.getLast hs] ++ rest, ?_⟩
          have := List.dropLast_concat_getLast hs
          have e : sep.dropLast ++ ([sep.getLast hs] ++ rest) = sep ++ rest := by
            rw [← List.append_assoc, this]
          rw [List.cons_append, List.append_assoc, e, List.append_assoc]
        exact List.prefix_of_prefix_length_le h1 h2 hlen
      obtain ⟨b', hb'⟩ := hpre
      exact h [] b' (by simpa using hb'.symm)
    have ih' := ih (fun a b hab => h (c :: a) b (by simp [hab]))
    simp only [List.cons_append, cut]
    rw [if_neg hp, ih']
    rfl

theorem cut_none (sep s : Str) (h : ∀ a b, s = a ++ sep ++ b → False) : cut sep s = none := by
  induction s with
  | nil => rfl
  | cons c t ih =>
    have hp : ¬ sep.isPrefixOf (c :: t) = true := by
      rw [List.isPrefixOf_iff_prefix]
      rintro ⟨b, hb⟩
      exact h [] b (by simpa using hb.symm)
    simp only [cut, if_neg hp]
    rw [ih (fun a b hab => h (c :: a) b (by simp [hab]))]
    rfl

/-- Cutting at a single byte. -/
theorem cut_byte (x : UInt8) (s rest : Str) (h : x ∉ s) : cut [x] (s ++ x :: rest) = some (s, rest) := by
  have := cut_first [x] (by simp) s rest (by
    intro a b hab
    simp only [List.dropLast_singleton, List.append_nil] at hab
    exact h (by rw [hab]; simp))
  simpa using this

/-- Texts without an arrow, also not one completed by a following space. -/
def NoArrow (p : Str) : Prop := ¬ b!" -> " <:+: p ++ b!" ->"

/-- One name per line, and the names of the two paths of a line can be told apart. -/
def TinyPlain (e : Event) : Prop :=
  NoArrow e.path ∧ (10 : UInt8) ∉ e.path ∧ ∀ a, e.assoc = some a → (10 : UInt8) ∉ a.path

theorem word_effect (e : EffectType) : (32 : UInt8) ∉ e.str ∧ (10 : UInt8) ∉ e.str := by
  cases e <;> decide
theorem word_ptype (e : PathType) : (32 : UInt8) ∉ e.str ∧ (10 : UInt8) ∉ e.str := by
  cases e <;> decide

theorem read_tiny (e : Event) (h : TinyPlain e) (more : Str) :
    readLine (tinyShow e ++ more) =
      some ((e.effect.str, e.ptype.str, e.path, e.assoc.map Event.path), more) := by
  obtain ⟨ha, hn, hn2⟩ := h
  have we := word_effect e.effect
  have wp := word_ptype e.ptype
  cases hassoc : e.assoc with
  | none =>
    have e0 : tinyShow e ++ more =
        (e.effect.str ++ 32 :: (e.ptype.str ++ 32 :: e.path)) ++ 10 :: more := by
      simp [tinyShow, hassoc]
    have c0 := cut_byte 10 (e.effect.str ++ 32 :: (e.ptype.str ++ 32 :: e.path)) more (by
      simp [we.2, wp.2, hn])
    have c3 : cut b!" -> " e.path = none := cut_none _ _ (by
      rintro a b hab
      exact ha ⟨a, b ++ b!" ->", by rw [hab]; simp⟩)
    rw [e0]
    unfold readLine
    simp only [c0, Option.bind_eq_bind, Option.bind_some, cut_byte 32 _ _ we.1, cut_byte 32 _ _ wp.1, c3,
      Option.map_none]
  | some x =>
    have hx := hn2 x hassoc
    have e0 : tinyShow e ++ more =
        (e.effect.str ++ 32 :: (e.ptype.str ++ 32 :: (e.path ++ b!" -> " ++ x.path))) ++ 10 :: more := by
      simp [tinyShow, hassoc]
    have c0 := cut_byte 10 (e.effect.str ++ 32 :: (e.ptype.str ++ 32 :: (e.path ++ b!" -> " ++ x.path))) more (by
      simp [we.2, wp.2, hn, hx])
    have c3 : cut b!" -> " (e.path ++ b!" -> " ++ x.path) = some (e.path, x.path) :=
      cut_first _ (by simp) _ _ (by
        rintro a b hab
        exact ha ⟨a, b, hab.symm⟩)
    rw [e0]
    unfold readLine
    simp only [c0, Option.bind_eq_bind, Option.bind_some, cut_byte 32 _ _ we.1, cut_byte 32 _ _ wp.1, c3,
      Option.map_some]

/-- **C78 in full**: the lines of the example program tell what happened, for every sequence of events. -/
def C78_full : Prop :=
  ∀ es : List Event, ∃ fuel,
    readLines fuel (es.map tinyShow).flatten =
      some (es.map fun e => (e.effect.str, e.ptype.str, e.path, e.assoc.map Event.path))

/-- **C78, partial**: it holds of every sequence of events whose names have no newline and no arrow. -/
theorem C78_lines_decode_partial (es : List Event) (h : ∀ e ∈ es, TinyPlain e) (fuel : Nat)
    (hf : es.length ≤ fuel) :
    readLines fuel (es.map tinyShow).flatten =
      some (es.map fun e => (e.effect.str, e.ptype.str, e.path, e.assoc.map Event.path)) := by
  induction es generalizing fuel with
  | nil => cases fuel <;> rfl
  | cons e rest ih =>
    cases fuel with
    | zero => simp at hf
    | succ fuel =>
      have h1 := read_tiny e (h e (by simp)) (rest.map tinyShow).flatten
      have h2 := ih (fun x hx => h x (by simp [hx])) fuel (by simpa using hf)
      have hne : tinyShow e ++ (rest.map tinyShow).flatten ≠ [] := by
        simp [tinyShow]
      simp only [List.map_cons, List.flatten_cons]
      cases hq : tinyShow e ++ (rest.map tinyShow).flatten with
      | nil => exact absurd hq hne
      | cons c t =>
        rw [readLines]
        · rw [← hq, h1]
          simp only [Option.bind_eq_bind, Option.bind_some, h2]
        · simp

/-- **C78 in full is false**: a rename of "a" to "b" and the creation of something named "a -> b" differ
in the effect only; renaming in both cases gives the same line for different events. -/
theorem C78_refuted : ¬ C78_full ∧
    tinyShow (.mk b!"a" .rename .file 1 (some (.mk b!"b" .rename .file 1 none))) =
      tinyShow (.mk b!"a -> b" .rename .file 1 none) := by
  refine ⟨fun h => ?_, by decide⟩
  obtain ⟨fuel, hf⟩ := h [.mk b!"a -> b" .rename .file 1 none]
  have e : ∀ n, readLines (n + 1) (tinyShow (.mk b!"a -> b" .rename .file 1 none)) =
      some [(b!"rename", b!"file", b!"a", some b!"b")] := by
    intro n; cases n <;> rfl
  cases fuel with
  | zero => simp [readLines, tinyShow] at hf
  | succ n =>
    simp only [List.map_cons, List.map_nil, List.flatten_cons, List.flatten_nil, List.append_nil, e] at hf
    simp [Event.path] at hf

/-- **C78**: the example program exits 0 exactly when closing worked. -/
theorem C78_exit (closeOk : Bool) : (tinyMain closeOk).exit = 0 ↔ closeOk = true := by
  cases closeOk <;> decide

/-- Non-vacuity: a rename and a creation. -/
example : TinyPlain (.mk b!"/a b" .rename .file 1 (some (.mk b!"/c -> d" .rename .file 1 none))) ∧
    tinyShow (.mk b!"/a b" .rename .file 1 (some (.mk b!"/c -> d" .rename .file 1 none))) =
      b!"rename file /a b -> /c -> d\n" := by
  refine ⟨⟨by unfold NoArrow; decide, by decide, ?_⟩, by decide⟩
  intro a h
  cases h
  decide

end Verif.Props
