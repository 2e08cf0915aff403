import Verif.Props.Program
import Verif.Props.TextExact
/-!
# What a reader makes of the whole output of the command line program (C118)
-/

namespace Verif.Props
open Verif Verif.Model Verif.Model.Life Verif.Model.Prog Verif.Spec Verif.Spec.Prog Verif.Spec.Hd Verif.Lemmas Verif.Lemmas.Life Verif.Lemmas.Prog

private theorem linesFrom_line (l cur rest : Str) (h : (10 : UInt8) ∉ l) : linesFrom cur (l ++ 10 :: rest) = (cur ++ l) :: linesFrom [] rest := by
  induction l generalizing cur with
  | nil => simp [linesFrom]
  | cons c l ih =>
    simp only [List.mem_cons, not_or] at h
    simp only [List.cons_append, linesFrom, if_neg (Ne.symm h.1)]
    rw [ih _ h.2]; simp

private theorem plain_no_nl {s : Str} (h : PlainText s) : (10 : UInt8) ∉ s := fun hm => absurd (h _ hm).1 (by decide)

private theorem num_no_nl {t : Int} (h : NineteenChars t) : (10 : UInt8) ∉ numToStr t := by
  obtain ⟨h64, _, he⟩ := numToStr_nineteen h
  rw [he]
  exact plain_no_nl (decimal_plain (toChars_decimal t h64))

private theorem json_no_nl (x : Event) (h : AllEvents PlainText NineteenChars x) : (10 : UInt8) ∉ cliJson x := by
  induction x using cliJson.induct with
  | _ p e t tm assoc ih =>
    have hn : ∀ {tm}, NineteenChars tm → (10 : UInt8) ∉ numToStr tm := num_no_nl
    have he : (10 : UInt8) ∉ e.str := by cases e <;> decide
    have ht : (10 : UInt8) ∉ t.str := by cases t <;> decide
    cases assoc with
    | none =>
      have h1 := plain_no_nl h.1
      have h2 := num_no_nl h.2
      rw [cliJson]
      simp only [List.mem_append, not_or]
      simp [he, ht, h1, h2]
    | some a =>
      have h1 := plain_no_nl h.1
      have h2 := num_no_nl h.2.1
      have h3 := ih h.2.2
      rw [cliJson]
      simp only [List.mem_append, not_or]
      simp [he, ht, h1, h2, h3]

private theorem lines_timed {fmt : Event → Str} {es : List Ev} {ls : List Str} (h : Lines fmt es ls) : ∃ xs, AllTimed es xs ∧ ls = xs.map fmt := by
  induction h with
  | nil => exact ⟨[], .nil, rfl⟩
  | cons h _ ih => obtain ⟨xs, h1, h2⟩ := ih; exact ⟨_ :: xs, .cons h h1, by rw [h2]; rfl⟩

private theorem read_back (xs : List Event) (hp : ∀ x ∈ xs, AllEvents PlainText NineteenChars x) :
    (linesOf (xs.map jsonLine).flatten).map Json.parse = xs.map (fun x => some (cliDoc x)) := by
  induction xs with
  | nil => rfl
  | cons x xs ih =>
    have hx := hp x (by simp)
    simp only [List.map_cons, List.flatten_cons]
    rw [show jsonLine x ++ (List.map jsonLine xs).flatten = cliJson x ++ 10 :: (List.map jsonLine xs).flatten by simp [jsonLine]]
    rw [linesOf, linesFrom_line _ _ _ (json_no_nl x hx)]
    simp only [List.map_cons, List.nil_append, C04_line_decodes_partial x hx]
    rw [show linesFrom [] = linesOf from rfl, ih (fun y hy => hp y (by simp [hy]))]

/-- C118: whoever reads the whole output of the JSON program line by line gets exactly the documents of the events with their
times, in order: one line per event - if the names have no quotation mark, backslash or control character and the times nineteen characters
(for other events see C122). -/
theorem C118_json (cfg : Cfg) (p : P) (h : Runs jsonLine cfg p) :
    ∃ es xs, AllTimed es xs ∧ (es = [] ∨ Begun cfg.path es ∨ ∃ a d, Ended cfg.path a d es) ∧
      ((∀ x ∈ xs, AllEvents PlainText NineteenChars x) → (linesOf p.out.flatten).map Json.parse = xs.map (fun x => some (cliDoc x))) := by
  obtain ⟨es, h1, h2⟩ := C118_lines jsonLine cfg p h
  obtain ⟨xs, h3, h4⟩ := lines_timed h1
  exact ⟨es, xs, h3, h2, fun hp => by rw [h4]; exact read_back xs hp⟩

private def cfgJ : Cfg := { path := b!"/d", dirOk := true, fdOk := true }
private def shortJ : List PAct := [Life.Act.w, .w, .w, .cbReturn, .wOpen [] .pending, .w, .w,
  .wWake [.ke [⟨b!"/d/a b", .create, .file, none⟩] .pending], .w, .w, .cbReturn].map fun a => .life a 1704067200000000000 0

/-- Met: two lines, both read back. -/
example : ∃ p, Runs jsonLine cfgJ p ∧ (linesOf p.out.flatten).map Json.parse =
    [.mk b!"s/self/live@/d" .create .watcher 1704067200000000000 none, .mk b!"/d/a b" .create .file 1704067200000000000 none].map
      (fun x => some (cliDoc x)) := by
  cases hp : prun jsonLine cfgJ (start cfgJ) shortJ with
  | none => exact absurd hp (by decide +kernel)
  | some p =>
    refine ⟨p, ⟨_, hp⟩, ?_⟩
    have : (prun jsonLine cfgJ (start cfgJ) shortJ).map P.out =
        some [jsonLine (.mk b!"s/self/live@/d" .create .watcher 1704067200000000000 none), jsonLine (.mk b!"/d/a b" .create .file 1704067200000000000 none)] := by
      decide +kernel
    rw [hp] at this
    simp only [Option.map_some, Option.some.injEq] at this
    rw [this]
    exact read_back [.mk b!"s/self/live@/d" .create .watcher 1704067200000000000 none, .mk b!"/d/a b" .create .file 1704067200000000000 none]
      (fun x hx => by
        simp only [List.mem_cons, List.not_mem_nil, or_false] at hx
        rcases hx with rfl | rfl <;> exact ⟨by decide, .inl (by decide)⟩)

end Verif.Props
