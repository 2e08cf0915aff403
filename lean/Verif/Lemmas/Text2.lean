import Verif.Lemmas.Text
/-! When a text is read back as the name it was made from. -/
namespace Verif.Lemmas
open Verif Verif.Model Verif.Spec

/-- What reading a name gives that was written without escaping. -/
def Back (p s r rest : Str) : Prop :=
  (PlainText p ∧ s = p ∧ r = rest) ∨ s.length < p.length ∨ (s.getLast? = some 44 ∧ p.getLast? = some 92)

theorem utf8Enc_len (n : Nat) : (Json.utf8Enc n).length ≤ 4 := by
  unfold Json.utf8Enc; repeat' split
  all_goals simp

theorem hex4_quote1 (b c d : UInt8) : Json.hex4 34 b c d = none := by simp [Json.hex4, Json.hexVal]
theorem hex4_quote2 (a c d : UInt8) : Json.hex4 a 34 c d = none := by
  have : Json.hexVal 34 = none := by decide
  unfold Json.hex4; rw [this]; cases Json.hexVal a <;> rfl
theorem hex4_quote3 (a b d : UInt8) : Json.hex4 a b 34 d = none := by
  have : Json.hexVal 34 = none := by decide
  unfold Json.hex4; rw [this]; cases Json.hexVal a <;> cases Json.hexVal b <;> rfl
theorem hex4_quote4 (a b c : UInt8) : Json.hex4 a b c 34 = none := by
  have : Json.hexVal 34 = none := by decide
  unfold Json.hex4; rw [this]; cases Json.hexVal a <;> cases Json.hexVal b <;> cases Json.hexVal c <;> rfl

theorem strBody_u_bad (a b c d : UInt8) (rest : Str) (h : Json.hex4 a b c d = none) : Json.strBody (92 :: 117 :: a :: b :: c :: d :: rest) = none := by
  simp only [Json.strBody, h]

theorem getLast_app {x s : Str} {c : UInt8} (h : s.getLast? = some c) : (x ++ s).getLast? = some c := by
  rw [List.getLast?_append, h]; rfl

theorem back_esc {p s r rest x e : Str} (h : Back p s r rest) (hx : x.length < e.length) : Back (e ++ p) (x ++ s) r rest := by
  rcases h with ⟨_, rfl, _⟩ | h | ⟨h1, h2⟩
  · right; left; simp; exact hx
  · right; left; simp only [List.length_append]; omega
  · right; right; exact ⟨getLast_app h1, getLast_app h2⟩

theorem strBody_back : ∀ (k : Nat) (p rest s r : Str), p.length ≤ k → Json.strBody (p ++ 34 :: 44 :: 34 :: rest) = some (s, r) → Back p s r (44 :: 34 :: rest) := by
  intro k
  induction k with
  | zero =>
    intro p rest s r hk h
    have : p = [] := List.eq_nil_of_length_eq_zero (by omega)
    subst this
    simp [Json.strBody] at h
    left; exact ⟨(fun c hc => by cases hc), h.1, h.2.symm⟩
  | succ k ih =>
    intro p rest s r hk h
    match p, hk with
    | [], _ =>
      simp [Json.strBody] at h
      left; exact ⟨(fun c hc => by cases hc), h.1, h.2.symm⟩
    | c :: p, hk =>
      simp only [List.length_cons] at hk
      by_cases h34 : c = 34
      · subst h34
        simp [Json.strBody] at h
        right; left; rw [h.1]; simp
      by_cases h92 : c = 92
      · subst h92
        match p, hk with
        | [], _ =>
          simp [Json.strBody] at h
          right; right; rw [← h.1]; simp
        | x :: p, hk =>
          simp only [List.length_cons] at hk
          -- two-character escapes
          have two : ∀ y : UInt8, (∃ s', Json.strBody (p ++ 34 :: 44 :: 34 :: rest) = some (s', r) ∧ s = y :: s') → Back (92 :: x :: p) s r (44 :: 34 :: rest) := by
            rintro y ⟨s', h1, rfl⟩
            exact back_esc (e := [92, x]) (x := [y]) (ih p rest s' r (by omega) h1) (by simp)
          have mp : ∀ (y : UInt8), ((Json.strBody (p ++ 34 :: 44 :: 34 :: rest)).map fun (s, r) => (y :: s, r)) = some (s, r) →
              Back (92 :: x :: p) s r (44 :: 34 :: rest) := by
            intro y hy
            cases hb : Json.strBody (p ++ 34 :: 44 :: 34 :: rest) with
            | none => rw [hb] at hy; cases hy
            | some q =>
              rw [hb] at hy
              simp at hy
              exact two y ⟨q.1, by rw [hb, ← hy.2], hy.1.symm⟩
          by_cases x34 : x = 34
          · subst x34; simp only [List.cons_append, Json.strBody] at h; exact mp _ h
          by_cases x92 : x = 92
          · subst x92; simp only [List.cons_append, Json.strBody] at h; exact mp _ h
          by_cases x47 : x = 47
          · subst x47; simp only [List.cons_append, Json.strBody] at h; exact mp _ h
          by_cases x98 : x = 98
          · subst x98; simp only [List.cons_append, Json.strBody] at h; exact mp _ h
          by_cases x102 : x = 102
          · subst x102; simp only [List.cons_append, Json.strBody] at h; exact mp _ h
          by_cases x110 : x = 110
          · subst x110; simp only [List.cons_append, Json.strBody] at h; exact mp _ h
          by_cases x114 : x = 114
          · subst x114; simp only [List.cons_append, Json.strBody] at h; exact mp _ h
          by_cases x116 : x = 116
          · subst x116; simp only [List.cons_append, Json.strBody] at h; exact mp _ h
          by_cases x117 : x = 117
          · subst x117
            have sub : ∀ (y e p' : Str), p'.length ≤ k → y.length < e.length →
                ((Json.strBody (p' ++ 34 :: 44 :: 34 :: rest)).map fun (s, r) => (y ++ s, r)) = some (s, r) → Back (e ++ p') s r (44 :: 34 :: rest) := by
              intro y e p' hp' hye hy
              cases hb : Json.strBody (p' ++ 34 :: 44 :: 34 :: rest) with
              | none => rw [hb] at hy; cases hy
              | some q =>
                rw [hb] at hy
                simp at hy
                rw [← hy.1, ← hy.2]
                exact back_esc (ih p' rest q.1 q.2 hp' hb) hye
            clear two mp
            match p, hk, h with
            | [], _, h =>
              cases rest with
              | nil => simp [Json.strBody] at h
              | cons d rest => simp only [List.cons_append, List.nil_append] at h; rw [strBody_u_bad _ _ _ _ _ (hex4_quote1 ..)] at h; cases h
            | [a], _, h => simp only [List.cons_append, List.nil_append] at h; rw [strBody_u_bad _ _ _ _ _ (hex4_quote2 ..)] at h; cases h
            | [a, b], _, h => simp only [List.cons_append, List.nil_append] at h; rw [strBody_u_bad _ _ _ _ _ (hex4_quote3 ..)] at h; cases h
            | [a, b, c], _, h => simp only [List.cons_append, List.nil_append] at h; rw [strBody_u_bad _ _ _ _ _ (hex4_quote4 ..)] at h; cases h
            | a :: b :: c :: d :: p, hk, h =>
              simp only [List.length_cons] at hk
              simp only [List.cons_append, Json.strBody] at h
              split at h
              · cases h
              · rename_i n hn
                split at h
                · split at h
                  · rename_i e f g i rest' heq
                    split at h
                    · cases h
                    · rename_i m hm
                      split at h
                      · -- the second half stands in the name, too
                        match p, hk, heq with
                        | [], _, heq => simp at heq
                        | [_], _, heq => simp at heq
                        | [_, _], _, heq => simp at heq; rw [← heq.2.2.1, hex4_quote1] at hm; cases hm
                        | [_, _, _], _, heq => simp at heq; rw [← heq.2.2.2.1, hex4_quote2] at hm; cases hm
                        | [_, _, _, _], _, heq => simp at heq; rw [← heq.2.2.2.2.1, hex4_quote3] at hm; cases hm
                        | [_, _, _, _, _], _, heq => simp at heq; rw [← heq.2.2.2.2.2.1, hex4_quote4] at hm; cases hm
                        | x1 :: x2 :: x3 :: x4 :: x5 :: x6 :: p', hk, heq =>
                          simp only [List.cons_append, List.cons.injEq] at heq
                          rw [← heq.2.2.2.2.2.2] at h
                          simp only [List.length_cons] at hk
                          exact sub _ [92, 117, a, b, c, d, x1, x2, x3, x4, x5, x6] p' (by omega) (by have := utf8Enc_len (0x10000 + (n - 0xD800) * 1024 + (m - 0xDC00)); simp; omega) h
                      · cases h
                  · cases h
                · split at h
                  · cases h
                  · exact sub _ [92, 117, a, b, c, d] p (by omega) (by have := utf8Enc_len n; simp; omega) h
          · rw [List.cons_append, List.cons_append, Json.strBody.eq_def] at h
            simp_all
      · by_cases h32 : c < 32
        · rw [List.cons_append, Json.strBody.eq_def] at h
          simp_all
        · have hstep : Json.strBody (c :: (p ++ 34 :: 44 :: 34 :: rest)) = (Json.strBody (p ++ 34 :: 44 :: 34 :: rest)).map fun (s, r) => (c :: s, r) := by
            rw [Json.strBody.eq_def]; split <;> simp_all
            intro hlt
            exact absurd hlt (by simpa using h32)
          rw [List.cons_append, hstep] at h
          cases hb : Json.strBody (p ++ 34 :: 44 :: 34 :: rest) with
          | none => rw [hb] at h; cases h
          | some q =>
            rw [hb] at h
            simp at h
            rw [← h.1, ← h.2]
            rcases ih p rest q.1 q.2 (by omega) hb with ⟨h1, h2, h3⟩ | h1 | ⟨h1, h2⟩
            · left
              refine ⟨?_, by rw [h2], h3⟩
              intro d hd
              rcases List.mem_cons.1 hd with rfl | hd
              · exact ⟨by simpa using h32, h34, h92⟩
              · exact h1 d hd
            · right; left; simp; exact h1
            · right; right; exact ⟨getLast_app (x := [c]) h1, getLast_app (x := [c]) h2⟩

/-- A name that is read back as itself had nothing to escape. -/
theorem strBody_self {p rest r : Str} (h : Json.strBody (p ++ 34 :: 44 :: 34 :: rest) = some (p, r)) : PlainText p ∧ r = 44 :: 34 :: rest := by
  rcases strBody_back p.length p rest p r (Nat.le_refl _) h with ⟨h1, _, h3⟩ | h1 | ⟨h1, h2⟩
  · exact ⟨h1, h3⟩
  · omega
  · rw [h1] at h2; simp at h2

/-! ### Reading backwards -/

theorem value_str_inv {m : Nat} {x s r : Str} (h : Json.value m (34 :: x) = some (.str s, r)) : Json.strBody x = some (s, r) := by
  cases m with
  | zero => simp [Json.value] at h
  | succ m =>
    simp only [Json.value] at h
    cases hb : Json.strBody x with
    | none => rw [hb] at h; cases h
    | some q => rw [hb] at h; simp at h; rw [← h.1, ← h.2]

theorem value_name_inv {m : Nat} {p rest r : Str} (h : Json.value m (34 :: (p ++ 34 :: 44 :: 34 :: rest)) = some (.str p, r)) :
    PlainText p ∧ r = 44 :: 34 :: rest := strBody_self (value_str_inv h)

theorem value_plain_inv {m : Nat} {s rest r : Str} {v : Json} (hp : PlainText s) (h : Json.value m (34 :: (s ++ 34 :: rest)) = some (v, r)) : r = rest := by
  cases m with
  | zero => simp [Json.value] at h
  | succ m => simp only [Json.value, strBody_plain s rest hp] at h; simp at h; exact h.2.symm

theorem value_obj_inv {m : Nat} {x r : Str} {kv : List (Str × Json)} (h : Json.value m (123 :: 34 :: x) = some (.obj kv, r)) :
    ∃ m', Json.members m' (34 :: x) = some (kv, r) := by
  cases m with
  | zero => simp [Json.value] at h
  | succ m =>
    have h : ((Json.members m (34 :: x)).map fun (ms, r) => (Json.obj ms, r)) = some (.obj kv, r) := by
      rw [← h, Json.value.eq_def]; rfl
    cases hb : Json.members m (34 :: x) with
    | none => rw [hb] at h; cases h
    | some q => rw [hb] at h; simp at h; exact ⟨m, by rw [hb, ← h.1, ← h.2]⟩

/-- The first member of several. -/
theorem members_inv {m : Nat} {k text r : Str} {k' : Str} {v : Json} {kv : List (Str × Json)} (hk : PlainText k)
    (h : Json.members m (34 :: (k ++ 34 :: 58 :: text)) = some ((k', v) :: kv, r)) :
    k' = k ∧ ∃ m', (kv = [] ∧ Json.value m' text = some (v, 125 :: r)) ∨ (∃ r', Json.value m' text = some (v, 44 :: r') ∧ Json.members m' r' = some (kv, r)) := by
  cases m with
  | zero => simp [Json.members] at h
  | succ m =>
    simp only [Json.members, strBody_plain k (58 :: text) hk] at h
    split at h
    · rename_i v1 r1 hv
      simp at h
      obtain ⟨⟨⟨rfl, rfl⟩, rfl⟩, rfl⟩ := h
      exact ⟨rfl, m, .inl ⟨rfl, hv⟩⟩
    · rename_i v1 r1 hv
      cases hb : Json.members m r1 with
      | none => rw [hb] at h; cases h
      | some q =>
        rw [hb] at h; simp at h
        obtain ⟨⟨⟨rfl, rfl⟩, h2⟩, h3⟩ := h
        exact ⟨rfl, m, .inr ⟨r1, hv, by rw [hb, ← h2, ← h3]⟩⟩
    · cases h

/-- A member followed by others. -/
theorem members_more_inv {m : Nat} {k text r : Str} {k' : Str} {v : Json} {kv : List (Str × Json)} (hk : PlainText k) (hne : kv ≠ [])
    (h : Json.members m (34 :: (k ++ 34 :: 58 :: text)) = some ((k', v) :: kv, r)) :
    ∃ m' r', Json.value m' text = some (v, 44 :: r') ∧ Json.members m' r' = some (kv, r) := by
  obtain ⟨_, m', h | ⟨r', h⟩⟩ := members_inv hk h
  · exact absurd h.1 hne
  · exact ⟨m', r', h⟩

theorem members_ne {m : Nat} {x r : Str} : Json.members m x ≠ some ([], r) := by
  intro h
  rw [Json.members.eq_def] at h
  split at h
  · split at h
    · split at h
      · simp at h
      · rename_i r1 _
        cases hb : Json.members _ r1 with
        | none => rw [hb] at h; cases h
        | some q => rw [hb] at h; simp at h
      · cases h
    · cases h
  · cases h

/-- The last member. -/
theorem members_last_inv {m : Nat} {k text r : Str} {k' : Str} {v : Json} (hk : PlainText k)
    (h : Json.members m (34 :: (k ++ 34 :: 58 :: text)) = some ([(k', v)], r)) : k' = k ∧ ∃ m', Json.value m' text = some (v, 125 :: r) := by
  obtain ⟨hk', m', h | ⟨r', _, h⟩⟩ := members_inv hk h
  · exact ⟨hk', m', h.2⟩
  · exact absurd h members_ne

theorem strBody_nul : ∀ (s x : Str), PlainText s → Json.strBody (s ++ 0 :: x) = none := by
  intro s
  induction s with
  | nil => intro x _; rw [List.nil_append, Json.strBody.eq_def]; rfl
  | cons c s ih =>
    intro x h
    have hc := h c (List.mem_cons_self ..)
    have : Json.strBody (c :: (s ++ 0 :: x)) = (Json.strBody (s ++ 0 :: x)).map fun (s, r) => (c :: s, r) := by
      rw [Json.strBody.eq_def]; split <;> simp_all
      intro hlt
      exact absurd hlt (by simpa using hc)
    rw [List.cons_append, this, ih x (fun d hd => h d (List.mem_cons_of_mem _ hd))]; rfl

end Verif.Lemmas
