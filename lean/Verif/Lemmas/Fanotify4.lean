import Verif.Lemmas.Fanotify3
/-! From the exact report of a fanotify batch to what is due for it. -/
namespace Verif.Lemmas.Fa
open Verif Verif.Model Verif.Model.Fa Verif.Spec

variable {r r2 : FRec} {rs rest : List FRec} {σ : Type}

theorem still_resolve (S : Fa.Sys σ) (dirOf) (h : Fa.Still S dirOf rs) (hr : r ∈ rs) (w : σ) :
    ∃ w', Fa.resolve S r w = (some (Fa.place dirOf r), w') := by
  obtain ⟨h1, h2⟩ := h r hr w
  unfold Fa.resolve
  cases hx : S.openByHandle w r.handle with
  | mk a w1 =>
    obtain ⟨fd, e⟩ := a
    rw [hx] at h1 h2
    simp only at h1 h2 ⊢
    rw [if_neg (by omega)]
    cases hy : S.readlink w1 fd with
    | mk b w2 =>
      rw [hy] at h2
      simp only at h2
      subst h2
      exact ⟨w2, rfl⟩

theorem still_resolve2 (S : Fa.Sys σ) (dirOf) (h : Fa.Still S dirOf rs) (hr : r ∈ rs) (hr2 : r2 ∈ rs) (w : σ) :
    ∃ w', Fa.resolve2 S r r2 w = (some (Fa.place dirOf r, Fa.place dirOf r2), w') := by
  unfold Fa.resolve2
  split
  · obtain ⟨w1, h1⟩ := still_resolve S dirOf h hr2 w
    obtain ⟨w2, h2⟩ := still_resolve S dirOf h hr w1
    rw [h1]; simp only; rw [h2]
    exact ⟨w2, rfl⟩
  · obtain ⟨w1, h1⟩ := still_resolve S dirOf h hr w
    obtain ⟨w2, h2⟩ := still_resolve S dirOf h hr2 w1
    rw [h1]; simp only; rw [h2]
    exact ⟨w2, rfl⟩

theorem stale_resolve (S : Fa.Sys σ) (h : Fa.Stale S r) (w : σ) : ∃ w', Fa.resolve S r w = (none, w') := by
  unfold Fa.resolve
  have := h w
  cases hx : S.openByHandle w r.handle with
  | mk a w1 =>
    obtain ⟨fd, e⟩ := a
    rw [hx] at this
    simp only at this ⊢
    rw [if_pos this]
    exact ⟨w1, rfl⟩

theorem mark_file (S : Fa.Sys σ) (p : Str) (w : σ) : fileEvents ((Fa.markSpec S p w).1.map Prod.fst) = [] := by
  unfold Fa.markSpec
  simp only
  repeat' split
  all_goals simp [fileEvents]

theorem markIf_file (S : Fa.Sys σ) (b : Bool) (p : Str) (w : σ) :
    fileEvents ((if b = true then Fa.markSpec S p w else ([], w)).1.map Prod.fst) = [] := by
  cases b
  · simp [fileEvents]
  · simp [mark_file]

theorem file_append (a b : List Ev) : fileEvents (a ++ b) = fileEvents a ++ fileEvents b := by
  simp [fileEvents]

theorem file_cons_rec (p : Str) (et : EffectType) (r : FRec) (a : Option Half) (l : List Ev) :
    fileEvents (⟨p, et, r.ptype, a⟩ :: l) = ⟨p, et, r.ptype, a⟩ :: fileEvents l := by
  have : ((⟨p, et, r.ptype, a⟩ : Ev).ptype != .watcher) = true := by
    simp only [FRec.ptype]; split <;> decide
  simp [fileEvents, this]

theorem due_single (path : FRec → Str) (ha : FAlone r rest) :
    Fa.due path (r :: rest) = ⟨path r, r.effect, r.ptype, none⟩ :: Fa.due path rest := by
  cases rest with
  | nil => rw [Fa.due]; rfl
  | cons r2 rest2 =>
    rw [Fa.due]
    simp only [ha r2 rest2 rfl, Bool.false_eq_true, if_false]

theorem due_pair (path : FRec → Str) (ha : r.fromTo r2 = true) :
    Fa.due path (r :: r2 :: rest) =
      ⟨path r, .rename, r.ptype, some ⟨path r2, .rename, r.ptype⟩⟩ :: Fa.due path rest := by
  rw [Fa.due]
  simp only [ha, if_true]

/-- Files events of a batch that is followed by something that cannot be the second half of a pair. -/
theorem run_due_then (S : Fa.Sys σ) (dirOf) : ∀ (n : Nat) (rs post : List FRec), rs.length ≤ n → Fa.Still S dirOf rs →
    (∀ r ∈ rs, r.overflow = false) → (∀ x l, post = x :: l → x.movedTo = false) → ∀ w : σ,
    ∃ w', fileEvents ((Fa.run S (rs ++ post) w).1.map Prod.fst) =
        Fa.due (Fa.place dirOf) rs ++ fileEvents ((Fa.run S post w').1.map Prod.fst) ∧
      (Fa.run S (rs ++ post) w).2 = (Fa.run S post w').2 := by
  intro n
  induction n with
  | zero =>
    intro rs post hn _ _ _ w
    rw [List.length_eq_zero_iff.1 (by omega : rs.length = 0)]
    exact ⟨w, by simp [Fa.due]⟩
  | succ n ih =>
    intro rs post hn hs ho hp w
    cases rs with
    | nil => exact ⟨w, by simp [Fa.due]⟩
    | cons r rest =>
      simp only [List.length_cons] at hn
      have hr := ho r (by simp)
      rcases falone_or r rest with ha | ⟨r2, rest2, rfl, ha⟩
      · have ha' : FAlone r (rest ++ post) := by
          intro a l h
          cases rest with
          | nil =>
            simp only [List.nil_append] at h
            simp [FRec.fromTo, hp a l h]
          | cons b m =>
            simp only [List.cons_append, List.cons.injEq] at h
            rw [← h.1]; exact ha b m rfl
        obtain ⟨w1, h1⟩ := still_resolve S dirOf hs (r := r) (by simp) w
        rw [List.cons_append, run_single S w hr ha', h1, due_single _ ha]
        simp only
        obtain ⟨w2, h2, h3⟩ := ih rest post (by omega) (fun x hx => hs x (by simp [hx])) (fun x hx => ho x (by simp [hx])) hp
          (if (r.created && r.onDir) = true then Fa.markSpec S (Fa.place dirOf r) w1 else ([], w1)).2
        refine ⟨w2, ?_, h3⟩
        rw [List.map_append, file_append, markIf_file, List.nil_append, List.map_cons, file_cons_rec, h2]
        rfl
      · obtain ⟨w1, h1⟩ := still_resolve2 S dirOf hs (r := r) (r2 := r2) (by simp) (by simp) w
        rw [List.cons_append, List.cons_append, run_pair S w hr ha, h1, due_pair _ ha]
        simp only [List.length_cons] at hn
        simp only
        obtain ⟨w2, h2, h3⟩ := ih rest2 post (by omega) (fun x hx => hs x (by simp [hx])) (fun x hx => ho x (by simp [hx])) hp w1
        refine ⟨w2, ?_, h3⟩
        rw [List.map_cons, file_cons_rec, h2]
        rfl

/-- Every event with an associated event comes from two adjacent records. -/
theorem run_pairs (S : Fa.Sys σ) : ∀ (n : Nat) (rs : List FRec), rs.length ≤ n → ∀ (w : σ) e a, e ∈ (Fa.run S rs w).1.map Prod.fst →
    e.assoc = some a → ∃ l x y m w0 w1, rs = l ++ x :: y :: m ∧ x.fromTo y = true ∧
      Fa.resolve2 S x y w0 = (some (e.path, a.path), w1) ∧ e.effect = .rename ∧ a.effect = .rename ∧ e.ptype = x.ptype ∧ a.ptype = x.ptype := by
  intro n
  induction n with
  | zero =>
    intro rs hn w e a he
    rw [List.length_eq_zero_iff.1 (by omega : rs.length = 0), run_nil] at he
    simp at he
  | succ n ih =>
    intro rs hn w e a he hea
    cases rs with
    | nil => rw [run_nil] at he; simp at he
    | cons r rest =>
      simp only [List.length_cons] at hn
      by_cases hr : r.overflow = true
      · rw [run_ovf S w hr] at he; simp at he
      · simp only [Bool.not_eq_true] at hr
        rcases falone_or r rest with ha | ⟨r2, rest2, rfl, ha⟩
        · rw [run_single S w hr ha] at he
          cases h1 : Fa.resolve S r w with
          | mk p w1 =>
            rw [h1] at he
            cases p with
            | none => simp at he
            | some p =>
              simp only [List.map_append, List.map_cons, List.mem_append, List.mem_cons] at he
              rcases he with he | rfl | he
              · exfalso
                have : ∀ x ∈ (Fa.markSpec S p w1).1, x.1.assoc = none := by
                  unfold Fa.markSpec
                  simp only
                  repeat' split
                  all_goals simp
                split at he
                · rw [List.mem_map] at he
                  obtain ⟨x, hx, rfl⟩ := he
                  rw [this x hx] at hea; cases hea
                · simp at he
              · cases hea
              · obtain ⟨l, x, y, m, w0, w2, h2, h3⟩ := ih rest (by omega) _ e a he hea
                exact ⟨r :: l, x, y, m, w0, w2, by rw [h2]; rfl, h3⟩
        · rw [run_pair S w hr ha] at he
          cases h1 : Fa.resolve2 S r r2 w with
          | mk p w1 =>
            rw [h1] at he
            cases p with
            | none => simp at he
            | some pq =>
              obtain ⟨p, q⟩ := pq
              simp only [List.map_cons, List.mem_cons] at he
              simp only [List.length_cons] at hn
              rcases he with rfl | he
              · injection hea with hea
                subst hea
                exact ⟨[], r, r2, rest2, w, w1, rfl, ha, h1, rfl, rfl, rfl, rfl⟩
              · obtain ⟨l, x, y, m, w0, w2, h2, h3⟩ := ih rest2 (by omega) _ e a he hea
                exact ⟨r :: r2 :: l, x, y, m, w0, w2, by rw [h2]; rfl, h3⟩

/-- A whole read. -/
theorem at_start (rs : List FRec) (hb : FBatch rs) (buf : List UInt8) (hl : buf.length = 4096) (h4 : Roomy rs) :
    At true (fbatch rs ++ buf.drop (fbatch rs).length) rs 0 :=
  ⟨hb.wf, hb.fits, buf.drop (fbatch rs).length, rfl, fun _ => h4.imp (fun h => by rw [List.length_drop]; omega) id⟩

theorem recv_safe (S : Fa.Sys σ) (hS : Fa.Sound S) (rs : List FRec) (hb : FBatch rs) (h4 : Roomy rs)
    (st : Fa.St σ) (hl : st.buf.length = 4096) :
    ∃ st' res, doEvRecv S (.data (fbatch rs)) st = .ok (st', res) ∧ res ≠ .eRet ∧ res.keepsRunning = true := by
  unfold doEvRecv
  exact loop_safe S hS _ _ _ _ (.inr ⟨rs, 0, rfl, at_start rs hb st.buf hl h4, Int.le_refl _⟩)
    (by have : cUlim = 170 := by decide
        have := hb.fits
        omega)

theorem recv_run (S : Fa.Sys σ) (hS : Fa.Sound S) (rs : List FRec) (hb : FBatch rs) (h4 : Roomy rs)
    (hn : NoSwap rs) (st : Fa.St σ) (hl : st.buf.length = 4096) :
    doEvRecv S (.data (fbatch rs)) st = .ok (⟨fbatch rs ++ st.buf.drop (fbatch rs).length,
      (Fa.run S rs st.sys).2.1, st.out ++ (Fa.run S rs st.sys).1⟩, (Fa.run S rs st.sys).2.2) := by
  unfold doEvRecv
  simp only
  rw [loop_run S hS rs.length rs (Nat.le_refl _) _ 0 _ _ (.inl rfl) (at_start rs hb st.buf hl h4) hn
    (by have : cUlim = 170 := by decide
        have := hb.fits
        omega)]

/-- What the loop has sent keeps a property of every step. -/
def Announced (Watched : σ → Str → Prop) (out : List (Ev × σ)) : Prop :=
  ∀ pre e w post, out = pre ++ (e, w) :: post → e.effect = .create → e.ptype = .dir →
    Watched w e.path ∨ ∃ pre' w', pre = pre' ++ [(notWatched e.path, w')]

theorem announced_append {Watched : σ → Str → Prop} {out new : List (Ev × σ)} (h1 : Announced Watched out)
    (h2 : Announced Watched new) : Announced Watched (out ++ new) := by
  intro pre e w post h he hp
  rcases List.append_eq_append_iff.1 h with ⟨a, rfl, h3⟩ | ⟨a, h3, h4⟩
  · rcases h2 a e w post h3 he hp with h | ⟨pre', w', h⟩
    · exact .inl h
    · exact .inr ⟨out ++ pre', w', by rw [h]; simp⟩
  · cases a with
    | nil =>
      simp only [List.append_nil, List.nil_append] at h3 h4
      rcases h2 [] e w post (by rw [← h4]; rfl) he hp with h | ⟨pre', w', h⟩
      · exact .inl h
      · exact absurd h (by simp)
    | cons b a =>
      simp only [List.cons_append, List.cons.injEq] at h4
      exact h1 pre e w a (by rw [h3, h4.1]) he hp

theorem doMark_out (S : Fa.Sys σ) (p : Str) (st : Fa.St σ) (Watched : σ → Str → Prop)
    (hw : ∀ w real w1 w2 w3, S.realpath w p = (some real, w1) → S.isDir w1 real = (true, w2) → S.mark w2 real = (true, w3) →
      Watched w3 p) :
    ((doMark S p st).1.out = st.out ∧ Watched (doMark S p st).1.sys p) ∨
    ∃ w', (doMark S p st).1.out = st.out ++ [(notWatched p, w')] := by
  unfold doMark
  cases h1 : S.realpath st.sys p with
  | mk a w1 =>
    cases a with
    | none => right; exact ⟨_, rfl⟩
    | some real =>
      simp only
      cases h2 : S.isDir w1 real with
      | mk b w2 =>
        cases b with
        | false => right; exact ⟨_, rfl⟩
        | true =>
          simp only
          cases h3 : S.mark w2 real with
          | mk c w3 =>
            cases c with
            | false => right; exact ⟨_, rfl⟩
            | true => left; exact ⟨rfl, hw _ _ _ _ _ h1 h2 h3⟩

theorem loop_announced (S : Fa.Sys σ) (Watched : σ → Str → Prop)
    (hw : ∀ w p real w1 w2 w3, S.realpath w p = (some real, w1) → S.isDir w1 real = (true, w2) → S.mark w2 real = (true, w3) →
      Watched w3 p) : ∀ (left : Nat) (next : Option Nat) (len : Int) (st st' : Fa.St σ) (res : Result),
    loop S left next len st = .ok (st', res) → Announced Watched st.out → Announced Watched st'.out := by
  intro left
  induction left with
  | zero =>
    intro next len st st' res h ha
    rw [loop.eq_def] at h
    cases next with
    | none => simp only [Outcome.ok.injEq, Prod.mk.injEq] at h; rw [← h.1]; exact ha
    | some o =>
      simp only at h
      cases h1 : eventOk st.buf o len with
      | ub m => rw [h1] at h; simp at h
      | ok b =>
        rw [h1] at h
        cases b <;> simp at h <;> (rw [← h.1]; exact ha)
  | succ left ih =>
    intro next len st st' res h ha
    rw [loop.eq_def] at h
    cases next with
    | none => simp only [Outcome.ok.injEq, Prod.mk.injEq] at h; rw [← h.1]; exact ha
    | some o =>
      simp only at h
      cases h1 : eventOk st.buf o len with
      | ub m => rw [h1] at h; simp at h
      | ok b =>
      rw [h1] at h
      cases b with
      | false => simp at h; rw [← h.1]; exact ha
      | true =>
      simp only [Outcome.bind_ok, Bool.not_true, Bool.false_eq_true, if_false] at h
      cases h2 : fVers st.buf o with
      | ub m => rw [h2] at h; simp at h
      | ok v =>
      rw [h2] at h
      simp only [Outcome.bind_ok] at h
      split at h
      · simp at h; rw [← h.1]; exact ha
      cases h3 : fFd st.buf o with
      | ub m => rw [h3] at h; simp at h
      | ok v =>
      rw [h3] at h
      simp only [Outcome.bind_ok] at h
      split at h
      · simp at h; rw [← h.1]; exact ha
      cases h4 : fMask st.buf o with
      | ub m => rw [h4] at h; simp at h
      | ok v =>
      rw [h4] at h
      simp only [Outcome.bind_ok] at h
      split at h
      · simp at h; rw [← h.1]; exact ha
      cases h5 : fInfoType st.buf o with
      | ub m => rw [h5] at h; simp at h
      | ok v =>
      rw [h5] at h
      simp only [Outcome.bind_ok] at h
      split at h
      · simp at h; rw [← h.1]; exact ha
      cases h6 : parseEv S st.buf o len 0 st.sys with
      | ub m => rw [h6] at h; simp at h
      | ok v =>
      obtain ⟨p, ec, w⟩ := v
      rw [h6] at h
      simp only [Outcome.bind_ok] at h
      split at h
      · simp at h; rw [← h.1]; exact ha
      refine ih _ _ _ _ _ h ?_
      simp only [St.send]
      unfold doMarkIfNewdir
      split
      · rename_i hc
        rcases doMark_out S p.ev.path { st with sys := w } Watched (fun w real w1 w2 w3 a b c => hw w _ real w1 w2 w3 a b c) with ⟨h7, h8⟩ | ⟨w', h7⟩
        · rw [h7]
          refine announced_append ha ?_
          intro pre e w post hx he hp
          cases pre with
          | nil =>
            simp only [List.nil_append, List.cons.injEq, Prod.mk.injEq] at hx
            rw [← hx.1.1, ← hx.1.2]
            exact .inl h8
          | cons _ _ => simp at hx
        · rw [h7, List.append_assoc]
          refine announced_append ha ?_
          intro pre e w post hx he hp
          match pre, hx with
          | [], hx =>
            simp only [List.nil_append, List.cons_append, List.cons.injEq, Prod.mk.injEq] at hx
            rw [← hx.1.1] at he hp
            cases hp
          | [b], hx =>
            simp only [List.nil_append, List.cons_append, List.cons.injEq, Prod.mk.injEq] at hx
            refine .inr ⟨[], w', ?_⟩
            rw [← hx.1, ← hx.2.1.1]
            rfl
          | _ :: _ :: _, hx => simp at hx
      · rename_i hc
        refine announced_append ha ?_
        intro pre e w post hx he hp
        cases pre with
        | nil =>
          simp only [List.nil_append, List.cons.injEq, Prod.mk.injEq] at hx
          exfalso
          apply hc
          rw [hx.1.1]
          exact ⟨he, hp⟩
        | cons _ _ => simp at hx

end Verif.Lemmas.Fa
