import Verif.Lemmas.Fanotify4
/-! What is delivered for a fanotify batch of any kind is drawn from its records. -/
namespace Verif.Lemmas.Fa
open Verif Verif.Model Verif.Model.Fa Verif.Spec

variable {buf : List UInt8} {o : Nat} {r r2 : FRec} {rs rest : List FRec} {σ : Type}

theorem Later.trans {S : Fa.Sys σ} {a b c : σ} (h1 : Fa.Later S a b) (h2 : Fa.Later S b c) : Fa.Later S a c := by
  induction h2 with
  | now => exact h1
  | realpath p _ ih => exact ih.realpath p
  | isDir p _ ih => exact ih.isDir p
  | mark p _ ih => exact ih.mark p
  | openByHandle p _ ih => exact ih.openByHandle p
  | readlink p _ ih => exact ih.readlink p

theorem WasAt.mono {S : Fa.Sys σ} {a b a' b' : σ} {p : Str} (h : Fa.WasAt S a b r p) (h1 : Fa.Later S a' a) (h2 : Fa.Later S b b') :
    Fa.WasAt S a' b' r p := by
  obtain ⟨w, x, y, z⟩ := h
  exact ⟨w, Later.trans h1 x, y, Later.trans z h2⟩

theorem Drawn.mono {P Q : FRec → Str → Prop} (h : ∀ r p, P r p → Q r p) {rs : List FRec} {es : List Ev} (hd : Fa.Drawn P rs es) : Fa.Drawn Q rs es := by
  induction hd with
  | stop rs => exact .stop rs
  | one a _ ih => exact .one (h _ _ a) ih
  | pair a b c _ ih => exact .pair a (h _ _ b) (h _ _ c) ih
  | swapped a b c _ ih => exact .swapped a (h _ _ b) (h _ _ c) ih

theorem resolve_later (S : Fa.Sys σ) (w : σ) (r : FRec) : Fa.Later S w (Fa.resolve S r w).2 := by
  unfold Fa.resolve
  have h1 := (Fa.Later.now (S := S) (w0 := w)).openByHandle r.handle
  cases h : S.openByHandle w r.handle with
  | mk a w1 =>
    rw [h] at h1
    obtain ⟨fd, e⟩ := a
    simp only
    split
    · exact h1
    · have h2 := h1.readlink fd
      cases h3 : S.readlink w1 fd with
      | mk b w2 =>
        rw [h3] at h2
        cases b <;> exact h2

theorem path_zero (S : Fa.Sys σ) (hS : Fa.Sound S) (h : At false buf (r :: rs) o) (hr : r.overflow = false) {ec e : Nat} {w w' : σ} {p : Str}
    (hp : pathof S buf o ec w = .ok (p, e, w')) : Fa.Later S w w' ∧ (e = 0 → ec = 0 ∧ Fa.WasAt S w w' r p) := by
  rw [h.path S hS hr ec w] at hp
  have hl := resolve_later S w r
  cases h1 : Fa.resolve S r w with
  | mk a w1 =>
    rw [h1] at hp hl
    cases a with
    | none =>
      simp only [Outcome.ok.injEq, Prod.mk.injEq] at hp
      obtain ⟨_, rfl, rfl⟩ := hp
      exact ⟨hl, fun h0 => absurd h0 (resolve_none S hS w (by rw [h1]))⟩
    | some q =>
      simp only [Outcome.ok.injEq, Prod.mk.injEq] at hp
      obtain ⟨rfl, rfl, rfl⟩ := hp
      exact ⟨hl, fun h0 => ⟨h0, w, .now, by rw [h1], by rw [h1]; exact .now⟩⟩

theorem bind_inv {α β} {x : Outcome α} {f : α → Outcome β} {b : β} (h : (x >>= f) = .ok b) : ∃ a, x = .ok a ∧ f a = .ok b := by
  cases x with
  | ok a => exact ⟨a, rfl, h⟩
  | ub m => cases h

/-- The two paths at watcher.hpp:1199. -/
theorem path2_zero (S : Fa.Sys σ) {a b : Nat} {r r2 : FRec}
    (ha : ∀ ec w p e w', pathof S buf a ec w = .ok (p, e, w') → Fa.Later S w w' ∧ (e = 0 → ec = 0 ∧ Fa.WasAt S w w' r p))
    (hb : ∀ ec w p e w', pathof S buf b ec w = .ok (p, e, w') → Fa.Later S w w' ∧ (e = 0 → ec = 0 ∧ Fa.WasAt S w w' r2 p))
    {w w' : σ} {p q : Str} {e : Nat} (hp : pathof2 S buf a b 0 w = .ok (p, q, e, w')) :
    Fa.Later S w w' ∧ (e = 0 → Fa.WasAt S w w' r p ∧ Fa.WasAt S w w' r2 q) := by
  unfold pathof2 at hp
  split at hp
  · obtain ⟨⟨pb, e1, w1⟩, h1, hp⟩ := bind_inv hp
    obtain ⟨⟨pa, e2, w2⟩, h2, hp⟩ := bind_inv hp
    simp only [Outcome.pure_eq, Outcome.ok.injEq, Prod.mk.injEq] at hp
    obtain ⟨rfl, rfl, rfl, rfl⟩ := hp
    obtain ⟨l1, z1⟩ := hb _ _ _ _ _ h1
    obtain ⟨l2, z2⟩ := ha _ _ _ _ _ h2
    refine ⟨Later.trans l1 l2, ?_⟩
    rintro rfl
    obtain ⟨rfl, h4⟩ := z2 rfl
    exact ⟨WasAt.mono h4 l1 .now, WasAt.mono (z1 rfl).2 .now l2⟩
  · obtain ⟨⟨pa, e1, w1⟩, h1, hp⟩ := bind_inv hp
    obtain ⟨⟨pb, e2, w2⟩, h2, hp⟩ := bind_inv hp
    simp only [Outcome.pure_eq, Outcome.ok.injEq, Prod.mk.injEq] at hp
    obtain ⟨rfl, rfl, rfl, rfl⟩ := hp
    obtain ⟨l1, z1⟩ := ha _ _ _ _ _ h1
    obtain ⟨l2, z2⟩ := hb _ _ _ _ _ h2
    refine ⟨Later.trans l1 l2, ?_⟩
    rintro rfl
    obtain ⟨rfl, h4⟩ := z2 rfl
    exact ⟨WasAt.mono (z1 rfl).2 .now l2, WasAt.mono h4 l1 .now⟩

/-- What `parse_ev` makes of a record: an event about it alone, or about it and its neighbour. -/
theorem parseEv_drawn (S : Fa.Sys σ) (hS : Fa.Sound S) (h : At false buf (r :: rs) o) (hr : r.overflow = false) (len : Int)
    (hlen : len ≤ (fbatch (r :: rs)).length) {w w' : σ} {p : Parsed} {e : Nat}
    (hp : parseEv S buf o len 0 w = .ok (p, e, w')) :
    Fa.Later S w w' ∧ (e = 0 →
    ∃ rs', (p.next = none ∨ ∃ o', p.next = some o' ∧ At false buf rs' o' ∧ len - p.len ≤ (fbatch rs').length) ∧
      ∀ w1 es, Fa.Later S w' w1 → Fa.Drawn (Fa.WasAt S w w1) rs' es → Fa.Drawn (Fa.WasAt S w w1) (r :: rs) (p.ev :: es)) := by
  have one : ∀ n : Option Nat, (n = none ∨ n = some (o + r.bytes.length)) →
      parseOne S buf o (effectOf r.mask) (ptypeOf r.mask) n 0 w = .ok (p, e, w') →
      Fa.Later S w w' ∧ (e = 0 →
      ∃ rs', (p.next = none ∨ ∃ o', p.next = some o' ∧ At false buf rs' o' ∧ len - p.len ≤ (fbatch rs').length) ∧
        ∀ w1 es, Fa.Later S w' w1 → Fa.Drawn (Fa.WasAt S w w1) rs' es → Fa.Drawn (Fa.WasAt S w w1) (r :: rs) (p.ev :: es)) := by
    intro n hn hp
    unfold parseOne at hp
    obtain ⟨⟨x, e1, w1⟩, h1, hp⟩ := bind_inv hp
    simp only [h.len, Outcome.bind_ok, Outcome.pure_eq, Outcome.ok.injEq, Prod.mk.injEq] at hp
    obtain ⟨rfl, rfl, rfl⟩ := hp
    obtain ⟨hl, hz⟩ := path_zero S hS h hr h1
    refine ⟨hl, fun he0 => ?_⟩
    obtain ⟨_, h2⟩ := hz he0
    refine ⟨rs, ?_, fun w1 es hl1 he => ?_⟩
    · rcases hn with rfl | rfl
      · exact .inl rfl
      · refine .inr ⟨_, rfl, h.tail, ?_⟩
        rw [fbatch_cons, List.length_append] at hlen
        simp only; omega
    · simp only [effect_eq, ptype_eq]
      exact .one (WasAt.mono h2 .now hl1) he
  unfold parseEv at hp
  rw [h.mask] at hp
  cases rs with
  | nil =>
    rw [h.peek_last len (by simpa [fbatch] using hlen)] at hp
    simp only [Outcome.bind_ok] at hp
    exact one none (.inl rfl) hp
  | cons r2 rest =>
    rw [h.peek_cons] at hp
    simp only [Outcome.bind_ok] at hp
    by_cases hx : (r.bytes.length : Int) + r2.bytes.length ≤ len
    · rw [if_pos hx] at hp
      simp only [h.tail.mask, Outcome.bind_ok] at hp
      rw [fromTo_eq, toFrom_eq] at hp
      cases hft : r.fromTo r2 with
      | true =>
        rw [hft] at hp
        simp only [if_true] at hp
        have hr2 := fromTo_not_ovf (h.wf r2 (by simp)) hft
        have he : r.effect = .rename := by
          simp only [FRec.fromTo, Bool.and_eq_true, beq_iff_eq] at hft; exact hft.1.1
        unfold parseAssoc at hp
        obtain ⟨nn, hb, hp⟩ := bind_inv hp
        have hnn : nn = none ∨ nn = some (o + r.bytes.length + r2.bytes.length) := by
          unfold peek at hb
          rw [h.tail.len] at hb
          simp only [Outcome.bind_ok] at hb
          obtain ⟨b, _, hb⟩ := bind_inv hb
          cases b <;> simp at hb
          · exact .inl hb.symm
          · exact .inr hb.symm
        rw [h.len, h.tail.len] at hp
        simp only [Outcome.bind_ok] at hp
        obtain ⟨⟨pa, pb, e1, w1⟩, h1, hp⟩ := bind_inv hp
        simp only [Outcome.pure_eq, Outcome.ok.injEq, Prod.mk.injEq] at hp
        obtain ⟨rfl, rfl, rfl⟩ := hp
        obtain ⟨h0, h23⟩ := path2_zero S (fun _ _ _ _ _ => path_zero S hS h hr) (fun _ _ _ _ _ => path_zero S hS h.tail hr2) h1
        refine ⟨h0, fun he0 => ?_⟩
        obtain ⟨h2, h3⟩ := h23 he0
        refine ⟨rest, ?_, fun w1 es hl1 hes => ?_⟩
        · rcases hnn with rfl | rfl
          · exact .inl rfl
          · refine .inr ⟨_, rfl, h.tail.tail, ?_⟩
            simp only [fbatch_cons, List.length_append] at hlen
            simp only; omega
        · simp only [effect_eq, ptype_eq, he]
          exact .pair hft (WasAt.mono h2 .now hl1) (WasAt.mono h3 .now hl1) hes
      | false =>
        rw [hft] at hp
        simp only [Bool.false_eq_true, if_false] at hp
        cases htf : r.toFrom r2 with
        | true =>
          rw [htf] at hp
          simp only [if_true] at hp
          have hr2 := toFrom_not_ovf (h.wf r2 (by simp)) htf
          have he : r.effect = .rename := by
            simp only [FRec.toFrom, Bool.and_eq_true, beq_iff_eq] at htf; exact htf.1.1
          unfold parseAssoc at hp
          rw [h.peek_cons, if_pos hx, h.len, h.tail.len] at hp
          simp only [Outcome.bind_ok] at hp
          obtain ⟨⟨pa, pb, e1, w1⟩, h1, hp⟩ := bind_inv hp
          simp only [Outcome.pure_eq, Outcome.ok.injEq, Prod.mk.injEq] at hp
          obtain ⟨rfl, rfl, rfl⟩ := hp
          obtain ⟨h0, h23⟩ := path2_zero S (fun _ _ _ _ _ => path_zero S hS h.tail hr2) (fun _ _ _ _ _ => path_zero S hS h hr) h1
          refine ⟨h0, fun he0 => ?_⟩
          obtain ⟨h2, h3⟩ := h23 he0
          refine ⟨r2 :: rest, ?_, fun w1 es hl1 hes => ?_⟩
          · refine .inr ⟨_, rfl, h.tail, ?_⟩
            simp only [fbatch_cons, List.length_append] at hlen ⊢
            omega
          · simp only [effect_eq, ptype_eq, he]
            exact .swapped htf (WasAt.mono h3 .now hl1) (WasAt.mono h2 .now hl1) hes
        | false =>
          rw [htf] at hp
          simp only [Bool.false_eq_true, if_false] at hp
          exact one _ (.inr rfl) hp
    · rw [if_neg hx] at hp
      exact one none (.inl rfl) hp

theorem mark_later (S : Fa.Sys σ) (p : Str) (st : Fa.St σ) {w0 : σ} (hw : Fa.Later S w0 st.sys) : Fa.Later S w0 (doMark S p st).1.sys := by
  unfold Fa.doMark
  have h1 := hw.realpath p
  cases e1 : S.realpath st.sys p with
  | mk a w1 =>
    rw [e1] at h1
    cases a with
    | none => exact h1
    | some real =>
      have h2 := h1.isDir real
      simp only
      cases e2 : S.isDir w1 real with
      | mk b w2 =>
        simp only at h2
        rw [e2] at h2
        cases b with
        | false => exact h2
        | true =>
          have h3 := h2.mark real
          simp only at h3 ⊢
          cases e3 : S.mark w2 real with
          | mk c w3 =>
            rw [e3] at h3
            cases c <;> exact h3

/-- Marking sends no file events. -/
theorem mark_files (S : Fa.Sys σ) (e : Ev) (st : Fa.St σ) :
    ∃ m, (doMarkIfNewdir S e st).out = st.out ++ m ∧ fileEvents (m.map Prod.fst) = [] ∧
      ∀ w0, Fa.Later S w0 st.sys → Fa.Later S w0 (doMarkIfNewdir S e st).sys := by
  have hl : ∀ w0, Fa.Later S w0 st.sys → Fa.Later S w0 (doMarkIfNewdir S e st).sys := by
    intro w0 hw
    unfold doMarkIfNewdir
    split
    · exact mark_later S _ _ hw
    · exact hw
  suffices h : ∃ m, (doMarkIfNewdir S e st).out = st.out ++ m ∧ fileEvents (m.map Prod.fst) = [] by
    obtain ⟨m, h1, h2⟩ := h
    exact ⟨m, h1, h2, hl⟩
  unfold doMarkIfNewdir
  split
  · unfold Fa.doMark
    repeat' split
    all_goals first
      | exact ⟨_, rfl, by simp [fileEvents, sendMsg]⟩
      | exact ⟨[], by simp, rfl⟩
  · exact ⟨[], by simp, rfl⟩

theorem drawn_file {wasAt : FRec → Str → Prop} {rs : List FRec} {es : List Ev} (h : Fa.Drawn wasAt rs es) :
    ∀ e ∈ es, e.ptype ≠ .watcher := by
  have hp : ∀ r : FRec, r.ptype ≠ .watcher := by intro r; unfold FRec.ptype; split <;> simp
  induction h with
  | stop => intro e he; cases he
  | one _ _ ih => intro e he; rcases List.mem_cons.1 he with rfl | he; exact hp _; exact ih e he
  | pair _ _ _ _ ih => intro e he; rcases List.mem_cons.1 he with rfl | he; exact hp _; exact ih e he
  | swapped _ _ _ _ ih => intro e he; rcases List.mem_cons.1 he with rfl | he; exact hp _; exact ih e he

/-- The whole loop. -/
theorem loop_drawn (S : Fa.Sys σ) (hS : Fa.Sound S) : ∀ (left : Nat) (next : Option Nat) (len : Int) (st st' : Fa.St σ) (res : Result)
    (rs : List FRec), (next = none ∨ ∃ o, next = some o ∧ At false st.buf rs o ∧ len ≤ (fbatch rs).length) →
    loop S left next len st = .ok (st', res) →
    ∃ new, st'.out = st.out ++ new ∧ Fa.Drawn (Fa.WasAt S st.sys st'.sys) rs (fileEvents (new.map Prod.fst)) ∧ Fa.Later S st.sys st'.sys := by
  intro left
  induction left with
  | zero =>
    intro next len st st' res rs hf h
    rcases hf with rfl | ⟨o, rfl, _, _⟩
    · rw [loop] at h; cases h; exact ⟨[], by simp, .stop _, .now⟩
    · rw [loop] at h
      obtain ⟨b, _, h⟩ := bind_inv h
      cases b <;> simp at h <;> obtain ⟨rfl, _⟩ := h <;> exact ⟨[], by simp, .stop _, .now⟩
  | succ left ih =>
    intro next len st st' res rs hf h
    rcases hf with rfl | ⟨o, rfl, hat, hle⟩
    · rw [loop] at h; cases h; exact ⟨[], by simp, .stop _, .now⟩
    · cases rs with
      | nil =>
        rw [loop, ok_short _ (by simp [fbatch] at hle; omega)] at h
        simp at h
        obtain ⟨rfl, _⟩ := h
        exact ⟨[], by simp, .stop _, .now⟩
      | cons r rs =>
        rw [loop, hat.ok_cons] at h
        simp only [Outcome.bind_ok] at h
        by_cases hx : (r.bytes.length : Int) ≤ len
        · obtain ⟨l, hb⟩ := hat.bytes
          simp only [hx, decide_true, Bool.not_true, Bool.false_eq_true, if_false, fVers_rec hb, Outcome.bind_ok, ne_eq,
            not_true_eq_false, fFd_rec hb, fMask_rec hb, ovf_eq] at h
          by_cases hr : r.overflow = true
          · simp [hr] at h
            obtain ⟨rfl, _⟩ := h
            exact ⟨[], by simp, .stop _, .now⟩
          · simp only [Bool.not_eq_true] at hr
            simp only [hr, Bool.false_eq_true, if_false, fInfoType_rec hb hr, Outcome.bind_ok, not_true_eq_false] at h
            obtain ⟨⟨p, ec, w⟩, hp, h⟩ := bind_inv h
            simp only at h
            obtain ⟨hlat, hrest⟩ := parseEv_drawn S hS hat hr len hle hp
            by_cases hec : ec = 0
            · subst hec
              simp only [not_true_eq_false, if_false] at h
              obtain ⟨rs', h1, h2⟩ := hrest rfl
              obtain ⟨m, h3, h4, hm⟩ := mark_files S p.ev { st with sys := w }
              obtain ⟨new, h5, h6, h8⟩ := ih p.next (len - p.len) ((doMarkIfNewdir S p.ev { st with sys := w }).send p.ev) st' res rs'
                (by simp only [St.send, markIf_buf]; exact h1) h
              have hto := hm st.sys hlat
              have hmid := Later.trans (hm w .now) h8
              have h7 := h2 st'.sys _ hmid (Drawn.mono (fun _ _ hx => WasAt.mono hx hto .now) h6)
              refine ⟨m ++ (p.ev, (doMarkIfNewdir S p.ev { st with sys := w }).sys) :: new, ?_, ?_, Later.trans hto h8⟩
              · rw [h5]; simp [St.send, h3]
              · have hpe : p.ev.ptype ≠ .watcher := drawn_file h7 _ (by simp)
                have : fileEvents ((m ++ (p.ev, (doMarkIfNewdir S p.ev { st with sys := w }).sys) :: new).map Prod.fst)
                    = p.ev :: fileEvents (new.map Prod.fst) := by
                  unfold fileEvents at h4 ⊢
                  rw [List.map_append, List.filter_append, h4, List.nil_append, List.map_cons, List.filter_cons, if_pos (by simp [hpe])]
                rw [this]
                exact h7
            · simp only [hec, not_false_eq_true, if_true, Outcome.pure_eq, Outcome.ok.injEq, Prod.mk.injEq] at h
              obtain ⟨rfl, _⟩ := h
              exact ⟨[], by simp, .stop _, hlat⟩
        · simp [hx] at h
          obtain ⟨rfl, _⟩ := h
          exact ⟨[], by simp, .stop _, .now⟩

theorem recv_drawn (S : Fa.Sys σ) (hS : Fa.Sound S) (rs : List FRec) (hb : FBatch rs)
    (st st' : Fa.St σ) (res : Result) (h : doEvRecv S (.data (fbatch rs)) st = .ok (st', res)) :
    ∃ new, st'.out = st.out ++ new ∧ Fa.Drawn (Fa.WasAt S st.sys st'.sys) rs (fileEvents (new.map Prod.fst)) ∧ Fa.Later S st.sys st'.sys := by
  unfold doEvRecv at h
  have := loop_drawn S hS (cUlim + 1) (some 0) (fbatch rs).length { st with buf := fbatch rs ++ st.buf.drop (fbatch rs).length }
    st' res rs (.inr ⟨0, rfl, ⟨hb.wf, hb.fits, st.buf.drop (fbatch rs).length, rfl, fun h => by cases h⟩, Int.le_refl _⟩) h
  exact this

end Verif.Lemmas.Fa
