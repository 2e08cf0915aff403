import Verif.Model.Times
import Verif.Spec.Times
/-!
# The back ends with the clock do what they do without it, and their readings
-/

namespace Verif.Lemmas.Time
open Verif Verif.Model Verif.Model.Time Verif.Spec.Time

/-- Events with numbered readings. `n` is a number all readings lie below. -/
inductive Told (clk : Nat → Int) (n0 : Nat) : List Event → Nat → Prop where
  | nil {n} (h : n0 ≤ n) : Told clk n0 [] n
  | one {l n k e m} (h : Told clk n0 l n) (hk : n ≤ k) (hm : k < m) (he : e.time = clk k)
      (ha : ∀ a, e.assoc = some a → ∃ j, n ≤ j ∧ j ≤ k ∧ a.time = clk j) : Told clk n0 (l ++ [e]) m
  | late {l n k1 k2 w e m} (h : Told clk n0 l n) (h1 : n ≤ k1) (h2 : k1 < k2) (hm : k2 < m) (hw : w.time = clk k2) (hwa : w.assoc = none)
      (he : e.time = clk k1) (ha : ∀ a, e.assoc = some a → ∃ j, n ≤ j ∧ j ≤ k1 ∧ a.time = clk j) (hu : UnwatchedNew w e) :
      Told clk n0 (l ++ [w, e]) m

theorem Told.up {clk n0 l n m} (h : Told clk n0 l n) (hm : n ≤ m) : Told clk n0 l m := by
  cases h with
  | nil h => exact .nil (by omega)
  | one h hk hm' he ha => exact .one h hk (by omega) he ha
  | late h h1 h2 hm' hw hwa he ha hu => exact .late h h1 h2 (by omega) hw hwa he ha hu

theorem bare_stamp (e : Ev) (a b : Int) : bare (e.stamp a b) = bareEv e := by
  unfold Ev.stamp bare bareEv
  cases e.assoc <;> rfl

theorem time_stamp (e : Ev) (a b : Int) : (e.stamp a b).time = a := by
  unfold Ev.stamp; cases e.assoc <;> rfl

theorem assoc_stamp {e : Ev} {a b : Int} {x : Event} (h : (e.stamp a b).assoc = some x) : x.time = b := by
  unfold Ev.stamp at h
  cases h' : e.assoc with
  | none => rw [h'] at h; cases h
  | some y => rw [h'] at h; simp only [Event.join, Event.assoc, Option.some.injEq] at h; subst h; rfl

/-- A message is told with the next reading. -/
theorem told_msg {α clk n0} {t : T α} (h : Told clk n0 t.out t.tick) (e : Ev) : Told clk n0 (t.msg clk e).out (t.msg clk e).tick :=
  .one h (Nat.le_refl _) (Nat.lt_succ_self _) (time_stamp _ _ _) (fun _ ha => ⟨t.tick, Nat.le_refl _, Nat.le_refl _, assoc_stamp ha⟩)

/-- What is known of a constructed object. -/
theorem construct_spec (clk : Nat → Int) (rf : Bool) (n : Nat) (e : Ev) :
    bare (construct clk rf n e).1 = bareEv e ∧
    ∃ k, n ≤ k ∧ k < (construct clk rf n e).2 ∧ (construct clk rf n e).1.time = clk k ∧
      ∀ a, (construct clk rf n e).1.assoc = some a → ∃ j, n ≤ j ∧ j ≤ k ∧ a.time = clk j := by
  unfold construct
  cases h : e.assoc with
  | none =>
    refine ⟨bare_stamp _ _ _, n, Nat.le_refl _, Nat.lt_succ_self _, time_stamp _ _ _, fun a ha => ?_⟩
    exact ⟨n, Nat.le_refl _, Nat.le_refl _, assoc_stamp ha⟩
  | some x =>
    refine ⟨bare_stamp _ _ _, n + 2, by omega, by simp, time_stamp _ _ _, fun a ha => ?_⟩
    have := assoc_stamp ha
    cases rf
    · exact ⟨n + 1, by omega, by omega, by simpa using this⟩
    · exact ⟨n, by omega, by omega, by simpa using this⟩

/-! ### inotify -/

/-- `do_mark` with and without the clock. -/
theorem in_doMark_out {σ} (S : In.Sys σ) (d : Str) (st : In.St σ) :
    ((In.doMark S d st).2 = .wNotWatched ∧ (In.doMark S d st).1.out = st.out ++ [sendMsg .wNotWatched d]) ∨
    ((In.doMark S d st).2 ≠ .wNotWatched ∧ (In.doMark S d st).1.out = st.out) := by
  unfold In.doMark
  split
  · exact .inl ⟨rfl, rfl⟩
  · split
    · exact .inl ⟨rfl, rfl⟩
    · split
      split
      · exact .inr ⟨nofun, rfl⟩
      · exact .inl ⟨rfl, rfl⟩

theorem inMark_st {σ} (S : In.Sys σ) (clk : Nat → Int) (d : Str) (t : T (In.St σ)) : (inMark S clk d t).st = (In.doMark S d t.st).1 := by
  unfold inMark; simp only; split <;> rfl

theorem fa_doMark_out {σ} (S : Fa.Sys σ) (d : Str) (st : Fa.St σ) :
    ((Fa.doMark S d st).2 = .wNotWatched ∧ ∃ w, (Fa.doMark S d st).1.out = st.out ++ [(sendMsg .wNotWatched d, w)]) ∨
    ((Fa.doMark S d st).2 ≠ .wNotWatched ∧ (Fa.doMark S d st).1.out = st.out) := by
  unfold Fa.doMark
  split
  · exact .inl ⟨rfl, _, rfl⟩
  · split
    · exact .inl ⟨rfl, _, rfl⟩
    · split
      · exact .inr ⟨nofun, rfl⟩
      · exact .inl ⟨rfl, _, rfl⟩

theorem faMark_st {σ} (S : Fa.Sys σ) (clk : Nat → Int) (d : Str) (t : T (Fa.St σ)) : (faMark S clk d t).st = (Fa.doMark S d t.st).1 := by
  unfold faMark; simp only; split <;> rfl

/-- Forget the clock. -/
def er {α} : Outcome (T α × Result) → Outcome (α × Result)
  | .ok (t, r) => .ok (t.st, r)
  | .ub w => .ub w

theorem er_bind {α β} (x : Outcome β) (f : β → Outcome (T α × Result)) : er (x >>= f) = (x >>= fun b => er (f b)) := by
  cases x <;> rfl

theorem bind_congr {α β} {x : Outcome α} {f g : α → Outcome β} (h : ∀ a, f a = g a) : (x >>= f) = (x >>= g) := by
  rw [funext h]

theorem inLoop_er {σ} (S : In.Sys σ) (clk : Nat → Int) (rf : Bool) (mem : List UInt8) (left : Nat) :
    ∀ (o : Option Nat) (t : T (In.St σ)), er (inLoop S clk rf mem left o t) = In.loop S mem left o t.st := by
  induction left with
  | zero =>
    intro o t
    cases o with
    | none => rfl
    | some o =>
      rw [inLoop, In.loop]
      split
      · rw [er_bind]; refine bind_congr fun _ => ?_
        rw [er_bind]; refine bind_congr fun _ => ?_
        rw [er_bind]; refine bind_congr fun _ => ?_
        rfl
      · rfl
  | succ left ih =>
    intro o t
    cases o with
    | none => rfl
    | some o =>
      rw [inLoop, In.loop]
      split
      · rw [er_bind]; refine bind_congr fun next => ?_
        rw [er_bind]; refine bind_congr fun msk => ?_
        rw [er_bind]; refine bind_congr fun wd => ?_
        simp only
        split
        · rfl
        · cases hh : t.st.dm.find wd with
          | none =>
            simp only
            rw [ih]
            cases In.isParityLost msk <;> rfl
          | some dir =>
            simp only
            split
            · rw [ih]
              cases In.isParityLost msk <;> rfl
            · split
              · rw [er_bind]
                refine bind_congr fun p => ?_
                obtain ⟨ev, nx⟩ := p
                simp only
                rw [ih]
                simp only
                split
                · rw [inMark_st]; cases In.isParityLost msk <;> rfl
                · cases In.isParityLost msk <;> rfl
              · rw [ih]; cases In.isParityLost msk <;> rfl
      · rfl

theorem inRecv_er {σ} (S : In.Sys σ) (clk : Nat → Int) (rf : Bool) (r : In.ReadAns) (t : T (In.St σ)) :
    er (inRecv S clk rf r t) = In.doEvRecv S r t.st := by
  unfold inRecv In.doEvRecv
  cases r with
  | err b => cases b <;> rfl
  | data mem =>
    simp only
    rw [← inLoop_er S clk rf mem (In.cUlim + 1) (some 0) { t with st := { t.st with rm := [] } }]
    cases inLoop S clk rf mem (In.cUlim + 1) (some 0) { t with st := { t.st with rm := [] } } <;> rfl

theorem faLoop_er {σ} (S : Fa.Sys σ) (clk : Nat → Int) (left : Nat) :
    ∀ (o : Option Nat) (len : Int) (t : T (Fa.St σ)), er (faLoop S clk left o len t) = Fa.loop S left o len t.st := by
  induction left with
  | zero =>
    intro o len t
    cases o with
    | none => rfl
    | some o =>
      rw [faLoop, Fa.loop, er_bind]; refine bind_congr fun ok => ?_
      split <;> rfl
  | succ left ih =>
    intro o len t
    cases o with
    | none => rfl
    | some o =>
      rw [faLoop, Fa.loop, er_bind]; refine bind_congr fun ok => ?_
      split
      · rfl
      · simp only
        rw [er_bind]; refine bind_congr fun vers => ?_
        split
        · rfl
        rw [er_bind]; refine bind_congr fun fd => ?_
        split
        · rfl
        rw [er_bind]; refine bind_congr fun mask => ?_
        split
        · rfl
        rw [er_bind]; refine bind_congr fun it => ?_
        split
        · rfl
        rw [er_bind]; refine bind_congr fun ⟨p, ec, w⟩ => ?_
        simp only
        split
        · rfl
        · rw [ih]
          simp only [faMarkIfNewdir, Fa.doMarkIfNewdir]
          split
          · rw [faMark_st]
          · rfl

theorem faRecv_er {σ} (S : Fa.Sys σ) (clk : Nat → Int) (r : In.ReadAns) (t : T (Fa.St σ)) :
    er (faRecv S clk r t) = Fa.doEvRecv S r t.st := by
  unfold faRecv Fa.doEvRecv
  cases r with
  | err b => cases b <;> rfl
  | data mem => exact faLoop_er S clk _ _ _ _

/-! ### What is told -/

/-- From `t` to `t'` some events were told, with readings in between; `f` are the events the back end handed over. -/
structure Step {α} (f : α → List Ev) (clk : Nat → Int) (t t' : T α) : Prop where
  told : ∀ n0, Told clk n0 t.out t.tick → Told clk n0 t'.out t'.tick
  new : ∃ new, t'.out = t.out ++ new ∧ (f t'.st).map bareEv = (f t.st).map bareEv ++ new.map bare

theorem Step.refl {α} {f : α → List Ev} {clk} (t : T α) : Step f clk t t := ⟨fun _ h => h, [], by simp, by simp⟩

theorem Step.trans {α} {f : α → List Ev} {clk} {a b c : T α} (h : Step f clk a b) (g : Step f clk b c) : Step f clk a c := by
  obtain ⟨h1, n1, h2, h3⟩ := h
  obtain ⟨g1, n2, g2, g3⟩ := g
  exact ⟨fun n0 hn => g1 n0 (h1 n0 hn), n1 ++ n2, by rw [g2, h2, List.append_assoc], by rw [g3, h3]; simp⟩

/-- Nothing told. -/
theorem Step.quiet {α} {f : α → List Ev} {clk} {t t' : T α} (ho : t'.out = t.out) (ht : t.tick ≤ t'.tick) (hf : f t'.st = f t.st) :
    Step f clk t t' := ⟨fun _ h => by rw [ho]; exact h.up ht, [], by simp [ho], by simp [hf]⟩

/-- A message of the back end. -/
theorem Step.message {α} {f : α → List Ev} {clk} {t : T α} {st : α} {e : Ev} (hf : f st = f t.st ++ [e]) :
    Step f clk t (({ t with st := st }).msg clk e) :=
  ⟨fun _ h => told_msg (t := { t with st := st }) h e, [_], rfl, by
    show (f st).map bareEv = _
    rw [hf]; simp [bare_stamp]⟩

/-- The event of a new directory: constructed, perhaps a warning in between, then told. -/
theorem Step.event {α} {f : α → List Ev} {clk} {t : T α} {st : α} {e : Ev} (rf : Bool) (hf : f st = f t.st ++ [e]) :
    Step f clk t { st := st, tick := (construct clk rf t.tick e).2, out := t.out ++ [(construct clk rf t.tick e).1] } := by
  obtain ⟨h1, k, h2, h3, h4, h5⟩ := construct_spec clk rf t.tick e
  exact ⟨fun _ h => .one h h2 h3 h4 h5, [_], rfl, by simp [hf, h1]⟩

theorem Step.lateEvent {α} {f : α → List Ev} {clk} {t : T α} {st : α} {e : Ev} (rf : Bool) (hc : e.effect = .create) (hd : e.ptype = .dir)
    (hf : f st = f t.st ++ [sendMsg .wNotWatched e.path] ++ [e]) :
    Step f clk t { st := st, tick := (construct clk rf t.tick e).2 + 1,
                   out := t.out ++ [(sendMsg .wNotWatched e.path).stamp (clk (construct clk rf t.tick e).2) (clk (construct clk rf t.tick e).2)] ++
                     [(construct clk rf t.tick e).1] } := by
  obtain ⟨h1, k, h2, h3, h4, h5⟩ := construct_spec clk rf t.tick e
  refine ⟨fun _ h => ?_, [(sendMsg .wNotWatched e.path).stamp (clk (construct clk rf t.tick e).2) (clk (construct clk rf t.tick e).2),
    (construct clk rf t.tick e).1], by simp, by simp [hf, h1, bare_stamp]⟩
  simp only [List.append_assoc, List.singleton_append]
  refine .late h h2 h3 (Nat.lt_succ_self _) (time_stamp _ _ _) rfl h4 h5 ?_
  have hp : (construct clk rf t.tick e).1.path = e.path := congrArg Bare.path h1
  have he : (construct clk rf t.tick e).1.effect = e.effect := congrArg Bare.effect h1
  have ht : (construct clk rf t.tick e).1.ptype = e.ptype := congrArg Bare.ptype h1
  exact ⟨by rw [hp]; rfl, rfl, rfl, by rw [he, hc], by rw [ht, hd]⟩

theorem bind_ok_inv {α β : Type} {x : Outcome α} {f : α → Outcome β} {b : β} (h : (x >>= f) = .ok b) : ∃ a, x = .ok a ∧ f a = .ok b := by
  cases x with
  | ok a => exact ⟨a, rfl, h⟩
  | ub w => cases h

theorem parseEv_types {mem : List UInt8} {dir : Str} {o tail : Nat} {ev : Ev} {nx : Option Nat} {mask : BitVec 32}
    (h : In.parseEv mem dir o tail = .ok (ev, nx)) (hm : In.fMask mem o = .ok mask) :
    ev.effect = In.effectOf mask ∧ ev.ptype = In.ptypeOf mask := by
  unfold In.parseEv at h
  rw [hm] at h
  simp only [Outcome.bind_ok] at h
  obtain ⟨next, -, h⟩ := bind_ok_inv h
  have one : ∀ {x : Outcome (Ev × Option Nat)} , (x = do
      let n ← In.fName mem o
      pure ({ path := pathJoin dir n, effect := In.effectOf mask, ptype := In.ptypeOf mask }, next)) → x = .ok (ev, nx) →
      ev.effect = In.effectOf mask ∧ ev.ptype = In.ptypeOf mask := by
    intro x hx h
    rw [hx] at h
    obtain ⟨n, -, h⟩ := bind_ok_inv h
    simp only [Outcome.pure_eq, Outcome.ok.injEq, Prod.mk.injEq] at h
    obtain ⟨rfl, -⟩ := h; exact ⟨rfl, rfl⟩
  have two : ∀ (a b : Nat) {x : Outcome (Ev × Option Nat)} , (x = do
      let na ← In.fName mem a
      let nb ← In.fName mem b
      let nn ← In.peek mem b tail
      pure ({ path := pathJoin dir na, effect := In.effectOf mask, ptype := In.ptypeOf mask,
              assoc := some { path := pathJoin dir nb, effect := In.effectOf mask, ptype := In.ptypeOf mask } }, nn)) → x = .ok (ev, nx) →
      ev.effect = In.effectOf mask ∧ ev.ptype = In.ptypeOf mask := by
    intro a b x hx h
    rw [hx] at h
    obtain ⟨na, -, h⟩ := bind_ok_inv h
    obtain ⟨nb, -, h⟩ := bind_ok_inv h
    obtain ⟨nn, -, h⟩ := bind_ok_inv h
    simp only [Outcome.pure_eq, Outcome.ok.injEq, Prod.mk.injEq] at h
    obtain ⟨rfl, -⟩ := h; exact ⟨rfl, rfl⟩
  cases next with
  | none => exact one rfl h
  | some b =>
    obtain ⟨cb, -, h⟩ := bind_ok_inv h
    obtain ⟨ca, -, h⟩ := bind_ok_inv h
    split at h
    · obtain ⟨mb, -, h⟩ := bind_ok_inv h
      split at h
      · exact two _ _ rfl h
      · split at h
        · exact two _ _ rfl h
        · exact one rfl h
    · exact one rfl h

/-- Constructing, marking and telling, with inotify. -/
theorem in_tell {σ} (S : In.Sys σ) (clk : Nat → Int) (rf : Bool) (t : T (In.St σ)) (ev : Ev) (newdir : Bool)
    (hc : newdir = true → ev.effect = .create ∧ ev.ptype = .dir) :
    Step In.St.out clk t
      { (if newdir = true then inMark S clk ev.path { t with tick := (construct clk rf t.tick ev).2 } else
            { t with tick := (construct clk rf t.tick ev).2 }) with
        st := (if newdir = true then inMark S clk ev.path { t with tick := (construct clk rf t.tick ev).2 } else
            { t with tick := (construct clk rf t.tick ev).2 }).st.send ev,
        out := (if newdir = true then inMark S clk ev.path { t with tick := (construct clk rf t.tick ev).2 } else
            { t with tick := (construct clk rf t.tick ev).2 }).out ++ [(construct clk rf t.tick ev).1] } := by
  cases newdir with
  | false => exact Step.event rf rfl
  | true =>
    obtain ⟨h1, h2⟩ := hc rfl
    simp only [if_true, inMark]
    rcases in_doMark_out S ev.path t.st with ⟨hr, ho⟩ | ⟨hr, ho⟩
    · rw [if_pos hr]
      exact Step.lateEvent rf h1 h2 (by simp only [T.msg, In.St.send]; rw [ho])
    · rw [if_neg hr]
      exact Step.event rf (by simp only [In.St.send]; rw [ho])

theorem inLoop_step {σ} (S : In.Sys σ) (clk : Nat → Int) (rf : Bool) (mem : List UInt8) (left : Nat) :
    ∀ (o : Option Nat) (t t' : T (In.St σ)) (r : Result), inLoop S clk rf mem left o t = .ok (t', r) → Step In.St.out clk t t' := by
  induction left with
  | zero =>
    intro o t t' r h
    cases o with
    | none => simp only [inLoop, Outcome.ok.injEq, Prod.mk.injEq] at h; rw [h.1]; exact .refl _
    | some o =>
      rw [inLoop] at h
      split at h
      · obtain ⟨_, -, h⟩ := bind_ok_inv h
        obtain ⟨_, -, h⟩ := bind_ok_inv h
        obtain ⟨_, -, h⟩ := bind_ok_inv h
        simp only [Outcome.pure_eq, Outcome.ok.injEq, Prod.mk.injEq] at h; rw [h.1]; exact .refl _
      · simp only [Outcome.ok.injEq, Prod.mk.injEq] at h; rw [h.1]; exact .refl _
  | succ left ih =>
    intro o t t' r h
    cases o with
    | none => simp only [inLoop, Outcome.ok.injEq, Prod.mk.injEq] at h; rw [h.1]; exact .refl _
    | some o =>
      rw [inLoop] at h
      split at h
      · obtain ⟨next, -, h⟩ := bind_ok_inv h
        obtain ⟨msk, hm, h⟩ := bind_ok_inv h
        obtain ⟨wd, -, h⟩ := bind_ok_inv h
        simp only at h
        split at h
        · simp only [Outcome.pure_eq, Outcome.ok.injEq, Prod.mk.injEq] at h; rw [h.1]; exact .refl _
        · have h0 : Step In.St.out clk t (if In.isParityLost msk = true then { t with st := { t.st with rm := t.st.rm ++ [wd] } } else t) := by
            split
            · exact .quiet rfl (Nat.le_refl _) rfl
            · exact .refl _
          generalize (if In.isParityLost msk = true then { t with st := { t.st with rm := t.st.rm ++ [wd] } } else t) = u at h h0
          refine h0.trans ?_
          cases hh : t.st.dm.find wd with
          | none =>
            simp only [hh] at h
            exact (Step.message (by rfl)).trans (ih _ _ _ _ h)
          | some dir =>
            simp only [hh] at h
            split at h
            · exact (Step.message (by rfl)).trans (ih _ _ _ _ h)
            · split at h
              · obtain ⟨⟨ev, nx⟩, hp, h⟩ := bind_ok_inv h
                simp only at h
                refine Step.trans ?_ (ih _ _ _ _ h)
                refine in_tell S clk rf u ev _ (fun hd => ?_)
                obtain ⟨h1, h2⟩ := parseEv_types hp hm
                rw [Bool.and_eq_true] at hd
                rw [h1, h2, In.effectOf, In.ptypeOf, if_pos hd.2, if_pos hd.1]
                exact ⟨rfl, rfl⟩
              · exact ih _ _ _ _ h
      · simp only [Outcome.ok.injEq, Prod.mk.injEq] at h; rw [h.1]; exact .refl _

theorem inRecv_step {σ} (S : In.Sys σ) (clk : Nat → Int) (rf : Bool) (r : In.ReadAns) (t t' : T (In.St σ)) (res : Result)
    (h : inRecv S clk rf r t = .ok (t', res)) : Step In.St.out clk t t' := by
  unfold inRecv at h
  cases r with
  | err b => cases b <;> (simp only [Outcome.ok.injEq, Prod.mk.injEq] at h; rw [h.1]; exact .refl _)
  | data mem =>
    simp only at h
    obtain ⟨⟨u, r⟩, h1, h2⟩ := bind_ok_inv h
    simp only [Outcome.pure_eq, Outcome.ok.injEq, Prod.mk.injEq] at h2
    rw [← h2.1]
    have h0 : Step In.St.out clk t { t with st := { t.st with rm := [] } } := .quiet rfl (Nat.le_refl _) rfl
    exact (h0.trans (inLoop_step _ _ _ _ _ _ _ _ _ h1)).trans (.quiet rfl (Nat.le_refl _) rfl)

theorem inMark_step {σ} (S : In.Sys σ) (clk : Nat → Int) (d : Str) (t : T (In.St σ)) : Step In.St.out clk t (inMark S clk d t) := by
  unfold inMark
  rcases in_doMark_out S d t.st with ⟨hr, ho⟩ | ⟨hr, ho⟩
  · simp only [if_pos hr]; exact Step.message ho
  · simp only [if_neg hr]; exact .quiet rfl (Nat.le_refl _) ho

/-! ### fanotify -/

/-- The events handed over. -/
def faOut {σ} (st : Fa.St σ) : List Ev := st.out.map (·.1)

theorem fa_tell {σ} (S : Fa.Sys σ) (clk : Nat → Int) (rf : Bool) (t : T (Fa.St σ)) (w : σ) (ev : Ev) :
    Step faOut clk t
      { faMarkIfNewdir S clk ev { t with st := { t.st with sys := w }, tick := (construct clk rf t.tick ev).2 } with
        st := (faMarkIfNewdir S clk ev { t with st := { t.st with sys := w }, tick := (construct clk rf t.tick ev).2 }).st.send ev,
        out := (faMarkIfNewdir S clk ev { t with st := { t.st with sys := w }, tick := (construct clk rf t.tick ev).2 }).out ++
          [(construct clk rf t.tick ev).1] } := by
  unfold faMarkIfNewdir
  split
  · rename_i hc
    simp only [faMark]
    rcases fa_doMark_out S ev.path { t.st with sys := w } with ⟨hr, x, ho⟩ | ⟨hr, ho⟩
    · rw [if_pos hr]
      exact Step.lateEvent rf hc.1 hc.2 (by simp only [T.msg, Fa.St.send, faOut]; rw [ho]; simp)
    · rw [if_neg hr]
      exact Step.event rf (by simp only [Fa.St.send, faOut]; rw [ho]; simp)
  · exact Step.event rf (by simp only [Fa.St.send, faOut]; simp)

theorem faLoop_step {σ} (S : Fa.Sys σ) (clk : Nat → Int) (left : Nat) :
    ∀ (o : Option Nat) (len : Int) (t t' : T (Fa.St σ)) (r : Result), faLoop S clk left o len t = .ok (t', r) → Step faOut clk t t' := by
  induction left with
  | zero =>
    intro o len t t' r h
    cases o with
    | none => simp only [faLoop, Outcome.ok.injEq, Prod.mk.injEq] at h; rw [h.1]; exact .refl _
    | some o =>
      rw [faLoop] at h
      obtain ⟨_, -, h⟩ := bind_ok_inv h
      split at h <;> (simp only [Outcome.pure_eq, Outcome.ok.injEq, Prod.mk.injEq] at h; rw [h.1]; exact .refl _)
  | succ left ih =>
    intro o len t t' r h
    have fin : ∀ {x : Result}, (pure (t, x) : Outcome (T (Fa.St σ) × Result)) = .ok (t', r) → Step faOut clk t t' := by
      intro x h; simp only [Outcome.pure_eq, Outcome.ok.injEq, Prod.mk.injEq] at h; rw [h.1]; exact .refl _
    cases o with
    | none => simp only [faLoop, Outcome.ok.injEq, Prod.mk.injEq] at h; rw [h.1]; exact .refl _
    | some o =>
      rw [faLoop] at h
      obtain ⟨ok, -, h⟩ := bind_ok_inv h
      split at h
      · exact fin h
      simp only at h
      obtain ⟨vers, -, h⟩ := bind_ok_inv h
      split at h
      · exact fin h
      obtain ⟨fd, -, h⟩ := bind_ok_inv h
      split at h
      · exact fin h
      obtain ⟨mask, -, h⟩ := bind_ok_inv h
      split at h
      · exact fin h
      obtain ⟨it, -, h⟩ := bind_ok_inv h
      split at h
      · exact fin h
      obtain ⟨⟨p, ec, w⟩, hp, h⟩ := bind_ok_inv h
      simp only at h
      split at h
      · simp only [Outcome.pure_eq, Outcome.ok.injEq, Prod.mk.injEq] at h
        rw [← h.1]
        obtain ⟨-, k, h2, h3, -⟩ := construct_spec clk S.rightFirst t.tick p.ev
        exact .quiet rfl (by simp only; omega) rfl
      · exact Step.trans (fa_tell S clk S.rightFirst t w p.ev) (ih _ _ _ _ _ h)

theorem faRecv_step {σ} (S : Fa.Sys σ) (clk : Nat → Int) (r : In.ReadAns) (t t' : T (Fa.St σ)) (res : Result)
    (h : faRecv S clk r t = .ok (t', res)) : Step faOut clk t t' := by
  unfold faRecv at h
  cases r with
  | err b => cases b <;> (simp only [Outcome.ok.injEq, Prod.mk.injEq] at h; rw [h.1]; exact .refl _)
  | data mem =>
    have h0 : Step faOut clk t { t with st := { t.st with buf := mem ++ t.st.buf.drop mem.length } } := .quiet rfl (Nat.le_refl _) rfl
    exact h0.trans (faLoop_step _ _ _ _ _ _ _ _ h)

theorem faMark_step {σ} (S : Fa.Sys σ) (clk : Nat → Int) (d : Str) (t : T (Fa.St σ)) : Step faOut clk t (faMark S clk d t) := by
  unfold faMark
  rcases fa_doMark_out S d t.st with ⟨hr, x, ho⟩ | ⟨hr, ho⟩
  · simp only [if_pos hr]; exact Step.message (by simp only [faOut]; rw [ho]; simp)
  · simp only [if_neg hr]; exact .quiet rfl (Nat.le_refl _) (by simp only [faOut]; rw [ho])

/-! ### A whole thread -/

theorem inDeeds_told {σ} (S : In.Sys σ) (clk : Nat → Int) (rf : Bool) (ds : List (Deed σ)) : ∀ (t t' : T (In.St σ)) (n0 : Nat),
    inDeeds S clk rf ds t = .ok t' → Told clk n0 t.out t.tick → Told clk n0 t'.out t'.tick := by
  induction ds with
  | nil => intro t t' n0 h ht; simp only [inDeeds, Outcome.ok.injEq] at h; rw [← h]; exact ht
  | cons d ds ih =>
    intro t t' n0 h ht
    obtain ⟨u, h1, h2⟩ := bind_ok_inv h
    refine ih u t' n0 h2 ?_
    cases d with
    | msg e => simp only [inDeed, Outcome.ok.injEq] at h1; rw [← h1]; exact told_msg ht e
    | mark d => simp only [inDeed, Outcome.ok.injEq] at h1; rw [← h1]; exact (inMark_step S clk d t).told n0 ht
    | read r =>
      obtain ⟨⟨v, res⟩, h3, h4⟩ := bind_ok_inv h1
      simp only [Outcome.pure_eq, Outcome.ok.injEq] at h4
      rw [← h4]; exact (inRecv_step S clk rf r t v res h3).told n0 ht
    | world w => simp only [inDeed, Outcome.ok.injEq] at h1; rw [← h1]; exact ht

theorem faDeeds_told {σ} (S : Fa.Sys σ) (clk : Nat → Int) (ds : List (Deed σ)) : ∀ (t t' : T (Fa.St σ)) (n0 : Nat),
    faDeeds S clk ds t = .ok t' → Told clk n0 t.out t.tick → Told clk n0 t'.out t'.tick := by
  induction ds with
  | nil => intro t t' n0 h ht; simp only [faDeeds, Outcome.ok.injEq] at h; rw [← h]; exact ht
  | cons d ds ih =>
    intro t t' n0 h ht
    obtain ⟨u, h1, h2⟩ := bind_ok_inv h
    refine ih u t' n0 h2 ?_
    cases d with
    | msg e => simp only [faDeed, Outcome.ok.injEq] at h1; rw [← h1]; exact told_msg ht e
    | mark d => simp only [faDeed, Outcome.ok.injEq] at h1; rw [← h1]; exact (faMark_step S clk d t).told n0 ht
    | read r =>
      obtain ⟨⟨v, res⟩, h3, h4⟩ := bind_ok_inv h1
      simp only [Outcome.pure_eq, Outcome.ok.injEq] at h4
      rw [← h4]; exact (faRecv_step S clk r t v res h3).told n0 ht
    | world w => simp only [faDeed, Outcome.ok.injEq] at h1; rw [← h1]; exact ht

/-! ### What follows for the times -/

theorem Told.range {clk n0 l n} (h : Told clk n0 l n) : n0 ≤ n ∧ ∀ e ∈ l, (∃ k, n0 ≤ k ∧ k < n ∧ e.time = clk k ∧
    ∀ a, e.assoc = some a → ∃ j, n0 ≤ j ∧ j ≤ k ∧ a.time = clk j) := by
  induction h with
  | nil h => exact ⟨h, nofun⟩
  | @one l n k e m h hk hm he ha ih =>
    refine ⟨by omega, fun x hx => ?_⟩
    rcases List.mem_append.1 hx with hx | hx
    · obtain ⟨j, h1, h2, h3⟩ := ih.2 x hx
      exact ⟨j, h1, by omega, h3⟩
    · rw [List.mem_singleton] at hx; subst hx
      exact ⟨k, by omega, hm, he, fun a h => by obtain ⟨j, h1, h2, h3⟩ := ha a h; exact ⟨j, by omega, h2, h3⟩⟩
  | @late l n k1 k2 w e m h h1 h2 hm hw hwa he ha hu ih =>
    refine ⟨by omega, fun x hx => ?_⟩
    rcases List.mem_append.1 hx with hx | hx
    · obtain ⟨j, h1, h2, h3⟩ := ih.2 x hx
      exact ⟨j, h1, by omega, h3⟩
    · rcases List.mem_cons.1 hx with rfl | hx
      · exact ⟨k2, by omega, hm, hw, fun a h => by rw [hwa] at h; cases h⟩
      · rw [List.mem_singleton] at hx; subst hx
        exact ⟨k1, by omega, by omega, he, fun a h => by obtain ⟨j, h1, h2, h3⟩ := ha a h; exact ⟨j, by omega, h2, h3⟩⟩

theorem Told.inOrderBut {clk n0 l n} (hs : Steady clk) (h : Told clk n0 l n) : InOrderBut l := by
  induction h with
  | nil h => intro i j a b _ ha; simp at ha
  | @one l n k e m h hk hm he ha ih =>
    intro i j a b hij hi hj hlt
    rw [List.getElem?_append] at hi hj
    by_cases hjl : j < l.length
    · rw [if_pos hjl] at hj; rw [if_pos (by omega)] at hi
      exact ih i j a b hij hi hj hlt
    · rw [if_neg hjl] at hj
      have : j - l.length = 0 := by
        cases h0 : j - l.length with
        | zero => rfl
        | succ x => rw [h0] at hj; simp at hj
      rw [this] at hj; simp at hj; subst hj
      rw [if_pos (by omega)] at hi
      obtain ⟨q, -, h1, h2, -⟩ := h.range.2 a (List.mem_of_getElem? hi)
      have := hs q k (by omega)
      omega
  | @late l n k1 k2 w e m h h1 h2 hm hw hwa he ha hu ih =>
    intro i j a b hij hi hj hlt
    rw [List.getElem?_append] at hi hj
    by_cases hjl : j < l.length
    · rw [if_pos hjl] at hj; rw [if_pos (by omega)] at hi
      exact ih i j a b hij hi hj hlt
    · rw [if_neg hjl] at hj
      have old : i < l.length → b.time = clk k1 ∨ b.time = clk k2 → False := by
        intro hil hb
        rw [if_pos hil] at hi
        obtain ⟨q, -, h3, h4, -⟩ := h.range.2 a (List.mem_of_getElem? hi)
        have := hs q k1 (by omega)
        have := hs q k2 (by omega)
        omega
      match hjx : j - l.length with
      | 0 =>
        rw [hjx] at hj; simp at hj; subst hj
        exact (old (by omega) (Or.inr hw)).elim
      | 1 =>
        rw [hjx] at hj; simp at hj; subst hj
        by_cases hil : i < l.length
        · exact (old hil (Or.inl he)).elim
        · rw [if_neg hil, show i - l.length = 0 by omega] at hi
          simp at hi; subst hi
          exact ⟨by omega, hu⟩
      | x + 2 => rw [hjx] at hj; simp at hj

end Verif.Lemmas.Time
