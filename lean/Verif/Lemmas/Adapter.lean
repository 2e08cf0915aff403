import Verif.Model.Adapter
import Verif.Spec.Lifecycle
/-! Lemmas about the whole Linux watch. -/
namespace Verif.Lemmas.Ad
open Verif Verif.Model Verif.Model.Ad Verif.Model.Life

/-! ### What back ends hand over -/

theorem mid_warn (r : Result) (p : Str) (h : r.str.head? = some 119) : isMid (sendMsg r p) = true := by
  have : (sendMsg r p).path.head? = some 119 := by
    simp only [sendMsg]
    cases hr : r.str with
    | nil => rw [hr] at h; cases h
    | cons a b => rw [hr] at h; simpa using h
  simp [isMid, this]
  right
  simp [sendMsg]

theorem mid_entry (p : Str) (e : EffectType) (t : PathType) (a : Option Half) (h : t ≠ .watcher) :
    isMid ⟨p, e, t, a⟩ = true := by
  simp [isMid, h]

/-- Appending possible deliveries only. -/
def Grows (o o' : List Ev) : Prop := ∃ new, o' = o ++ new ∧ new.all isMid = true

theorem Grows.refl (o : List Ev) : Grows o o := ⟨[], by simp, rfl⟩
theorem Grows.trans {a b c : List Ev} (h1 : Grows a b) (h2 : Grows b c) : Grows a c := by
  obtain ⟨x, rfl, hx⟩ := h1
  obtain ⟨y, rfl, hy⟩ := h2
  exact ⟨x ++ y, by simp, by simp only [List.all_append, hx, hy, Bool.and_self]⟩
theorem Grows.one (o : List Ev) {e : Ev} (h : isMid e = true) : Grows o (o ++ [e]) := ⟨[e], rfl, by simp [h]⟩

/-! ### inotify -/

theorem in_doMark_grows {σ} (S : In.Sys σ) (d : Str) (st : In.St σ) : Grows st.out (In.doMark S d st).1.out := by
  unfold In.doMark
  have hw : isMid (sendMsg .wNotWatched d) = true := mid_warn _ _ rfl
  rcases h1 : S.realpath st.sys d with ⟨_ | real, w⟩
  · simp only [In.St.send]; exact Grows.one _ hw
  · simp only
    rcases h2 : S.isDir w real with ⟨_ | _, w2⟩
    · simp only [In.St.send]; exact Grows.one _ hw
    · rcases h3 : S.addWatch w2 real with ⟨wd, w3⟩
      simp only
      split
      · exact Grows.refl _
      · simp only [In.St.send]; exact Grows.one _ hw

theorem bind_ok_inv {α β} {x : Outcome α} {f : α → Outcome β} {b : β} (h : (x >>= f) = .ok b) :
    ∃ a, x = .ok a ∧ f a = .ok b := by
  cases x with
  | ok a => exact ⟨a, rfl, h⟩
  | ub w => cases h

theorem in_parseEv_mid (mem : List UInt8) (dir : Str) (o tail : Nat) (ev : Ev) (n : Option Nat)
    (h : In.parseEv mem dir o tail = .ok (ev, n)) : isMid ev = true := by
  unfold In.parseEv at h
  obtain ⟨mask, _, h⟩ := bind_ok_inv h
  obtain ⟨next, _, h⟩ := bind_ok_inv h
  have hpt : In.ptypeOf mask ≠ .watcher := by unfold In.ptypeOf; split <;> simp
  have hone : ∀ {r : Ev × Option Nat}, (In.fName mem o >>= fun n =>
      (pure (({ path := pathJoin dir n, effect := In.effectOf mask, ptype := In.ptypeOf mask } : Ev), next) : Outcome (Ev × Option Nat))) = Outcome.ok r →
      isMid r.1 = true := by
    intro r hr
    obtain ⟨nm, _, hr⟩ := bind_ok_inv hr
    cases hr
    exact mid_entry _ _ _ _ hpt
  have hassoc : ∀ (a b : Nat) {r : Ev × Option Nat}, (In.fName mem a >>= fun na => In.fName mem b >>= fun nb =>
      In.peek mem b tail >>= fun nn =>
      (pure ((⟨pathJoin dir na, In.effectOf mask, In.ptypeOf mask, some ⟨pathJoin dir nb, In.effectOf mask, In.ptypeOf mask⟩⟩ : Ev), nn) : Outcome (Ev × Option Nat))) = Outcome.ok r →
      isMid r.1 = true := by
    intro a b r hr
    obtain ⟨_, _, hr⟩ := bind_ok_inv hr
    obtain ⟨_, _, hr⟩ := bind_ok_inv hr
    obtain ⟨_, _, hr⟩ := bind_ok_inv hr
    cases hr
    exact mid_entry _ _ _ _ hpt
  cases next with
  | none => exact hone h
  | some b =>
    obtain ⟨cb, _, h⟩ := bind_ok_inv h
    obtain ⟨ca, _, h⟩ := bind_ok_inv h
    split at h
    · obtain ⟨mb, _, h⟩ := bind_ok_inv h
      split at h
      · exact hassoc _ _ h
      · split at h
        · exact hassoc _ _ h
        · exact hone h
    · exact hone h

theorem in_loop_grows {σ} (S : In.Sys σ) (mem : List UInt8) (left : Nat) (o : Option Nat) (st st' : In.St σ)
    (r : Result) (h : In.loop S mem left o st = .ok (st', r)) :
    Grows st.out st'.out ∧ isRecvResult r = true := by
  induction left generalizing o st with
  | zero =>
    cases o with
    | none => simp only [In.loop] at h; cases h; exact ⟨Grows.refl _, rfl⟩
    | some o =>
      rw [In.loop.eq_def] at h
      simp only at h
      split at h
      · obtain ⟨_, _, h⟩ := bind_ok_inv h
        obtain ⟨_, _, h⟩ := bind_ok_inv h
        obtain ⟨_, _, h⟩ := bind_ok_inv h
        cases h; exact ⟨Grows.refl _, rfl⟩
      · cases h; exact ⟨Grows.refl _, rfl⟩
  | succ left ih =>
    cases o with
    | none => simp only [In.loop] at h; cases h; exact ⟨Grows.refl _, rfl⟩
    | some o =>
      rw [In.loop.eq_def] at h
      simp only at h
      split at h
      · obtain ⟨next, _, h⟩ := bind_ok_inv h
        obtain ⟨msk, _, h⟩ := bind_ok_inv h
        obtain ⟨wd, _, h⟩ := bind_ok_inv h
        split at h
        · cases h; exact ⟨Grows.refl _, rfl⟩
        · have hout : (if In.isParityLost msk = true then { st with rm := st.rm ++ [wd] } else st).out = st.out := by
            split <;> rfl
          generalize (if In.isParityLost msk = true then { st with rm := st.rm ++ [wd] } else st) = st1 at h hout
          split at h
          · have := ih _ _ h
            refine ⟨Grows.trans ?_ this.1, this.2⟩
            simp only [In.St.send, hout]
            exact Grows.one _ (mid_warn _ _ rfl)
          · rename_i dir _
            split at h
            · have := ih _ _ h
              refine ⟨Grows.trans ?_ this.1, this.2⟩
              simp only [In.St.send, hout]
              exact Grows.one _ (mid_warn _ _ rfl)
            · split at h
              · obtain ⟨⟨ev, nx⟩, hp, h⟩ := bind_ok_inv h
                simp only at h
                have := ih _ _ h
                refine ⟨Grows.trans ?_ this.1, this.2⟩
                have hm := in_parseEv_mid _ _ _ _ _ _ hp
                simp only [In.St.send]
                refine Grows.trans ?_ (Grows.one _ hm)
                rw [← hout]
                split
                · exact in_doMark_grows _ _ _
                · exact Grows.refl _
              · have := ih _ _ h
                rw [hout] at this
                exact this
      · cases h; exact ⟨Grows.refl _, rfl⟩

theorem in_recv_grows {σ} (S : In.Sys σ) (a : In.ReadAns) (st st' : In.St σ) (r : Result)
    (h : In.doEvRecv S a st = .ok (st', r)) : Grows st.out st'.out ∧ isRecvResult r = true := by
  unfold In.doEvRecv at h
  cases a with
  | err e => cases e <;> (simp only at h; cases h; exact ⟨Grows.refl _, rfl⟩)
  | data mem =>
    obtain ⟨⟨s1, r1⟩, hl, h⟩ := bind_ok_inv h
    cases h
    exact in_loop_grows S mem _ _ { st with rm := [] } s1 _ hl

/-! ### fanotify -/

def Fa.evs {σ} (st : Fa.St σ) : List Ev := st.out.map (·.1)

theorem fa_send {σ} (st : Model.Fa.St σ) (e : Ev) : Fa.evs (st.send e) = Fa.evs st ++ [e] := by
  simp [Fa.evs, Model.Fa.St.send]

theorem fa_doMark_grows {σ} (S : Model.Fa.Sys σ) (d : Str) (st : Model.Fa.St σ) :
    Grows (Fa.evs st) (Fa.evs (Model.Fa.doMark S d st).1) := by
  unfold Model.Fa.doMark
  have hw : isMid (sendMsg .wNotWatched d) = true := mid_warn _ _ rfl
  rcases h1 : S.realpath st.sys d with ⟨_ | real, w⟩
  · simp only [fa_send]; exact Grows.one _ hw
  · simp only
    rcases h2 : S.isDir w real with ⟨_ | _, w2⟩
    · simp only [fa_send]; exact Grows.one _ hw
    · simp only
      rcases h3 : S.mark w2 real with ⟨_ | _, w3⟩
      · simp only [fa_send]; exact Grows.one _ hw
      · exact Grows.refl _

theorem fa_parseEv_mid {σ} (S : Model.Fa.Sys σ) (buf : List UInt8) (m : Nat) (len : Int) (ec ec' : Nat) (w w' : σ)
    (p : Model.Fa.Parsed) (h : Model.Fa.parseEv S buf m len ec w = .ok (p, ec', w')) : isMid p.ev = true := by
  unfold Model.Fa.parseEv at h
  obtain ⟨n, _, h⟩ := bind_ok_inv h
  obtain ⟨mask, _, h⟩ := bind_ok_inv h
  have hpt : Model.Fa.ptypeOf mask ≠ .watcher := by unfold Model.Fa.ptypeOf; split <;> simp
  have hone : ∀ nn, Model.Fa.parseOne S buf m (Model.Fa.effectOf mask) (Model.Fa.ptypeOf mask) nn ec w = .ok (p, ec', w') →
      isMid p.ev = true := by
    intro nn hr
    unfold Model.Fa.parseOne at hr
    obtain ⟨_, _, hr⟩ := bind_ok_inv hr
    obtain ⟨_, _, hr⟩ := bind_ok_inv hr
    cases hr
    exact mid_entry _ _ _ _ hpt
  have hassoc : ∀ a b, Model.Fa.parseAssoc S buf a b (Model.Fa.effectOf mask) (Model.Fa.ptypeOf mask) len ec w = .ok (p, ec', w') →
      isMid p.ev = true := by
    intro a b hr
    unfold Model.Fa.parseAssoc at hr
    obtain ⟨_, _, hr⟩ := bind_ok_inv hr
    obtain ⟨_, _, hr⟩ := bind_ok_inv hr
    obtain ⟨_, _, hr⟩ := bind_ok_inv hr
    obtain ⟨_, _, hr⟩ := bind_ok_inv hr
    cases hr
    exact mid_entry _ _ _ _ hpt
  cases n with
  | none => exact hone _ h
  | some b =>
    obtain ⟨_, _, h⟩ := bind_ok_inv h
    split at h
    · exact hassoc _ _ h
    · split at h
      · exact hassoc _ _ h
      · exact hone _ h

theorem fa_loop_grows {σ} (S : Model.Fa.Sys σ) (left : Nat) (o : Option Nat) (len : Int) (st st' : Model.Fa.St σ)
    (r : Result) (h : Model.Fa.loop S left o len st = .ok (st', r)) :
    Grows (Fa.evs st) (Fa.evs st') ∧ isRecvResult r = true := by
  induction left generalizing o len st with
  | zero =>
    cases o with
    | none => rw [Model.Fa.loop.eq_def] at h; cases h; exact ⟨Grows.refl _, rfl⟩
    | some o =>
      rw [Model.Fa.loop.eq_def] at h
      obtain ⟨ok, _, h⟩ := bind_ok_inv h
      cases ok <;> (simp at h; obtain ⟨rfl, rfl⟩ := h; exact ⟨Grows.refl _, rfl⟩)
  | succ left ih =>
    cases o with
    | none => rw [Model.Fa.loop.eq_def] at h; cases h; exact ⟨Grows.refl _, rfl⟩
    | some o =>
      rw [Model.Fa.loop.eq_def] at h
      obtain ⟨ok, _, h⟩ := bind_ok_inv h
      split at h
      · cases h; exact ⟨Grows.refl _, rfl⟩
      · simp only at h
        obtain ⟨vers, _, h⟩ := bind_ok_inv h
        split at h
        · cases h; exact ⟨Grows.refl _, rfl⟩
        · obtain ⟨fd, _, h⟩ := bind_ok_inv h
          split at h
          · cases h; exact ⟨Grows.refl _, rfl⟩
          · obtain ⟨mask, _, h⟩ := bind_ok_inv h
            split at h
            · cases h; exact ⟨Grows.refl _, rfl⟩
            · obtain ⟨it, _, h⟩ := bind_ok_inv h
              split at h
              · cases h; exact ⟨Grows.refl _, rfl⟩
              · obtain ⟨⟨p, ec, w⟩, hp, h⟩ := bind_ok_inv h
                simp only at h
                split at h
                · cases h; exact ⟨Grows.refl _, rfl⟩
                · have := ih _ _ _ h
                  refine ⟨Grows.trans ?_ this.1, this.2⟩
                  rw [fa_send]
                  refine Grows.trans ?_ (Grows.one _ (fa_parseEv_mid _ _ _ _ _ _ _ _ _ hp))
                  unfold Model.Fa.doMarkIfNewdir
                  split
                  · exact fa_doMark_grows S p.ev.path { st with sys := w }
                  · exact Grows.refl _

theorem fa_recv_grows {σ} (S : Model.Fa.Sys σ) (a : In.ReadAns) (st st' : Model.Fa.St σ) (r : Result)
    (h : Model.Fa.doEvRecv S a st = .ok (st', r)) : Grows (Fa.evs st) (Fa.evs st') ∧ isRecvResult r = true := by
  unfold Model.Fa.doEvRecv at h
  cases a with
  | err e => cases e <;> (simp only at h; cases h; exact ⟨Grows.refl _, rfl⟩)
  | data mem => exact fa_loop_grows S _ _ _ { st with buf := mem ++ st.buf.drop mem.length } st' r h

/-! ### Opening -/

theorem makeEp_il (e : Fds.EpAns) (h : e.ctlIl = false) : (Fds.makeEp e).1 < 0 := by
  unfold Fds.makeEp
  by_cases hc : 0 ≤ e.create
  · simp [h, hc]
  · simp only [h, Bool.and_false, Bool.not_false, hc, decide_false]
    simp
    omega

theorem openFa_ok {σ} (S : Model.Fa.Sys σ) (a : OpenAns) (w : σ) :
    Grows [] (Fa.evs (openFa S a w).1) ∧ isOpenResult false (openFa S a w).2 = true ∧
    (a.ep.ctlIl = false → (openFa S a w).2.isError = true) ∧
    ((openFa S a w).2 = .eFanotify → (openFa S a w).1.out = []) := by
  unfold openFa
  have hg : ∀ (ds : List Str) (st : Model.Fa.St σ),
      Grows (Fa.evs st) (Fa.evs (ds.foldl (fun st d => (Model.Fa.doMark S d st).1) st)) := by
    intro ds
    induction ds with
    | nil => intro st; exact Grows.refl _
    | cons d ds ih => intro st; exact Grows.trans (fa_doMark_grows S d st) (ih _)
  cases a.root with
  | false => exact ⟨Grows.refl _, rfl, fun _ => rfl, fun _ => rfl⟩
  | true =>
    simp only [Bool.not_true, Bool.false_eq_true, if_false]
    by_cases hi : a.initFd < 1
    · rw [if_pos hi]; exact ⟨Grows.refl _, rfl, fun _ => rfl, fun _ => rfl⟩
    · rw [if_neg hi]
      refine ⟨hg _ { buf := List.replicate Model.Fa.bufLen 0, sys := w }, ?_, ?_, ?_⟩
      · simp only [Fds.faMake, if_neg hi]
        split <;> rfl
      · intro hil
        have := makeEp_il a.ep hil
        simp only [Fds.faMake, if_neg hi]
        rw [if_pos (by omega)]
        rfl
      · simp only [Fds.faMake, if_neg hi]
        split <;> (intro h; cases h)

/-! ### Receiving -/

theorem drop_map_evs {σ} (st st' : Model.Fa.St σ) (new : List Ev) (h : Fa.evs st' = Fa.evs st ++ new) :
    (st'.out.drop st.out.length).map (·.1) = new := by
  unfold Fa.evs at h
  rw [List.map_drop, h]
  simp

theorem recv_ok {σ} (E : Env σ) (b b' : Back σ) (r : In.ReadAns) (evs : List Ev) (res : Result)
    (hb : ∀ w, b ≠ .none w) (h : recv E b r = .ok (b', evs, res)) :
    b'.out = b.out ++ evs ∧ evs.all isMid = true ∧ isRecvResult res = true ∧ (∀ w, b' ≠ .none w) := by
  cases b with
  | none w => exact absurd rfl (hb w)
  | fa st =>
    obtain ⟨⟨st', r'⟩, h1, h2⟩ := bind_ok_inv h
    cases h2
    obtain ⟨⟨new, hn, hm⟩, hr⟩ := fa_recv_grows _ _ _ _ _ h1
    simp only [drop_map_evs st st' new hn]
    exact ⟨hn, hm, hr, fun w hw => by cases hw⟩
  | inn st =>
    obtain ⟨⟨st', r'⟩, h1, h2⟩ := bind_ok_inv h
    cases h2
    obtain ⟨⟨new, hn, hm⟩, hr⟩ := in_recv_grows _ _ _ _ _ h1
    simp only [hn, List.drop_left']
    exact ⟨hn, hm, hr, fun w hw => by cases hw⟩

/-- All events of a wake-up's entries. -/
def itemEvs (is : List Item) : List Ev := is.flatMap Spec.evsOf

theorem recvAll_ok {σ} (E : Env σ) (ws : List Waked) (b b' : Back σ) (items : List Item)
    (hb : ∀ w, b ≠ .none w) (h : recvAll E b ws = .ok (b', items)) :
    b'.out = b.out ++ itemEvs items ∧ itemsOk items = true ∧ (∀ w, b' ≠ .none w) ∧
    (hasIl items = true ↔ Waked.il ∈ ws) := by
  induction ws generalizing b items with
  | nil => cases h; exact ⟨by simp [itemEvs], rfl, hb, by simp [hasIl]⟩
  | cons x ws ih =>
    cases x with
    | il =>
      obtain ⟨⟨b2, is⟩, h1, h2⟩ := bind_ok_inv h
      cases h2
      obtain ⟨a1, a2, a3, a4⟩ := ih _ _ hb h1
      exact ⟨by simpa [itemEvs, Spec.evsOf] using a1, by simpa [itemsOk] using a2, a3, by simp [hasIl]⟩
    | unknown =>
      obtain ⟨⟨b2, is⟩, h1, h2⟩ := bind_ok_inv h
      cases h2
      obtain ⟨a1, a2, a3, a4⟩ := ih _ _ hb h1
      refine ⟨by simpa [itemEvs, Spec.evsOf] using a1, by simpa [itemsOk] using a2, a3, ?_⟩
      simpa [hasIl] using a4
    | ke r =>
      obtain ⟨⟨b1, evs, res⟩, h1, h2⟩ := bind_ok_inv h
      obtain ⟨⟨b2, is⟩, h3, h4⟩ := bind_ok_inv h2
      cases h4
      obtain ⟨c1, c2, c3, c4⟩ := recv_ok _ _ _ _ _ _ hb h1
      obtain ⟨a1, a2, a3, a4⟩ := ih _ _ c4 h3
      refine ⟨?_, ?_, a3, ?_⟩
      · rw [a1, c1]; simp [itemEvs, Spec.evsOf]
      · simp only [itemsOk, c2, c3, a2, Bool.and_self]
      · simpa [hasIl] using a4

end Verif.Lemmas.Ad
