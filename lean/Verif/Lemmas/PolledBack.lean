import Verif.Lemmas.PolledEnd
/-! What the two back ends of `Model/Polled.lean` deliver, in terms of `Model/Warthog.lean` and `Model/Windows.lean`. -/
namespace Verif.Lemmas.Poll
open Verif Verif.Model Verif.Model.Poll Verif.Spec.Poll

/-- Induction over what a back end does. -/
theorem plays_ind {B : Backend} {P : B.ι → List B.ι → List B.ε → (B.σ ⊕ Bool) → Prop}
    (h0 : ∀ i es x, B.start i = some (es, x) → P i [] es x)
    (h1 : ∀ i is j es s es' x, P i is es (.inl s) → B.turn s j = some (es', x) → P i (is ++ [j]) (es ++ es') x) :
    ∀ i is es x, plays B (i :: is) = some (es, x) → P i is es x := by
  intro i is es x h
  have main : ∀ (is done : List B.ι) (r : List B.ε × (B.σ ⊕ Bool)), P i done r.1 r.2 →
      ∀ es x, is.foldl (fun acc i => acc.bind fun r => match r.2 with
        | .inl s => (B.turn s i).map fun q => (r.1 ++ q.1, q.2)
        | .inr _ => none) (some r) = some (es, x) → P i (done ++ is) es x := by
    intro is
    induction is with
    | nil => intro done r hr es x h; injection h with h; subst h; simpa using hr
    | cons j js ih =>
      intro done r hr es x h
      obtain ⟨r1, r2⟩ := r
      cases r2 with
      | inr b =>
        exfalso
        simp only [List.foldl_cons, Option.bind_some] at h
        have : ∀ js : List B.ι, js.foldl (fun (acc : Option (List B.ε × (B.σ ⊕ Bool))) i => acc.bind fun r => match r.2 with
          | .inl s => (B.turn s i).map fun q => (r.1 ++ q.1, q.2)
          | .inr _ => none) none = none := by
          intro js; induction js with
          | nil => rfl
          | cons _ _ ih => simpa using ih
        rw [this] at h; cases h
      | inl s =>
        simp only [List.foldl_cons, Option.bind_some] at h
        cases ht : B.turn s j with
        | none =>
          exfalso
          rw [ht] at h
          have : ∀ js : List B.ι, js.foldl (fun (acc : Option (List B.ε × (B.σ ⊕ Bool))) i => acc.bind fun r => match r.2 with
            | .inl s => (B.turn s i).map fun q => (r.1 ++ q.1, q.2)
            | .inr _ => none) none = none := by
            intro js; induction js with
            | nil => rfl
            | cons _ _ ih => simpa using ih
          rw [Option.map_none, this] at h; cases h
        | some q =>
          rw [ht] at h
          have := ih (done ++ [j]) (r1 ++ q.1, q.2) (h1 i done j r1 s q.1 q.2 hr ht) es x h
          simpa using this
  simp only [plays] at h
  cases hs : B.start i with
  | none => rw [hs] at h; cases h
  | some r =>
    rw [hs] at h
    simpa using main is [] r (h0 i r.1 r.2 hs) es x h

/-! ### The scanner -/

theorem pairs_append : ∀ (l : List Warthog.World), l.length % 2 = 0 → ∀ (a b : Warthog.World), pairs (l ++ [a, b]) = pairs l ++ [(a, b)]
  | [], _, a, b => rfl
  | [x], h, _, _ => by simp at h
  | x :: y :: r, h, a, b => by
    have := pairs_append r (by simp only [List.length_cons] at h; omega) a b
    simp [pairs, this]

theorem watch_snoc (ps : List (Warthog.World × Warthog.World)) (p) : Warthog.watch (ps ++ [p]) = Warthog.pass (Warthog.watch ps) p.1 p.2 := by
  simp [Warthog.watch, List.foldl_append]

theorem tend_true (w : Warthog.World) (b b' : Warthog.Bucket) (es : List Ev) : Warthog.tend w b ≠ .done b' es false := by
  unfold Warthog.tend
  split
  · split
    · simp
    · simp
    · rename_i h1 h2
      intro h
      rcases h3 : Warthog.populate w b with ⟨x, y, z⟩ | _ | _
      · cases z
        · exact h2 _ _ h3
        · exact h1 _ _ h3
      · rw [h3] at h; cases h
      · rw [h3] at h; cases h
  · simp

/-- Where the scanner is and what it has delivered. -/
def ScanAt (_i : Warthog.World) (is : List Warthog.World) (es : List Ev) (x : (Warthog.Bucket × Bool) ⊕ Bool) : Prop :=
  match x with
  | .inl (b, false) => is.length % 2 = 0 ∧ Warthog.watch (pairs is) = .going b es
  | .inl (b, true) => ∃ is' w b0 out e1, is = is' ++ [w] ∧ is'.length % 2 = 0 ∧ Warthog.watch (pairs is') = .going b0 out ∧
      Warthog.tend w b0 = .done b e1 true ∧ es = out ++ e1
  | .inr r => r = false ∧ is.length % 2 = 0 ∧ Warthog.watch (pairs is) = .ended es

theorem scan_step (i : Warthog.World) (is : List Warthog.World) (j : Warthog.World) (es : List Ev) (s : Warthog.Bucket × Bool) (es' : List Ev)
    (x : (Warthog.Bucket × Bool) ⊕ Bool) (h : ScanAt i is es (.inl s)) (ht : scanner.turn s j = some (es', x)) : ScanAt i (is ++ [j]) (es ++ es') x := by
    obtain ⟨b, t⟩ := s
    cases t with
    | false =>
      obtain ⟨hl, hw⟩ := h
      simp only [scanner, Bool.false_eq_true, if_false] at ht
      cases hte : Warthog.tend j b with
      | done b1 e1 ok =>
        cases ok with
        | false => exact absurd hte (tend_true _ _ _ _)
        | true =>
          rw [hte] at ht
          injection ht with ht; injection ht with h1 h2; subst h1; subst h2
          exact ⟨is, j, b, es, e1, rfl, hl, hw, hte, rfl⟩
      | terminated e => rw [hte] at ht; cases ht
      | undefined => rw [hte] at ht; cases ht
    | true =>
      obtain ⟨is', w, b0, out, e1, rfl, hl, hw, hte, rfl⟩ := h
      simp only [scanner, if_true] at ht
      have hp := pairs_append is' hl w j
      have hlen : (is' ++ [w] ++ [j]).length % 2 = 0 := by simp; omega
      have hwt : Warthog.watch (pairs (is' ++ [w] ++ [j])) = Warthog.pass (.going b0 out) w j := by
        rw [List.append_assoc, List.singleton_append, hp, watch_snoc, hw]
      cases hsc : Warthog.scan j b with
      | done b2 e2 ok =>
        cases ok with
        | true =>
          rw [hsc] at ht
          injection ht with ht; injection ht with h1 h2; subst h1; subst h2
          exact ⟨hlen, by rw [hwt]; simp [Warthog.pass, hte, hsc, List.append_assoc]⟩
        | false =>
          rw [hsc] at ht
          injection ht with ht; injection ht with h1 h2; subst h1; subst h2
          exact ⟨rfl, hlen, by rw [hwt]; simp [Warthog.pass, hte, hsc, List.append_assoc]⟩
      | terminated e => rw [hsc] at ht; cases ht
      | undefined => rw [hsc] at ht; cases ht

theorem scan_at (i : Warthog.World) (is : List Warthog.World) (es : List Ev) (x) (h : plays scanner (i :: is) = some (es, x)) : ScanAt i is es x := by
  refine plays_ind (B := scanner) (P := ScanAt) ?_ (fun i is j es s es' x h ht => scan_step i is j es s es' x h ht) i is es x h
  intro i es x h
  simp only [scanner] at h
  injection h with h; injection h with h1 h2; subst h1; subst h2
  exact ⟨rfl, rfl⟩

theorem scanFiles_types : ∀ (es : List Warthog.Entry) (b : Warthog.Bucket), ∀ e ∈ (Warthog.scanFiles b es).2, e.ptype = .file
  | [], _, _, h => by simp [Warthog.scanFiles] at h
  | x :: xs, b, e, h => by
    simp only [Warthog.scanFiles, List.mem_append] at h
    rcases h with h | h
    · unfold Warthog.scanFile at h
      split at h
      · split at h
        · simp at h; rw [h]
        · split at h
          · simp at h; rw [h]
          · split at h <;> simp at h
            rw [h]
      · simp at h
    · exact scanFiles_types xs _ e h

theorem scanFile_types (x : Warthog.Entry) (b : Warthog.Bucket) : ∀ e ∈ (Warthog.scanFile b x).2.1, e.ptype = .file := by
  intro e h
  refine scanFiles_types [x] b e ?_
  simp [Warthog.scanFiles, h]

theorem prune_types (w : Warthog.World) : ∀ (b : Warthog.Bucket), ∀ e ∈ (Warthog.prune w b).2, e.ptype ≠ .watcher
  | [], _, h => by simp [Warthog.prune] at h
  | (p, t) :: b, e, h => by
    have hr : Warthog.rootType w ≠ .watcher := by unfold Warthog.rootType; split <;> (try split) <;> simp
    simp only [Warthog.prune] at h
    split at h
    · exact prune_types w b e h
    · simp only [List.mem_cons] at h
      rcases h with rfl | h
      · exact hr
      · exact prune_types w b e h

theorem populate_silent {w : Warthog.World} {b b' : Warthog.Bucket} {es : List Ev} {ok : Bool} (h : Warthog.populate w b = .done b' es ok) : es = [] := by
  unfold Warthog.populate at h
  split at h
  · injection h with _ h2 _; exact h2.symm
  · split at h <;> cases h
  · simp only at h
    split at h
    · cases h
    · split at h
      · cases h
      · injection h with _ h2 _; exact h2.symm

theorem tend_types {w : Warthog.World} {b b' : Warthog.Bucket} {es : List Ev} {ok : Bool} (h : Warthog.tend w b = .done b' es ok) : ∀ e ∈ es, e.ptype ≠ .watcher := by
  unfold Warthog.tend at h
  split at h
  · cases hp : Warthog.populate w b with
    | done b1 e1 k =>
      have := populate_silent hp
      subst this
      rw [hp] at h
      cases k with
      | true => simp only at h; injection h with _ h2 _; subst h2; simp
      | false =>
        simp only at h; injection h with _ h2 _; subst h2
        intro e he
        exact prune_types w b1 e (by simpa using he)
    | terminated e => rw [hp] at h; cases h
    | undefined => rw [hp] at h; cases h
  · injection h with _ h2 _; subst h2; simp

theorem scan_types {w : Warthog.World} {b b' : Warthog.Bucket} {es : List Ev} {ok : Bool} (h : Warthog.scan w b = .done b' es ok) : ∀ e ∈ es, e.ptype ≠ .watcher := by
  unfold Warthog.scan at h
  split at h
  · injection h with _ h2 _; subst h2; simp
  · injection h with _ h2 _; subst h2
    intro e he; rw [scanFile_types _ _ e he]; simp
  · simp only at h
    split at h
    · cases h
    · injection h with _ h2 _; subst h2
      intro e he; rw [scanFiles_types _ _ e he]; simp

/-- The scanner's events are never about the watcher itself. -/
theorem scanner_types : ∀ i is es x, plays scanner (i :: is) = some (es, x) → ∀ e ∈ es, Ev.ptype e ≠ .watcher := by
  refine plays_ind (B := scanner) (P := fun _ _ (es : List Ev) _ => ∀ e ∈ es, e.ptype ≠ .watcher) ?_ ?_
  · intro i es x h
    simp only [scanner] at h
    injection h with h; injection h with h1 h2; subst h1; simp
  · rintro i is j es ⟨b, t⟩ es' x h ht
    have key : ∀ e ∈ es', Ev.ptype e ≠ .watcher := by
      cases t with
      | false =>
        simp only [scanner, Bool.false_eq_true, if_false] at ht
        cases hte : Warthog.tend j b with
        | done b1 e1 ok =>
          rw [hte] at ht
          cases ok <;> (injection ht with ht; injection ht with h1 h2; subst h1; exact tend_types hte)
        | terminated e => rw [hte] at ht; cases ht
        | undefined => rw [hte] at ht; cases ht
      | true =>
        simp only [scanner, if_true] at ht
        cases hte : Warthog.scan j b with
        | done b1 e1 ok =>
          rw [hte] at ht
          cases ok <;> (injection ht with ht; injection ht with h1 h2; subst h1; exact scan_types hte)
        | terminated e => rw [hte] at ht; cases ht
        | undefined => rw [hte] at ht; cases ht
    intro e he
    rcases List.mem_append.1 he with he | he
    · exact h e he
    · exact key e he

/-! ### Windows -/

/-- All the answers are used up. -/
def pumpAll (w : Windows.Win) : List Windows.ReadAnswer → Option Windows.Win
  | [] => some w
  | a :: as => if w.valid && w.ready != 0 then pumpAll (Windows.recv (Windows.send w) a) as else none

theorem pumpAll_snoc : ∀ (rs : List Windows.ReadAnswer) (w w' : Windows.Win) (a), pumpAll w rs = some w' → (w'.valid && w'.ready != 0) = true →
    pumpAll w (rs ++ [a]) = some (Windows.recv (Windows.send w') a)
  | [], w, w', a, h, hc => by injection h with h; subst h; simp only [List.nil_append, pumpAll]; rw [if_pos hc]
  | r :: rs, w, w', a, h, hc => by
    simp only [pumpAll, List.cons_append] at h ⊢
    split at h
    · rename_i hw; rw [if_pos hw]; exact pumpAll_snoc rs _ _ a h hc
    · cases h

theorem pumpAll_pump : ∀ (rs : List Windows.ReadAnswer) (w w' : Windows.Win), pumpAll w rs = some w' → (w'.valid && w'.ready != 0) = false →
    Windows.pump w rs = some w'
  | [], w, w', h, hc => by injection h with h; subst h; simp only [Windows.pump]; rw [hc]; rfl
  | r :: rs, w, w', h, hc => by
    simp only [pumpAll, Windows.pump] at h ⊢
    split at h
    · rename_i hw; rw [if_pos hw]; exact pumpAll_pump rs _ _ h hc
    · cases h

theorem said_split (w : Windows.Win) (a : Windows.ReadAnswer) : ∃ S, (Windows.recv (Windows.send w) a).said = w.said ++ S ∧
    Windows.recv (Windows.send { w with said := [] }) a = { Windows.recv (Windows.send w) a with said := S } := by
  cases hv : w.valid <;> cases a <;> simp [Windows.recv, Windows.send, hv]

def isRead : WinAns → Bool
  | .read _ => true
  | _ => false

theorem reads_append (l : List WinAns) (x : WinAns) (l' : List WinAns) (hx : isRead x = false) : reads (l ++ x :: l') = reads l := by
  induction l with
  | nil => cases x <;> simp [isRead] at hx <;> simp [reads]
  | cons y l ih => cases y <;> simp [reads, ih]

theorem group_append (l : List WinAns) (x : WinAns) (l' : List WinAns) (hx : isRead x = false) : group (l ++ x :: l') = group l ++ group (x :: l') := by
  induction l with
  | nil => simp [group]
  | cons y l ih =>
    cases y with
    | completion c =>
      cases c with
      | none => simp only [List.cons_append, group, ih]
      | some p => obtain ⟨n, evs⟩ := p; simp only [List.cons_append, group, ih, reads_append l x l' hx]
    | _ => simp only [List.cons_append, group, ih]

theorem reads_map (rs : List Windows.ReadAnswer) : reads (rs.map .read) = rs := by
  induction rs with
  | nil => rfl
  | cons r rs ih => simp [reads, ih]

theorem group_reads (rs : List Windows.ReadAnswer) : group (rs.map .read) = [] := by
  induction rs with
  | nil => rfl
  | cons r rs ih => simp [group, ih]

theorem turns_snoc : ∀ (cs : List Windows.Completion) (w w' w'' : Windows.Win) (c), Windows.turns w cs = some w' → Windows.turn w' c = some w'' →
    Windows.turns w (cs ++ [c]) = some w''
  | [], w, w', w'', c, h, hc => by injection h with h; subst h; simp [Windows.turns, hc]
  | x :: cs, w, w', w'', c, h, hc => by
    simp only [Windows.turns, List.cons_append] at h ⊢
    cases ht : Windows.turn w x with
    | none => rw [ht] at h; cases h
    | some w1 => rw [ht] at h; exact turns_snoc cs w1 w' w'' c h hc

def outside (w : Windows.Win) : Windows.Win := { w with said := [] }

/-- Where Windows is and what it has delivered. -/
def WinIs (i : WinAns) (is : List WinAns) (es : List Windows.Said) (x : (Windows.Win × WinAt) ⊕ Bool) : Prop :=
  match x with
  | .inr r => r = false ∧ is = [] ∧ es = [] ∧ ∃ a, i = .opened false a
  | .inl (w, .first) => ∃ a, i = .opened true a ∧ group is = [] ∧ (∀ x ∈ is, x = .none) ∧ w = outside (Windows.start a) ∧
      ((w.valid && w.ready != 0) = false → es = (Windows.start a).said)
  | .inl (w, .outer) => ∃ a w', i = .opened true a ∧ Windows.turns (Windows.start a) (group is) = some w' ∧ es = w'.said ∧ w = outside w'
  | .inl (w, .inner) => ∃ a is' n evs rs w0 w', i = .opened true a ∧ is = is' ++ .completion (some (n, evs)) :: rs.map .read ∧
      Windows.turns (Windows.start a) (group is') = some w0 ∧ w0.armed = true ∧
      pumpAll { w0 with armed := false, ready := n, evs := evs } rs = some w' ∧ es = w'.said ∧ w = outside w'

theorem win_start (i : WinAns) (es : List Windows.Said) (x : (Windows.Win × WinAt) ⊕ Bool) (h : windows.start i = some (es, x)) : WinIs i [] es x := by
    cases i with
    | opened v a =>
      cases v with
      | false => simp only [windows] at h; injection h with h; injection h with h1 h2; subst h1; subst h2; exact ⟨rfl, rfl, rfl, a, rfl⟩
      | true =>
        simp only [windows] at h; injection h with h; injection h with h1 h2; subst h1; subst h2
        exact ⟨a, rfl, rfl, fun x hx => by simp at hx, rfl, fun _ => rfl⟩
    | _ => simp [windows] at h

theorem win_step (i : WinAns) (is : List WinAns) (j : WinAns) (es : List Windows.Said) (s : Windows.Win × WinAt) (es' : List Windows.Said)
    (x : (Windows.Win × WinAt) ⊕ Bool) (h : WinIs i is es (.inl s)) (ht : windows.turn s j = some (es', x)) : WinIs i (is ++ [j]) (es ++ es') x := by
    obtain ⟨w, at'⟩ := s
    cases at' with
    | first =>
      obtain ⟨a, rfl, hg, hn, rfl, hes⟩ := h
      cases j with
      | none =>
        simp only [windows] at ht
        have hg' : group (is ++ [.none]) = [] := by rw [group_append is _ [] rfl, hg]; rfl
        split at ht
        · rename_i hc
          injection ht with ht; injection ht with h1 h2; subst h1; subst h2
          refine ⟨a, rfl, hg', ?_, rfl, fun h => by rw [hc] at h; cases h⟩
          intro x hx
          rcases List.mem_append.1 hx with hx | hx
          · exact hn x hx
          · simpa using hx
        · rename_i hc
          injection ht with ht; injection ht with h1 h2; subst h1; subst h2
          refine ⟨a, _, rfl, by rw [hg']; rfl, ?_, rfl⟩
          simp only [List.append_nil]
          exact hes (by simpa using hc)
      | _ => simp [windows] at ht
    | outer =>
      obtain ⟨a, w', rfl, htu, rfl, rfl⟩ := h
      cases j with
      | completion c =>
        cases c with
        | none =>
          simp only [windows] at ht
          injection ht with ht; injection ht with h1 h2; subst h1; subst h2
          refine ⟨a, w', rfl, ?_, by simp, rfl⟩
          rw [group_append is _ [] rfl]
          exact turns_snoc _ _ _ _ _ htu rfl
        | some p =>
          obtain ⟨n, evs⟩ := p
          simp only [windows] at ht
          split at ht
          · rename_i harm
            injection ht with ht; injection ht with h1 h2; subst h1; subst h2
            exact ⟨a, is, n, evs, [], w', _, rfl, rfl, htu, harm, rfl, by simp, rfl⟩
          · cases ht
      | failed =>
        simp only [windows] at ht
        split at ht
        · rename_i harm
          injection ht with ht; injection ht with h1 h2; subst h1; subst h2
          refine ⟨a, { w' with armed := false }, rfl, ?_, by simp, rfl⟩
          rw [group_append is _ [] rfl]
          exact turns_snoc _ _ _ _ _ htu (by simpa [Windows.turn, outside] using harm)
        · cases ht
      | _ => simp [windows] at ht
    | inner =>
      obtain ⟨a, is', n, evs, rs, w0, w', rfl, rfl, htu, harm, hp, rfl, rfl⟩ := h
      cases j with
      | none =>
        simp only [windows] at ht
        split at ht
        · cases ht
        · rename_i hc
          injection ht with ht; injection ht with h1 h2; subst h1; subst h2
          refine ⟨a, w', rfl, ?_, by simp, rfl⟩
          have : group (is' ++ .completion (some (n, evs)) :: rs.map .read ++ [.none]) = group is' ++ [.done n evs rs] := by
            rw [List.append_assoc, List.cons_append, group_append is' _ _ rfl, group, reads_append _ _ _ rfl, group_append _ _ _ rfl, reads_map, group_reads]
            rfl
          rw [this]
          refine turns_snoc _ _ _ _ _ htu ?_
          simp only [Windows.turn, harm, if_true]
          exact pumpAll_pump _ _ _ hp (by simpa [outside] using hc)
      | read b =>
        simp only [windows] at ht
        split at ht
        · rename_i hc
          injection ht with ht; injection ht with h1 h2; subst h1; subst h2
          obtain ⟨S, hS1, hS2⟩ := said_split w' b
          refine ⟨a, is', n, evs, rs ++ [b], w0, Windows.recv (Windows.send w') b, rfl, by simp, htu, harm, pumpAll_snoc rs _ _ b hp (by simpa [outside] using hc), ?_, ?_⟩
          · rw [hS1]; simp only [outside]; rw [hS2]
          · simp only [outside]; rw [hS2]
        · cases ht
      | _ => simp [windows] at ht

theorem win_is (i : WinAns) (is : List WinAns) (es : List Windows.Said) (x) (h : plays windows (i :: is) = some (es, x)) : WinIs i is es x :=
  plays_ind (B := windows) (P := WinIs) (fun i es x h => win_start i es x h) (fun i is j es s es' x h ht => win_step i is j es s es' x h ht) i is es x h

/-- Nothing is kept back, and what is held are file events. -/
def Fair (i : WinAns) (is : List WinAns) (es : List Windows.Said) (x : (Windows.Win × WinAt) ⊕ Bool) : Prop :=
  FileEvents i → (∀ j ∈ is, FileEvents j) →
    (∀ e, Windows.Said.ev e ∈ es → e.ptype ≠ .watcher) ∧ (∀ (w : Windows.Win) a, x = Sum.inl (w, a) → w.said = [] ∧ ∀ e ∈ w.evs, e.ptype ≠ .watcher)

theorem fair_recv (w : Windows.Win) (a : Windows.ReadAnswer) (hs : w.said = []) (he : ∀ e ∈ w.evs, e.ptype ≠ .watcher) (ha : FileEvents (.read a)) :
    (∀ e, Windows.Said.ev e ∈ (Windows.recv (Windows.send w) a).said → e.ptype ≠ .watcher) ∧ ∀ e ∈ (Windows.recv (Windows.send w) a).evs, e.ptype ≠ .watcher := by
  have hse : (∀ e, Windows.Said.ev e ∈ (Windows.send w).said → e.ptype ≠ .watcher) ∧ (Windows.send w).evs = w.evs := by
    unfold Windows.send
    split
    · refine ⟨?_, rfl⟩
      intro e h
      simp [hs] at h
      exact he e h
    · exact ⟨by simp [hs], rfl⟩
  unfold Windows.recv
  simp only
  split
  · cases a with
    | ok n evs => exact ⟨hse.1, by simpa [FileEvents] using ha⟩
    | pendingError => exact ⟨fun e h => by simp at h; exact hse.1 e h, by simpa [hse.2] using he⟩
    | otherError => exact ⟨fun e h => by simp at h; exact hse.1 e h, by simpa [hse.2] using he⟩
  · exact ⟨hse.1, by simpa [hse.2] using he⟩

theorem fair_start (i : WinAns) (es : List Windows.Said) (x : (Windows.Win × WinAt) ⊕ Bool) (h : windows.start i = some (es, x)) : Fair i [] es x := by
  intro hi _
  cases i with
  | opened v a =>
    cases v with
    | false =>
      simp only [windows] at h; injection h with h; injection h with h1 h2; subst h1; subst h2
      exact ⟨fun e h => by simp at h, fun w a h => by cases h⟩
    | true =>
      simp only [windows] at h; injection h with h; injection h with h1 h2; subst h1; subst h2
      cases a with
      | ok n evs =>
        refine ⟨fun e h => by simp [Windows.start, Windows.recv] at h, fun w a h => ?_⟩
        injection h with h; injection h with h1 h2; subst h1
        exact ⟨rfl, by simpa [Windows.start, Windows.recv, FileEvents] using hi⟩
      | pendingError =>
        refine ⟨fun e h => by simp [Windows.start, Windows.recv] at h, fun w a h => ?_⟩
        injection h with h; injection h with h1 h2; subst h1
        exact ⟨rfl, by simp [Windows.start, Windows.recv]⟩
      | otherError =>
        refine ⟨fun e h => by simp [Windows.start, Windows.recv] at h, fun w a h => ?_⟩
        injection h with h; injection h with h1 h2; subst h1
        exact ⟨rfl, by simp [Windows.start, Windows.recv]⟩
  | _ => simp [windows] at h

theorem fair_step (i : WinAns) (is : List WinAns) (j : WinAns) (es : List Windows.Said) (s : Windows.Win × WinAt) (es' : List Windows.Said)
    (x : (Windows.Win × WinAt) ⊕ Bool) (h : Fair i is es (.inl s)) (ht : windows.turn s j = some (es', x)) : Fair i (is ++ [j]) (es ++ es') x := by
  obtain ⟨w, at'⟩ := s
  intro hi hf
  obtain ⟨h1, h2⟩ := h hi (fun j hj => hf j (by simp [hj]))
  obtain ⟨h3, h2'⟩ := h2 w at' rfl
  have hj := hf j (by simp)
  have key : (∀ e, Windows.Said.ev e ∈ es' → e.ptype ≠ .watcher) ∧ (∀ (w : Windows.Win) a, x = Sum.inl (w, a) → w.said = [] ∧ ∀ e ∈ w.evs, e.ptype ≠ .watcher) := by
    have nothing : ∀ (v : Windows.Win) (b : WinAt), v.said = [] → (∀ e ∈ v.evs, e.ptype ≠ .watcher) →
        some (([] : List Windows.Said), (Sum.inl (v, b) : (Windows.Win × WinAt) ⊕ Bool)) = some (es', x) →
        (∀ e, Windows.Said.ev e ∈ es' → e.ptype ≠ .watcher) ∧ (∀ (w : Windows.Win) a, x = Sum.inl (w, a) → w.said = [] ∧ ∀ e ∈ w.evs, e.ptype ≠ .watcher) := by
      intro v b hn hv h
      injection h with h; injection h with k1 k2; subst k1; subst k2
      refine ⟨by simp, ?_⟩
      intro w a h; injection h with h; injection h with h1 h2; subst h1; exact ⟨hn, hv⟩
    cases at' with
    | first =>
      cases j with
      | none =>
        simp only [windows] at ht
        split at ht
        · injection ht with ht; injection ht with k1 k2; subst k1; subst k2
          refine ⟨?_, ?_⟩
          · intro e he
            unfold Windows.send at he
            split at he
            · simp [h3] at he; exact h2' e he
            · simp [h3] at he
          · intro w a h; injection h with h; injection h with h1 h2; subst h1; exact ⟨h3, h2'⟩
        · exact nothing _ _ h3 h2' ht
      | _ => simp [windows] at ht
    | outer =>
      cases j with
      | completion c =>
        cases c with
        | none => exact nothing w .outer h3 h2' ht
        | some p =>
          obtain ⟨n, evs⟩ := p
          simp only [windows] at ht
          split at ht
          · exact nothing { w with armed := false, ready := n, evs := evs } _ h3 (by simpa [FileEvents] using hj) ht
          · cases ht
      | failed =>
        simp only [windows] at ht
        split at ht
        · exact nothing { w with armed := false } _ h3 h2' ht
        · cases ht
      | _ => simp [windows] at ht
    | inner =>
      cases j with
      | none =>
        simp only [windows] at ht
        split at ht
        · cases ht
        · exact nothing _ _ h3 h2' ht
      | read b =>
        simp only [windows] at ht
        split at ht
        · rename_i hc
          injection ht with ht; injection ht with k1 k2; subst k1; subst k2
          obtain ⟨k1, k2⟩ := fair_recv w b h3 h2' hj
          refine ⟨k1, ?_⟩
          intro w a h; injection h with h; injection h with h1 h2; subst h1; exact ⟨rfl, k2⟩
        · cases ht
      | _ => simp [windows] at ht
  refine ⟨?_, key.2⟩
  intro e he
  rcases List.mem_append.1 he with he | he
  · exact h1 e he
  · exact key.1 e he

/-- On Windows, what is delivered looks like a message about the watcher only for the two messages about reading. -/
theorem windows_types (i : WinAns) (is : List WinAns) (es : List Windows.Said) (x) (hi : FileEvents i) (hf : ∀ j ∈ is, FileEvents j)
    (h : plays windows (i :: is) = some (es, x)) : ∀ e, Windows.Said.ev e ∈ es → e.ptype ≠ .watcher :=
  (plays_ind (B := windows) (P := Fair) (fun i es x h => fair_start i es x h) (fun i is j es s es' x h ht => fair_step i is j es s es' x h ht) i is es x h hi hf).1

theorem plays_good (is : List WinAns) (es : List Windows.Said) (b : Windows.Win × WinAt) (hq : ∀ i ∈ is, Queued i) (h : plays windows is = some (es, .inl b)) : winGood b := by
  cases is with
  | nil => simp [plays] at h
  | cons i is =>
    have hw := win_is i is es _ h
    obtain ⟨w, at'⟩ := b
    intro ha
    simp only at ha
    subst ha
    obtain ⟨a, rfl, _, _, rfl, _⟩ := hw
    have := hq (.opened true a) (List.mem_cons_self ..)
    cases a with
    | ok n evs => simp only [Queued] at this; subst this; simp [outside, Windows.start, Windows.recv]
    | pendingError => simp [outside, Windows.start, Windows.recv]
    | otherError => simp [outside, Windows.start, Windows.recv]

theorem win_good {d : Bool} {is : List WinAns} {s : St windows} (hi : Inv d is s) (hq : ∀ i ∈ is, Queued i) : GoodAt winGood s.w := by
  have hs := hi.shape
  unfold Shape at hs
  unfold GoodAt
  cases hp : place s.w with
  | head b => rw [hp] at hs; obtain ⟨done, _, h, _⟩ := hs; exact plays_good is done b hq h
  | turn b => rw [hp] at hs; obtain ⟨done, _, h, _⟩ := hs; exact plays_good is done b hq h
  | deliver es n =>
    rw [hp] at hs
    cases n with
    | inl b => obtain ⟨done, _, h, _⟩ := hs; exact plays_good is _ b hq h
    | inr r => trivial
  | _ => trivial

end Verif.Lemmas.Poll
