import Verif.Lemmas.Inotify2
import Verif.Spec.Kernel
/-! Whole histories with the inotify back end. -/
namespace Verif.Lemmas.Ker
open Verif Verif.Model Verif.Model.In Verif.Model.Ker Verif.Spec Verif.Lemmas.In

/-! ### Records of changes -/

/-- `r` is the record of change `c`. -/
structure Shows (h : Table) (c : Change) (r : Rec) : Prop where
  eq : r = recOf r.wd c.kind c.name c.onDir
  known : h.lookup r.wd = some c.known
  name : okName c.name = true

private theorem dirBit (m : BitVec 32) (k : Nat) (hk : k < 30) : (m ||| 0x40000000#32).getLsbD k = m.getLsbD k := by
  rw [BitVec.getLsbD_or]
  have : ∀ k : Fin 30, (0x40000000#32).getLsbD k.val = false := by decide
  rw [this ⟨k, hk⟩, Bool.or_false]

private theorem bitOf (wd : Int) (kd : Kind) (n : Str) (od : Bool) (k : Nat) (hk : k < 30) :
    (recOf wd kd n od).mask.getLsbD k = kd.mask.getLsbD k := by
  cases od
  · rfl
  · exact dirBit _ _ hk

theorem bits_of (wd : Int) (kd : Kind) (n : Str) (od : Bool) :
    (recOf wd kd n od).modified = decide (kd = .modify) ∧
    (recOf wd kd n od).created = decide (kd = .create) ∧
    (recOf wd kd n od).deleted = decide (kd = .delete) ∧
    (recOf wd kd n od).movedFrom = (match kd with | .moveFrom _ => true | _ => false) ∧
    (recOf wd kd n od).movedTo = (match kd with | .moveTo _ => true | _ => false) ∧
    (recOf wd kd n od).deleteSelf = false ∧ (recOf wd kd n od).moveSelf = false ∧
    (recOf wd kd n od).ignored = false ∧ (recOf wd kd n od).overflow = false ∧
    (recOf wd kd n od).onDir = od := by
  refine ⟨?_, ?_, ?_, ?_, ?_, ?_, ?_, ?_, ?_, ?_⟩
  · exact (bitOf wd kd n od 1 (by omega)).trans (by cases kd <;> simp [Kind.mask])
  · exact (bitOf wd kd n od 8 (by omega)).trans (by cases kd <;> simp [Kind.mask])
  · exact (bitOf wd kd n od 9 (by omega)).trans (by cases kd <;> simp [Kind.mask])
  · exact (bitOf wd kd n od 6 (by omega)).trans (by cases kd <;> simp [Kind.mask])
  · exact (bitOf wd kd n od 7 (by omega)).trans (by cases kd <;> simp [Kind.mask])
  · exact (bitOf wd kd n od 10 (by omega)).trans (by cases kd <;> simp [Kind.mask])
  · exact (bitOf wd kd n od 11 (by omega)).trans (by cases kd <;> simp [Kind.mask])
  · exact (bitOf wd kd n od 15 (by omega)).trans (by cases kd <;> simp [Kind.mask])
  · exact (bitOf wd kd n od 14 (by omega)).trans (by cases kd <;> simp [Kind.mask])
  · cases od
    · cases kd <;> simp [Rec.onDir, Rec.bit, recOf, Kind.mask]
    · show (kd.mask ||| 0x40000000#32).getLsbD 30 = true
      rw [BitVec.getLsbD_or]
      have : (0x40000000#32).getLsbD 30 = true := by decide
      rw [this, Bool.or_true]

theorem recOf_reportable (wd : Int) (kd : Kind) (n : Str) (od : Bool) : (recOf wd kd n od).reportable = true := by
  obtain ⟨h1, h2, h3, h4, h5, h6, h7, h8, h9, h10⟩ := bits_of wd kd n od
  simp only [Rec.reportable, h1, h2, h3, h4, h5, h6, h7, h8]
  cases kd <;> simp

theorem recOf_event (wd : Int) (c : Change) (d : Str) :
    (recOf wd c.kind c.name c.onDir).event d = Ker.event c d := by
  obtain ⟨h1, h2, h3, h4, h5, h6, h7, h8, h9, h10⟩ := bits_of wd c.kind c.name c.onDir
  simp only [Rec.event, Rec.effect, Rec.ptype, h2, h3, h4, h5, h10, Ker.event]
  cases c.kind <;> simp [recOf]

theorem recOf_wf (wd : Int) (kd : Kind) (n : Str) (od : Bool) (hw : 0 < wd ∧ wd < 2147483648) (hn : okName n = true) :
    (recOf wd kd n od).WF := by
  obtain ⟨h1, h2, h3, h4, h5, h6, h7, h8, h9, h10⟩ := bits_of wd kd n od
  simp only [okName, Bool.and_eq_true, bne_iff_ne, ne_eq, decide_eq_true_eq, Bool.not_eq_true',
    List.contains_eq_mem, decide_eq_false_iff_not] at hn
  obtain ⟨⟨⟨hn1, hn2⟩, hn3⟩, hn4⟩ := hn
  refine ⟨?_, ?_, ?_, ?_, ?_, ?_, ?_, ?_⟩
  · simp only [recOf]; omega
  · simp only [recOf]; omega
  · exact hn3
  · exact hn4
  · intro _; simp only [recOf]; omega
  · rw [h6, h7, h8]; intro h; cases h
  · intro _; exact hn1
  · rw [h9]; intro h; cases h

theorem recOf_cookie (wd : Int) (kd : Kind) (n : Str) (od : Bool) : (recOf wd kd n od).cookie = kd.cookie := rfl

/-- Two modifications of one file. -/
structure SameMod (c c' : Change) : Prop where
  kind : c.kind = .modify
  kind' : c'.kind = .modify
  name : c'.name = c.name
  onDir : c'.onDir = c.onDir
  known : c'.known = c.known

/-- Pending records tell pending changes. -/
inductive Pend (h : Table) : List Change → List Rec → Prop
  | nil : Pend h [] []
  | skip (r : Rec) {l q} : r.reportable = false ∧ r.cookie = 0#32 → Pend h l q → Pend h l (r :: q)
  | one (c : Change) (r : Rec) {l q} : Shows h c r → Pend h l q → Pend h (c :: l) (r :: q)
  | again (c c' : Change) {l q} : SameMod c c' → Pend h (c :: l) q → Pend h (c' :: c :: l) q

theorem pend_split {h : Table} {L : List Change} {x : List Rec} (hp : Pend h L x) :
    ∀ rs q, x = rs ++ q → ∃ L1 L2, L = L1 ++ L2 ∧ Pend h L1 rs ∧ Pend h L2 q := by
  induction hp with
  | nil =>
    intro rs q e
    have := List.append_eq_nil_iff.1 e.symm
    rw [this.1, this.2]
    exact ⟨[], [], rfl, .nil, .nil⟩
  | @skip r l q0 hr hp ih =>
    intro rs q e
    cases rs with
    | nil => rw [List.nil_append] at e; subst e; exact ⟨[], l, rfl, .nil, .skip r hr hp⟩
    | cons r' rs =>
      rw [List.cons_append] at e; injection e with e1 e2; subst e1
      obtain ⟨L1, L2, h1, h2, h3⟩ := ih rs q e2
      exact ⟨L1, L2, h1, .skip r hr h2, h3⟩
  | @one c r l q0 hr hp ih =>
    intro rs q e
    cases rs with
    | nil => rw [List.nil_append] at e; subst e; exact ⟨[], c :: l, rfl, .nil, .one c r hr hp⟩
    | cons r' rs =>
      rw [List.cons_append] at e; injection e with e1 e2; subst e1
      obtain ⟨L1, L2, h1, h2, h3⟩ := ih rs q e2
      exact ⟨c :: L1, L2, by rw [h1]; rfl, .one c r hr h2, h3⟩
  | @again c c0 l q0 hc hp ih =>
    intro rs q e
    obtain ⟨L1, L2, h1, h2, h3⟩ := ih rs q e
    cases L1 with
    | nil => rw [List.nil_append] at h1; rw [← h1] at h3; exact ⟨[], _, rfl, h2, .again c c0 hc h3⟩
    | cons c' L1 =>
      rw [List.cons_append] at h1; injection h1 with e1 e2; subst e1
      exact ⟨c0 :: c :: L1, L2, by rw [e2]; rfl, .again c c0 hc h2, h3⟩

theorem pend_append {h : Table} {L : List Change} {q : List Rec} (hp : Pend h L q) {L' q'} (hp' : Pend h L' q') :
    Pend h (L ++ L') (q ++ q') := by
  induction hp with
  | nil => exact hp'
  | skip r hr _ ih => exact .skip r hr ih
  | one c r hr _ ih => exact .one c r hr ih
  | again c c0 hc _ ih => exact .again c c0 hc ih

theorem pend_mono {h h' : Table} (hm : ∀ wd p, h.lookup wd = some p → h'.lookup wd = some p) {L q}
    (hp : Pend h L q) : Pend h' L q := by
  induction hp with
  | nil => exact .nil
  | skip r hr _ ih => exact .skip r hr ih
  | one c r hr _ ih => exact .one c r ⟨hr.eq, hm _ _ hr.known, hr.name⟩ ih
  | again c c0 hc _ ih => exact .again c c0 hc ih

/-- The change of the last pending record. -/
theorem pend_last {h : Table} {L : List Change} {x : List Rec} (hp : Pend h L x) :
    ∀ q r, x = q ++ [r] → r.reportable = true → ∃ L' c, L = L' ++ [c] ∧ Shows h c r := by
  induction hp with
  | nil => intro q r e; simp at e
  | @skip r0 l q0 hr hp ih =>
    intro q r e hrep
    cases q with
    | nil => simp at e; rw [e.1, hrep] at hr; exact absurd hr.1 (by simp)
    | cons r' q =>
      rw [List.cons_append] at e; injection e with e1 e2
      exact ih q r e2 hrep
  | @one c r0 l q0 hs hp ih =>
    intro q r e hrep
    cases q with
    | nil =>
      simp at e
      obtain ⟨e1, e2⟩ := e
      subst e1; subst e2
      have : ∀ {l : List Change} {q : List Rec}, Pend h l q → q = [] → l = [] := by
        intro l q hp
        induction hp with
        | nil => intro _; rfl
        | skip => intro h; cases h
        | one => intro h; cases h
        | again c c0 _ _ ih => intro h; have := ih h; cases this
      have := this hp rfl
      subst this
      exact ⟨[], c, rfl, hs⟩
    | cons r' q =>
      rw [List.cons_append] at e; injection e with e1 e2
      obtain ⟨L', c', h1, h2⟩ := ih q r e2 hrep
      exact ⟨c :: L', c', by rw [h1]; rfl, h2⟩
  | @again c c0 l q0 hc hp ih =>
    intro q r e hrep
    obtain ⟨L', c', h1, h2⟩ := ih q r e hrep
    exact ⟨c0 :: L', c', by rw [h1]; rfl, h2⟩

theorem pend_head {h : Table} {L : List Change} {x : List Rec} (hp : Pend h L x) :
    ∀ r q, x = r :: q → r.reportable = true → ∃ c l, L = c :: l ∧ Shows h c r := by
  induction hp with
  | nil => intro r q e; cases e
  | skip r0 hr _ _ => intro r q e hrep; cases e; rw [hrep] at hr; exact absurd hr.1 (by simp)
  | one c r0 hs _ _ => intro r q e hrep; cases e; exact ⟨_, _, rfl, hs⟩
  | again c c0 hc _ ih =>
    intro r q e hrep
    obtain ⟨c', l, h1, h2⟩ := ih r q e hrep
    cases h1
    refine ⟨c0, _, rfl, ?_, ?_, ?_⟩
    · rw [hc.kind', hc.name, hc.onDir, ← hc.kind]; exact h2.eq
    · rw [hc.known]; exact h2.known
    · rw [hc.name]; exact h2.name

theorem pend_empty {h : Table} {L : List Change} {q : List Rec} (hp : Pend h L q) (hq : ∀ r ∈ q, r.reportable = false) :
    L = [] := by
  induction hp with
  | nil => rfl
  | skip r hr _ ih => exact ih (fun x hx => hq x (by simp [hx]))
  | one c r hs _ _ =>
    have := hq r (by simp)
    rw [hs.eq, recOf_reportable] at this; cases this
  | again c c0 _ _ ih => have := ih hq; cases this

/-- Records with the same cookie are the halves of one rename, in order; if `l`, inside one directory. -/
def Linked (l : Bool) (a b : Rec) : Prop :=
  a.cookie ≠ 0#32 → a.cookie = b.cookie → a.movedTo = false ∧ b.movedFrom = false ∧ (l = true → a.wd = b.wd) ∧ a.onDir = b.onDir

/-- `Tells` and `TellsOld` at once. -/
inductive TellsL (l : Bool) (path : Change → Str) : List Change → List Ev → Prop
  | nil : TellsL l path [] []
  | one (c : Change) {L es} : TellsL l path L es → TellsL l path (c :: L) (Ker.event c (path c) :: es)
  | both (a b : Change) {L es} (id : BitVec 32) : a.kind = .moveFrom id → b.kind = .moveTo id →
      (l = true → path b = path a) →
      TellsL l path L es → TellsL l path (a :: b :: L) (Ker.renamed a b (path a) (path a) :: es)
  | again (c c' : Change) {L es} : c.kind = .modify → c'.kind = .modify → c'.name = c.name → c'.onDir = c.onDir →
      path c' = path c → TellsL l path (c :: L) es → TellsL l path (c' :: c :: L) es

theorem TellsL.tells {path L es} (h : TellsL true path L es) : Tells path L es := by
  induction h with
  | nil => exact .nil
  | one c _ ih => exact .one c ih
  | both a b id h1 h2 h3 _ ih =>
    have := Tells.both (path := path) a b id h1 h2 ih
    rw [h3 rfl] at this; exact this
  | again c c' h1 h2 h3 h4 h5 _ ih => exact .again c c' h1 h2 h3 h4 h5 ih

theorem TellsL.old {l path L es} (h : TellsL l path L es) : TellsOld path L es := by
  induction h with
  | nil => exact .nil
  | one c _ ih => exact .one c ih
  | both a b id h1 h2 h3 _ ih => exact .both a b id h1 h2 ih
  | again c c' h1 h2 h3 h4 h5 _ ih => exact .again c c' h1 h2 h3 h4 h5 ih

theorem linked_ordered {l : Bool} : ∀ {q : List Rec}, q.Pairwise (Linked l) → Ordered q := by
  intro q
  induction q with
  | nil => intro _; trivial
  | cons a q ih =>
    intro h
    cases q with
    | nil => trivial
    | cons b q =>
      rw [List.pairwise_cons] at h
      refine ⟨?_, ih h.2⟩
      rintro ⟨h1, h2, h3, h4⟩
      have := h.1 b (by simp) h3 h4
      rw [this.1] at h1; cases h1

/-- What is due for pending records tells their changes. -/
theorem pend_tells {l : Bool} {h t : Table} : ∀ {L : List Change} {rs : List Rec}, Pend h L rs → rs.Pairwise (Linked l) →
    (∀ r ∈ rs, r.reportable = true → t.lookup r.wd = h.lookup r.wd) → TellsL l (·.known) L (due t rs) := by
  suffices ∀ n (L : List Change) (rs : List Rec), L.length + rs.length ≤ n → Pend h L rs → rs.Pairwise (Linked l) →
      (∀ r ∈ rs, r.reportable = true → t.lookup r.wd = h.lookup r.wd) → TellsL l (·.known) L (due t rs) from
    fun {L rs} hp => this _ L rs (Nat.le_refl _) hp
  intro n
  induction n with
  | zero =>
    intro L rs hn hp _ _
    cases hp with
    | nil => exact .nil
    | skip => simp at hn
    | one => simp at hn
    | again => simp at hn
  | succ n ih =>
    intro L rs hn hp hpw hk
    cases hp with
    | nil => exact .nil
    | @skip r L' q hr hp =>
      simp only [List.length_cons] at hn
      have : due t (r :: q) = due t q := by rw [due.eq_def]; simp [hr.1]
      rw [this]
      exact ih _ _ (by omega) hp (List.pairwise_cons.1 hpw).2 (fun x hx => hk x (by simp [hx]))
    | @again c c0 L' q hc hp =>
      simp only [List.length_cons] at hn
      exact .again c c0 hc.kind hc.kind' hc.name hc.onDir hc.known (ih _ _ (by simp; omega) hp hpw hk)
    | @one c r L' q hs hp =>
      simp only [List.length_cons] at hn
      have hrep : r.reportable = true := by rw [hs.eq]; exact recOf_reportable ..
      have hkr := hk r (by simp) hrep
      rw [hs.known] at hkr
      have hev : r.event c.known = Ker.event c c.known := by rw [hs.eq]; exact recOf_event ..
      have hq := (List.pairwise_cons.1 hpw).2
      have hk' : ∀ x ∈ q, x.reportable = true → t.lookup x.wd = h.lookup x.wd := fun x hx => hk x (by simp [hx])
      rcases alone_or r q with ha | ⟨r2, q2, rfl, ha⟩
      · have : due t (r :: q) = r.event c.known :: due t q := by
          rw [due.eq_def]
          cases q with
          | nil => simp [hrep, hkr, due]
          | cons r2 q => simp [hrep, hkr, ha r2 q rfl]
        rw [this, hev]
        exact .one c (ih _ _ (by omega) hp hq hk')
      · have hren : r.renamedTo r2 = true := ha
        simp only [Rec.renamedTo, Bool.and_eq_true, bne_iff_ne, ne_eq, beq_iff_eq] at ha
        obtain ⟨⟨⟨⟨_, hck⟩, hcc⟩, hfr⟩, hto⟩ := ha
        have hlink := (List.pairwise_cons.1 hpw).1 r2 (by simp) hck hcc
        have : due t (r :: r2 :: q2) = pairEvent r r2 c.known c.known :: due t q2 := by
          rw [due]; simp [hrep, hkr, hren]
        rw [this]
        -- the kind of the first
        have hkind : c.kind = .moveFrom c.kind.cookie := by
          rw [hs.eq] at hfr
          have := (bits_of r.wd c.kind c.name c.onDir).2.2.2.1
          rw [this] at hfr
          cases hkd : c.kind <;> rw [hkd] at hfr <;> simp at hfr
          rfl
        -- the second record
        cases hp with
        | @skip _ _ _ hr2 hp =>
          rw [hcc] at hck; exact absurd hr2.2 hck
        | @one c2 _ l2 _ hs2 hp2 =>
          simp only [List.length_cons] at hn
          have hkind2 : c2.kind = .moveTo c2.kind.cookie := by
            rw [hs2.eq] at hto
            have := (bits_of r2.wd c2.kind c2.name c2.onDir).2.2.2.2.1
            rw [this] at hto
            cases hkd : c2.kind <;> rw [hkd] at hto <;> simp at hto
            rfl
          have hid : c.kind.cookie = c2.kind.cookie := by
            have h1 : r.cookie = c.kind.cookie := by rw [hs.eq]; rfl
            have h2 : r2.cookie = c2.kind.cookie := by rw [hs2.eq]; rfl
            rw [← h1, ← h2, hcc]
          have hkn : l = true → c2.known = c.known := by
            intro hl
            have h1 := hs.known
            have h2 := hs2.known
            rw [← hlink.2.2.1 hl, h1] at h2
            injection h2 with h2; exact h2.symm
          have hod1 : r.onDir = c.onDir := by
            have := (bits_of r.wd c.kind c.name c.onDir).2.2.2.2.2.2.2.2.2
            rw [← hs.eq] at this; exact this
          have hod2 : r2.onDir = c2.onDir := by
            have := (bits_of r2.wd c2.kind c2.name c2.onDir).2.2.2.2.2.2.2.2.2
            rw [← hs2.eq] at this; exact this
          have hnm1 : r.name = c.name := by rw [hs.eq]; rfl
          have hnm2 : r2.name = c2.name := by rw [hs2.eq]; rfl
          have he : pairEvent r r2 c.known c.known = Ker.renamed c c2 c.known c.known := by
            simp only [pairEvent, Ker.renamed, Rec.ptype, hnm1, hnm2, hod1]
            rw [← hod2, ← hlink.2.2.2, hod1]
          rw [he]
          exact .both c c2 c.kind.cookie hkind (hid ▸ hkind2) hkn
            (ih _ _ (by omega) hp2 (List.pairwise_cons.1 hq).2 (fun x hx => hk' x (by simp [hx])))
        | @again c2 c3 l2 _ hc2 hp2 =>
          exfalso
          have hrep2 : r2.reportable = true ∨ r2.reportable = false := by cases r2.reportable <;> simp
          rcases hrep2 with hrep2 | hrep2
          · obtain ⟨c', l', e1, hs2⟩ := pend_head hp2 r2 q2 rfl hrep2
            cases e1
            rw [hs2.eq] at hto
            have := (bits_of r2.wd c2.kind c2.name c2.onDir).2.2.2.2.1
            rw [this, hc2.kind] at hto
            simp at hto
          · have : ∀ {L : List Change} {x : List Rec}, Pend h L x → ∀ r q, x = r :: q → r.reportable = false →
                r.cookie = 0#32 := by
              intro L x hp
              induction hp with
              | nil => intro r q e; cases e
              | skip r0 hr _ _ => intro r q e _; cases e; exact hr.2
              | one c r0 hs _ _ => intro r q e hr; cases e; rw [hs.eq, recOf_reportable] at hr; cases hr
              | again c c0 hc _ ih => intro r q e hr; exact ih r q e hr
            have := this hp2 r2 q2 rfl hrep2
            rw [hcc] at hck; exact hck this

end Verif.Lemmas.Ker
