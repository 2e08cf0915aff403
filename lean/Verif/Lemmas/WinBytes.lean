import Verif.Spec.WinBytes
import Verif.Lemmas.PolledBack
import Verif.Props.WindowsAll
/-! What the back end of `Model/WinBytes.lean` delivers. -/
namespace Verif.Lemmas.WinBytes
open Verif Verif.Model Verif.Model.Windows Verif.Model.Poll Verif.Spec.Windows Verif.Spec.Poll Verif.Spec.WinBytes Verif.Lemmas.Poll

theorem account_append {is is' : List ByteAns} {hs hs' : List Happening} (h : Account is hs) (h' : Account is' hs') : Account (is ++ is') (hs ++ hs') := by
  induction h with
  | nil => exact h'
  | quiet is hs _ ih => exact .quiet _ _ ih
  | batch rs rest isDir a next is hs h1 h2 h3 _ ih => exact .batch rs rest isDir a next _ _ h1 h2 h3 ih
  | overflow m is hs _ ih => exact .overflow m _ _ ih
  | failure is hs _ ih => exact .failure _ _ ih

/-- Changes are still asked for. -/
def Listens (hs : List Happening) : Prop := ∀ h ∈ hs, h = .quiet ∨ ∃ rs isDir, h = .batch rs isDir .queued

theorem told_append {base : WStr} {hs hs' : List Happening} {o o' : List Said} (h : Told base hs o) (hl : Listens hs) (h' : Told base hs' o') :
    Told base (hs ++ hs') (o ++ o') := by
  induction h with
  | nil => exact h'
  | quiet hs o _ ih => exact .quiet _ _ (ih (fun x hx => hl x (List.mem_cons_of_mem _ hx)))
  | batch rs isDir hs o o1 hb _ ih =>
    rw [List.append_assoc]
    exact .batch rs isDir _ _ _ hb (ih (fun x hx => hl x (List.mem_cons_of_mem _ hx)))
  | last rs isDir next hs o hb hn _ =>
    rcases hl _ (List.mem_cons_self ..) with h | ⟨_, _, h⟩
    · cases h
    · injection h with _ _ h; exact absurd h hn
  | overflow hs _ =>
    rcases hl _ (List.mem_cons_self ..) with h | ⟨_, _, h⟩ <;> cases h
  | failure hs _ =>
    rcases hl _ (List.mem_cons_self ..) with h | ⟨_, _, h⟩ <;> cases h

theorem all_snoc {hs : List Happening} (h : ∀ x ∈ hs, x = Happening.quiet) : ∀ x ∈ hs ++ [Happening.quiet], x = .quiet := by
  intro x hx
  rcases List.mem_append.1 hx with hx | hx
  · exact h x hx
  · exact List.mem_singleton.1 hx

theorem told_quiet {base : WStr} {hs : List Happening} {o : List Said} (h : Told base hs o) : Told base (hs ++ [.quiet]) o := by
  induction h with
  | nil => exact .quiet _ _ .nil
  | quiet hs o _ ih => exact .quiet _ _ ih
  | batch rs isDir hs o o1 hb _ ih => exact .batch rs isDir _ _ _ hb ih
  | last rs isDir next hs o hb hn hq => exact .last rs isDir next _ _ hb hn (all_snoc hq)
  | overflow hs hq => exact .overflow _ (all_snoc hq)
  | failure hs hq => exact .failure _ (all_snoc hq)

theorem listens_append {hs hs' : List Happening} (h : Listens hs) (h' : Listens hs') : Listens (hs ++ hs') := by
  intro x hx
  rcases List.mem_append.1 hx with hx | hx
  · exact h x hx
  · exact h' x hx

theorem listens_one {h : Happening} (hh : h = .quiet ∨ ∃ rs isDir, h = .batch rs isDir .queued) : Listens [h] := by
  intro x hx; rw [List.mem_singleton.1 hx]; exact hh

/-- What is sent for a batch is what is to be told. -/
theorem send_batch (isDir : WStr → Option Bool) (base : WStr) (w : WinB) (rs : List Rec) (rest : List UInt8) (hne : rs ≠ []) (hf : ∀ r ∈ rs, r.Fits)
    (hv : w.valid = true) (hr : w.ready = (encode rs).length) (hm : w.mem = encode rs ++ rest) (es : List Said) (h : sendB isDir base w = some es) :
    BatchTold base rs isDir es := by
  obtain ⟨o, ho, _⟩ := Props.C124_one_report isDir base rs
  have len : ∀ rs : List Rec, rs.length ≤ (encode rs).length := by
    intro rs
    induction rs with
    | nil => simp
    | cons r rs ih =>
      cases rs with
      | nil => simp only [encode, List.length_append, Lemmas.Windows.le32_length, List.length_cons, List.length_nil]; omega
      | cons r' rs =>
        rw [encode.eq_def]
        simp only [List.length_append, Lemmas.Windows.le32_length, List.length_cons] at ih ⊢
        omega
  have hfuel : rs.length ≤ w.mem.length + 1 := by rw [hm, List.length_append]; have := len rs; omega
  unfold BatchTold
  simp only [sendB, hv, if_true] at h
  split
  · rename_i h16
    have hd := (Props.C124_batch_exact isDir base rs o hf h16).2 ho rest (w.mem.length + 1) hfuel
    rw [hm] at hd h
    rw [hr, hd] at h
    injection h with h
    exact ⟨o, ho, h.symm⟩
  · rename_i h16
    have hshort := (Props.C124_short_batches isDir base rs hne).1.1 (by omega)
    have hd := ((Props.C124_short_batches isDir base rs hne).2 hshort []).2 rfl rest (w.mem.length + 1) hfuel
    rw [hm] at hd h
    rw [hr, hd] at h
    injection h with h
    exact h.symm

/-- Where the back end is and what it has delivered. -/
def At (base : WStr) (i : ByteAns) (is : List ByteAns) (es : List Said) (x : (WinB × WinAt) ⊕ Bool) : Prop :=
  Documented i → (∀ j ∈ is, Documented j) →
  match x with
  | .inr r => r = false
  | .inl (w, .first) => ∃ a q, i = .opened true a ∧ Takes a q ∧ is = [] ∧ es = requestTold q ∧ w.ready = 0 ∧ (w.armed = true → w.valid = true ∧ q = .queued)
  | .inl (w, .outer) => ∃ a q is' hs, i = .opened true a ∧ Takes a q ∧ is = .none :: is' ∧ Account is' hs ∧ ToldFrom base q hs es ∧
      (w.armed = true → w.valid = true ∧ q = .queued ∧ Listens hs)
  | .inl (w, .inner) => ∃ a is' hs, i = .opened true a ∧ Takes a .queued ∧ Account is' hs ∧ Listens hs ∧
      ((∃ m, is = .none :: is' ++ [.completion (some (0, m))] ∧ w.ready = 0 ∧ w.armed = false ∧ Told base hs es) ∨
       (∃ rs rest, rs ≠ [] ∧ (∀ r ∈ rs, r.Fits) ∧ is = .none :: is' ++ [.completion (some ((encode rs).length, encode rs ++ rest))] ∧
          w.ready = (encode rs).length ∧ w.mem = encode rs ++ rest ∧ w.valid = true ∧ w.armed = false ∧ Told base hs es) ∨
       (∃ rs rest isDir b q o o', rs ≠ [] ∧ (∀ r ∈ rs, r.Fits) ∧
          is = .none :: is' ++ [.completion (some ((encode rs).length, encode rs ++ rest)), .read isDir b] ∧ Takes b q ∧ Told base hs o ∧
          BatchTold base rs isDir o' ∧ es = o ++ (o' ++ requestTold q) ∧ w.ready = 0 ∧ (w.armed = true → w.valid = true ∧ q = .queued)))

theorem takes_of (v : Bool) (a : ByteRead) (h : Documented (.opened v a)) : ∃ q, Takes a q := by
  cases a with
  | ok n m => simp only [Documented] at h; subst h; exact ⟨_, .queued m⟩
  | pendingError => exact ⟨_, .pending⟩
  | otherError => exact ⟨_, .refused⟩

theorem recv_takes (w : WinB) (a : ByteRead) (q : Request) (h : Takes a q) (hv : w.valid = true) :
    (recvB w a).2 = requestTold q ∧ (recvB w a).1.ready = 0 ∧ ((recvB w a).1.armed = true → w.armed = false → (recvB w a).1.valid = true ∧ q = .queued) := by
  cases h <;> simp [recvB, hv, requestTold]

theorem at_start (base : WStr) (i : ByteAns) (es : List Said) (x : (WinB × WinAt) ⊕ Bool) (h : (winBytes base).start i = some (es, x)) : At base i [] es x := by
  intro hi _
  cases i with
  | opened v a =>
    cases v with
    | false => simp only [winBytes] at h; injection h with h; injection h with h1 h2; subst h2; rfl
    | true =>
      simp only [winBytes] at h; injection h with h; injection h with h1 h2; subst h1; subst h2
      obtain ⟨q, hq⟩ := takes_of _ _ hi
      obtain ⟨h1, h2, h3⟩ := recv_takes {} a q hq rfl
      exact ⟨a, q, rfl, hq, rfl, h1, h2, fun h => h3 h rfl⟩
  | _ => simp [winBytes] at h

theorem at_step (base : WStr) (i : ByteAns) (is : List ByteAns) (j : ByteAns) (es : List Said) (s : WinB × WinAt) (es' : List Said)
    (x : (WinB × WinAt) ⊕ Bool) (h : At base i is es (.inl s)) (ht : (winBytes base).turn s j = some (es', x)) : At base i (is ++ [j]) (es ++ es') x := by
  intro hi hds
  have hj : Documented j := hds j (by simp)
  have h := h hi (fun k hk => hds k (by simp [hk]))
  obtain ⟨w, at'⟩ := s
  cases at' with
  | first =>
    obtain ⟨a, q, rfl, hq, rfl, rfl, hr, ha⟩ := h
    cases j with
    | none =>
      simp only [winBytes, hr, bne_self_eq_false, Bool.and_false, Bool.false_eq_true, if_false] at ht
      injection ht with ht; injection ht with h1 h2; subst h1; subst h2
      refine ⟨a, q, [], [], rfl, hq, rfl, .nil, ?_, fun h => ⟨(ha h).1, (ha h).2, fun x hx => by cases hx⟩⟩
      cases q
      · exact .nil
      · exact ⟨(fun x hx => by cases hx), rfl⟩
      · exact ⟨(fun x hx => by cases hx), rfl⟩
    | again isDir => simp [winBytes, hr] at ht
    | _ => simp [winBytes] at ht
  | outer =>
    obtain ⟨a, q, is', hs, rfl, hq, rfl, hacc, ht0, harm⟩ := h
    cases j with
    | completion c =>
      cases c with
      | none =>
        simp only [winBytes] at ht
        injection ht with ht; injection ht with h1 h2; subst h1; subst h2
        refine ⟨a, q, is' ++ [.completion none], hs ++ [.quiet], rfl, hq, rfl, account_append hacc (.quiet _ _ .nil), ?_, ?_⟩
        · rw [List.append_nil]
          cases q with
          | queued => exact told_quiet ht0
          | pending => exact ⟨all_snoc ht0.1, ht0.2⟩
          | refused => exact ⟨all_snoc ht0.1, ht0.2⟩
        · intro h
          obtain ⟨h1, h2, h3⟩ := harm h
          exact ⟨h1, h2, listens_append h3 (listens_one (.inl rfl))⟩
      | some p =>
        obtain ⟨n, m⟩ := p
        simp only [winBytes] at ht
        split at ht
        · rename_i har
          injection ht with ht; injection ht with h1 h2; subst h1; subst h2
          obtain ⟨hv, rfl, hl⟩ := harm har
          refine ⟨a, is', hs, rfl, hq, hacc, hl, ?_⟩
          rw [List.append_nil]
          rcases hj with rfl | ⟨rs, rest, hne, hf, rfl, rfl⟩
          · exact .inl ⟨m, rfl, rfl, rfl, ht0⟩
          · exact .inr (.inl ⟨rs, rest, hne, hf, rfl, rfl, rfl, hv, rfl, ht0⟩)
        · cases ht
    | failed =>
      simp only [winBytes] at ht
      split at ht
      · rename_i har
        injection ht with ht; injection ht with h1 h2; subst h1; subst h2
        obtain ⟨hv, rfl, hl⟩ := harm har
        refine ⟨a, .queued, is' ++ [.failed], hs ++ [.failure], rfl, hq, rfl, account_append hacc (.failure _ _ .nil), ?_, fun h => by cases h⟩
        exact told_append ht0 hl (.failure [] (fun x hx => by cases hx))
      · cases ht
    | _ => simp [winBytes] at ht
  | inner =>
    obtain ⟨a, is', hs, rfl, hq, hacc, hl, h⟩ := h
    cases j with
    | none =>
      simp only [winBytes] at ht
      split at ht
      · cases ht
      · rename_i hc
        injection ht with ht; injection ht with h1 h2; subst h1; subst h2
        rcases h with ⟨m, rfl, hr, har, ht0⟩ | ⟨rs, rest, hne, hf, rfl, hr, hm, hv, har, ht0⟩ | ⟨rs, rest, isDir, b, q, o, o', hne, hf, rfl, hb, ht0, hbt, rfl, hr, harm⟩
        · refine ⟨a, .queued, is' ++ [.completion (some (0, m)), .none], hs ++ [.overflow], rfl, hq, by simp, account_append hacc (.overflow m _ _ .nil), ?_,
            fun h => by rw [har] at h; cases h⟩
          exact told_append ht0 hl (.overflow [] (fun x hx => by cases hx))
        · exfalso
          apply hc
          have : 0 < (encode rs).length := by
            match rs, hne with
            | [r], _ => simp only [encode, List.length_append, Lemmas.Windows.le32_length]; omega
            | r :: r' :: rs, _ => rw [encode.eq_def]; simp only [List.length_append, Lemmas.Windows.le32_length]; omega
          rw [hv, hr, Bool.true_and, bne_iff_ne]; omega
        · refine ⟨a, .queued, is' ++ [.completion (some ((encode rs).length, encode rs ++ rest)), .read isDir b, .none], hs ++ [.batch rs isDir q], rfl, hq,
            by simp, account_append hacc (.batch rs rest isDir b q _ _ hne hf hb .nil), ?_, ?_⟩
          · rw [List.append_nil]
            refine told_append ht0 hl ?_
            by_cases hqq : q = .queued
            · subst hqq
              exact .batch rs isDir [] o' [] hbt .nil
            · exact .last rs isDir q [] o' hbt hqq (fun x hx => by cases hx)
          · intro h
            obtain ⟨h1, rfl⟩ := harm h
            exact ⟨h1, rfl, listens_append hl (listens_one (.inr ⟨rs, isDir, rfl⟩))⟩
    | read isDir b =>
      simp only [winBytes] at ht
      split at ht
      · rename_i hc
        simp only [Bool.and_eq_true, bne_iff_ne, ne_eq] at hc
        rcases h with ⟨m, rfl, hr, har, ht0⟩ | ⟨rs, rest, hne, hf, rfl, hr, hm, hv, har, ht0⟩ | ⟨rs, rest, isDir, b, q, o, o', hne, hf, rfl, hb, ht0, hbt, rfl, hr, harm⟩
        · exact absurd hr hc.2
        · cases hsb : sendB isDir base w with
          | none => rw [hsb] at ht; cases ht
          | some o' =>
            rw [hsb] at ht
            simp only [Option.map_some] at ht
            injection ht with ht; injection ht with h1 h2; subst h1; subst h2
            have hbt := send_batch isDir base w rs rest hne hf hv hr hm o' hsb
            have htq : ∃ q, Takes b q := takes_of true b (by cases b <;> exact hj)
            obtain ⟨q, hbq⟩ := htq
            obtain ⟨h1, h2, h3⟩ := recv_takes w b q hbq hv
            refine ⟨a, is', hs, rfl, hq, hacc, hl, .inr (.inr ⟨rs, rest, isDir, b, q, es, o', hne, hf, by simp, hbq, ht0, hbt, by rw [h1], h2, fun h => h3 h har⟩)⟩
        · exact absurd hr hc.2
      · cases ht
    | _ => simp [winBytes] at ht

theorem at_plays (base : WStr) (i : ByteAns) (is : List ByteAns) (es : List Said) (x) (h : plays (winBytes base) (i :: is) = some (es, x)) : At base i is es x :=
  plays_ind (B := winBytes base) (P := At base) (fun i es x h => at_start base i es x h) (fun i is j es s es' x h ht => at_step base i is j es s es' x h ht) i is es x h

/-! ### One history, one story -/

theorem le32_inj {a b : Nat} (ha : a < 2 ^ 32) (hb : b < 2 ^ 32) (h : le32 a = le32 b) : a = b := by
  have h1 := Lemmas.Windows.rd32_le32 a ha []
  rw [h, Lemmas.Windows.rd32_le32 b hb []] at h1
  injection h1 with h1
  exact h1.symm

theorem le16_inj : ∀ {a b : WStr}, a.length = b.length → le16 a = le16 b → a = b := by
  intro a b hl h
  have h1 := Lemmas.Windows.rdName_le16 a []
  have h2 := Lemmas.Windows.rdName_le16 b []
  rw [h, hl, h2] at h1
  injection h1 with h1
  exact h1.symm

/-- A record's own fields. -/
theorem head_inj {n n' : Nat} {r r' : Rec} {x x' : List UInt8} (hn : n < 2 ^ 32) (hn' : n' < 2 ^ 32) (hr : r.Fits) (hr' : r'.Fits)
    (h : le32 n ++ le32 r.action ++ le32 (2 * r.name.length) ++ le16 r.name ++ x = le32 n' ++ le32 r'.action ++ le32 (2 * r'.name.length) ++ le16 r'.name ++ x') :
    n = n' ∧ r = r' ∧ x = x' := by
  simp only [List.append_assoc] at h
  have hb : ∀ r : Rec, r.Fits → 2 * r.name.length < 2 ^ 32 := by
    intro r hr
    have := Lemmas.Windows.stride_ge r
    unfold Rec.size at this
    have := hr.2
    omega
  obtain ⟨h1, h⟩ := List.append_inj h rfl
  obtain ⟨h2, h⟩ := List.append_inj h rfl
  obtain ⟨h3, h⟩ := List.append_inj h rfl
  have h3 := le32_inj (hb r hr) (hb r' hr') h3
  obtain ⟨h4, h⟩ := List.append_inj h (by rw [Lemmas.Windows.le16_length, Lemmas.Windows.le16_length]; omega)
  refine ⟨le32_inj hn hn' h1, ?_, h⟩
  obtain ⟨ac, nm⟩ := r
  obtain ⟨ac', nm'⟩ := r'
  have h2 := le32_inj hr.1 hr'.1 h2
  have h4 := le16_inj (by omega) h4
  simp only at h2 h4
  rw [h2, h4]

theorem encode_inj : ∀ (rs rs' : List Rec), rs ≠ [] → rs' ≠ [] → (∀ r ∈ rs, r.Fits) → (∀ r ∈ rs', r.Fits) → encode rs = encode rs' → rs = rs' := by
  intro rs
  induction rs with
  | nil => intro rs' h; exact absurd rfl h
  | cons r rs ih =>
    intro rs' _ hne' hf hf' h
    cases rs' with
    | nil => exact absurd rfl hne'
    | cons r' rs' =>
      have hr := hf r (List.mem_cons_self ..)
      have hr' := hf' r' (List.mem_cons_self ..)
      match rs, rs' with
      | [], [] =>
        simp only [encode] at h
        have := head_inj (n := 0) (n' := 0) (x := []) (x' := []) (by decide) (by decide) hr hr' (by simpa using h)
        rw [this.2.1]
      | [], b :: bs =>
        simp only [encode] at h
        have := head_inj (n := 0) (n' := r'.stride) (x := []) (x' := List.replicate (r'.stride - r'.size) 0 ++ encode (b :: bs)) (by decide) hr'.2 hr hr' (by simpa using h)
        exact absurd this.1.symm (Lemmas.Windows.stride_pos r')
      | b :: bs, [] =>
        simp only [encode] at h
        have := head_inj (n := r.stride) (n' := 0) (x := List.replicate (r.stride - r.size) 0 ++ encode (b :: bs)) (x' := []) hr.2 (by decide) hr hr' (by simpa using h)
        exact absurd this.1 (Lemmas.Windows.stride_pos r)
      | b :: bs, c :: cs =>
        rw [encode.eq_def, encode.eq_def (r' :: c :: cs)] at h
        simp only [List.append_assoc] at h
        obtain ⟨_, h2, h3⟩ := head_inj (x := List.replicate (r.stride - r.size) 0 ++ encode (b :: bs)) (x' := List.replicate (r'.stride - r'.size) 0 ++ encode (c :: cs))
          hr.2 hr'.2 hr hr' (by simpa using h)
        subst h2
        have := (List.append_inj h3 rfl).2
        rw [ih (c :: cs) (by simp) (by simp) (fun x hx => hf x (List.mem_cons_of_mem _ hx)) (fun x hx => hf' x (List.mem_cons_of_mem _ hx)) this]

theorem takes_unique {a : ByteRead} {q q' : Request} (h : Takes a q) (h' : Takes a q') : q = q' := by
  cases h <;> cases h' <;> rfl

theorem encode_pos {rs : List Rec} (hne : rs ≠ []) : (encode rs).length ≠ 0 := by
  match rs, hne with
  | [r], _ => simp only [encode, List.length_append, Lemmas.Windows.le32_length]; omega
  | r :: r' :: rs, _ => rw [encode.eq_def]; simp only [List.length_append, Lemmas.Windows.le32_length]; omega

theorem account_unique {is : List ByteAns} {hs hs' : List Happening} (h : Account is hs) (h' : Account is hs') : hs = hs' := by
  induction h generalizing hs' with
  | nil => cases h'; rfl
  | quiet is hs _ ih => cases h' with | quiet _ _ h' => rw [ih h']
  | batch rs rest isDir a next is hs hne hf ht _ ih =>
    generalize hi : ByteAns.completion (some ((encode rs).length, encode rs ++ rest)) :: ByteAns.read isDir a :: ByteAns.none :: is = l at h'
    cases h' with
    | batch rs' rest' isDir' a' next' is' hs' hne' hf' ht' h' =>
      injection hi with h1 h2
      injection h1 with h1
      injection h1 with h1
      injection h1 with h1 h3
      injection h2 with h4 h2
      injection h2 with _ h2
      injection h4 with h4 h5
      subst h4; subst h5; subst h2
      have h6 := encode_inj rs rs' hne hne' hf hf' (List.append_inj h3 h1).1
      subst h6
      rw [takes_unique ht ht', ih h']
    | overflow m is' hs' h' =>
      injection hi with h1 h2
      cases h2
    | nil => cases hi
    | quiet _ _ _ => injection hi with h1 _; cases h1
    | failure _ _ _ => injection hi with h1 _; cases h1
  | overflow m is hs _ ih =>
    generalize hi : ByteAns.completion (some (0, m)) :: ByteAns.none :: is = l at h'
    cases h' with
    | batch rs' rest' isDir' a' next' is' hs' hne' hf' ht' h' => injection hi with h1 h2; cases h2
    | overflow m is' hs' h' =>
      injection hi with h1 h2
      injection h2 with _ h2
      subst h2
      rw [ih h']
    | nil => cases hi
    | quiet _ _ _ => injection hi with h1 _; cases h1
    | failure _ _ _ => injection hi with h1 _; cases h1
  | failure is hs _ ih => cases h' with | failure _ _ h' => rw [ih h']

theorem batchTold_unique {base : WStr} {rs : List Rec} {isDir : WStr → Option Bool} {o o' : List Said} (h : BatchTold base rs isDir o) (h' : BatchTold base rs isDir o') : o = o' := by
  unfold BatchTold at h h'
  split at h
  · rename_i h16
    rw [if_pos h16] at h'
    obtain ⟨e, h1, rfl⟩ := h
    obtain ⟨e', h2, rfl⟩ := h'
    obtain ⟨u, _, hu⟩ := Props.C124_one_report isDir base rs
    rw [hu e h1, hu e' h2]
  · rename_i h16
    rw [if_neg h16] at h'
    rw [h, h']

theorem told_unique {base : WStr} {hs : List Happening} {o o' : List Said} (h : Told base hs o) (h' : Told base hs o') : o = o' := by
  induction h generalizing o' with
  | nil => cases h'; rfl
  | quiet hs o _ ih => cases h' with | quiet _ _ h' => exact ih h'
  | batch rs isDir hs o o1 hb _ ih =>
    cases h' with
    | batch _ _ _ _ _ hb' h' => rw [batchTold_unique hb hb', ih h']
    | last _ _ _ _ _ _ hn _ => exact absurd rfl hn
  | last rs isDir next hs o hb hn _ =>
    cases h' with
    | batch _ _ _ _ _ hb' h' => exact absurd rfl hn
    | last _ _ _ _ _ hb' _ _ => rw [batchTold_unique hb hb']
  | overflow hs _ => cases h'; rfl
  | failure hs _ => cases h'; rfl

/-- What follows an overflow or a failure is quiet, and nothing is told of it. -/
theorem told_cut {base : WStr} {x : Happening} (hx : x = .overflow ∨ x = .failure) : ∀ {hs hs' : List Happening} {o : List Said}, Told base (hs ++ x :: hs') o →
    Told base hs o ∧ ∀ y ∈ hs', y = .quiet := by
  intro hs
  have no : ∀ {hs hs' : List Happening}, ¬ (∀ y ∈ hs ++ x :: hs', y = .quiet) := by
    intro hs hs' h
    have := h x (by simp)
    rcases hx with rfl | rfl <;> cases this
  induction hs with
  | nil =>
    intro hs' o h
    rcases hx with rfl | rfl
    · cases h with | overflow _ hq => exact ⟨.nil, hq⟩
    · cases h with | failure _ hq => exact ⟨.nil, hq⟩
  | cons y hs ih =>
    intro hs' o h
    cases h with
    | quiet _ _ h => obtain ⟨h1, h2⟩ := ih h; exact ⟨.quiet _ _ h1, h2⟩
    | batch rs isDir _ o o1 hb h => obtain ⟨h1, h2⟩ := ih h; exact ⟨.batch rs isDir _ _ _ hb h1, h2⟩
    | last rs isDir next _ o hb hn hq => exact absurd hq no
    | overflow _ hq => exact absurd hq no
    | failure _ hq => exact absurd hq no

end Verif.Lemmas.WinBytes
