import Verif.Spec.Fanotify
import Verif.Lemmas.Bits
import Verif.Lemmas.Inotify
/-! Reading fanotify records out of the buffer. -/
namespace Verif.Lemmas.Fa
open Verif Verif.Model Verif.Model.Fa Verif.Spec

theorem f_modify (m : BitVec 64) : anyBit m FAN_MODIFY = m.getLsbD 1 := anyBit_pow m 1 (by omega)
theorem f_from (m : BitVec 64) : anyBit m FAN_MOVED_FROM = m.getLsbD 6 := anyBit_pow m 6 (by omega)
theorem f_to (m : BitVec 64) : anyBit m FAN_MOVED_TO = m.getLsbD 7 := anyBit_pow m 7 (by omega)
theorem f_create (m : BitVec 64) : anyBit m FAN_CREATE = m.getLsbD 8 := anyBit_pow m 8 (by omega)
theorem f_delete (m : BitVec 64) : anyBit m FAN_DELETE = m.getLsbD 9 := anyBit_pow m 9 (by omega)
theorem f_ovf (m : BitVec 64) : anyBit m FAN_Q_OVERFLOW = m.getLsbD 14 := anyBit_pow m 14 (by omega)
theorem f_ondir (m : BitVec 64) : anyBit m FAN_ONDIR = m.getLsbD 30 := anyBit_pow m 30 (by omega)

theorem ptype_eq (r : FRec) : ptypeOf r.mask = r.ptype := by
  simp [ptypeOf, FRec.ptype, f_ondir, FRec.onDir, FRec.bit]

theorem effect_eq (r : FRec) : effectOf r.mask = r.effect := by
  simp only [effectOf, FRec.effect, f_create, f_delete, f_modify, FAN_MOVE, anyBit_or, f_from, f_to, FRec.created,
    FRec.deleted, FRec.modified, FRec.movedFrom, FRec.movedTo, FRec.bit]
  rfl

theorem ovf_eq (r : FRec) : anyBit r.mask FAN_Q_OVERFLOW = r.overflow := by
  simp [f_ovf, FRec.overflow, FRec.bit]

theorem fromTo_eq (a b : FRec) : isFromTo (effectOf a.mask) a.mask b.mask = a.fromTo b := by
  rw [effect_eq]
  simp only [isFromTo, FRec.fromTo, f_from, f_to, FRec.movedFrom, FRec.movedTo, FRec.bit]
  rfl

theorem toFrom_eq (a b : FRec) : isFromTo (effectOf a.mask) b.mask a.mask = a.toFrom b := by
  rw [effect_eq]
  simp only [isFromTo, FRec.toFrom, f_from, f_to, FRec.movedFrom, FRec.movedTo, FRec.bit, Bool.and_assoc]
  congr 1
  exact Bool.and_comm _ _

/-! ### Fields -/

theorem u32_at (buf : List UInt8) (o k : Nat) : u32 buf (o + k) = u32 (buf.drop o) k := by
  unfold u32; rw [List.drop_drop]

theorem u8_at (buf : List UInt8) (o k : Nat) : u8 buf (o + k) = u8 (buf.drop o) k := by
  unfold u8; rw [List.drop_drop]

theorem u32_le32 (x : BitVec 32) (l : List UInt8) : u32 (le32 x ++ l) 0 = .ok x := by
  unfold u32 le32
  simp only [List.drop_zero, List.cons_append, List.nil_append]
  congr 1
  apply BitVec.eq_of_toNat_eq
  simp only [UInt8.toNat_ofNat', BitVec.toNat_ofNat]
  have := x.isLt
  omega

theorem u32_skip (p l : List UInt8) (k n : Nat) (h : p.length = n) : u32 (p ++ l) (n + k) = u32 l k := by
  subst h; unfold u32; rw [List.drop_append, List.drop_eq_nil_of_le (by omega)]; simp

theorem u8_skip (p l : List UInt8) (k n : Nat) (h : p.length = n) : u8 (p ++ l) (n + k) = u8 l k := by
  subst h; unfold u8; rw [List.drop_append, List.drop_eq_nil_of_le (by omega)]; simp

theorem le32_length (x : BitVec 32) : (le32 x).length = 4 := rfl

theorem rec_length (r : FRec) : r.bytes.length = 24 + r.body.length := by
  simp only [FRec.bytes, List.length_append, le32_length, List.length_cons, List.length_nil]

variable {buf l : List UInt8} {o : Nat} {r : FRec}

theorem fLen_rec (h : buf.drop o = r.bytes ++ l) (hf : r.bytes.length < 4294967296) : fLen buf o = .ok r.bytes.length := by
  unfold fLen
  have h1 := u32_at buf o 0
  rw [Nat.add_zero, h] at h1
  rw [h1, FRec.bytes]
  simp only [List.append_assoc]
  rw [u32_le32]
  simp only [Outcome.bind_ok, Outcome.pure_eq, BitVec.toNat_ofNat]
  have := rec_length r
  simp only [FRec.bytes, List.append_assoc] at this hf
  rw [this]
  rw [this] at hf
  congr 1
  omega

theorem fVers_rec (h : buf.drop o = r.bytes ++ l) : fVers buf o = .ok version := by
  unfold fVers
  rw [u8_at, h, FRec.bytes]
  simp only [List.append_assoc]
  rw [show (4 : Nat) = 4 + 0 from rfl, u8_skip _ _ _ _ (le32_length _)]
  rfl

theorem fMask_rec (h : buf.drop o = r.bytes ++ l) : fMask buf o = .ok r.mask := by
  unfold fMask
  rw [u32_at, u32_at, h, FRec.bytes]
  simp only [List.append_assoc]
  have e1 : ∀ (a b c : List UInt8) (k : Nat), a.length = 4 → b.length = 4 → u32 (a ++ (b ++ c)) (8 + k) = u32 c k := by
    intro a b c k ha hb
    rw [show 8 + k = 4 + (4 + k) by omega, u32_skip _ _ _ _ ha, u32_skip _ _ _ _ hb]
  rw [show (8 : Nat) = 8 + 0 from rfl, e1 _ _ _ _ rfl rfl, u32_le32]
  rw [show (12 : Nat) = 8 + (4 + 0) from rfl, e1 _ _ _ _ rfl rfl, u32_skip _ _ _ 4 rfl, u32_le32]
  simp only [Outcome.bind_ok, Outcome.pure_eq]
  congr 1
  apply BitVec.eq_of_toNat_eq
  simp only [BitVec.toNat_ofNat, BitVec.toNat_setWidth, BitVec.toNat_ushiftRight, Nat.shiftRight_eq_div_pow]
  have := r.mask.isLt
  omega

theorem fFd_rec (h : buf.drop o = r.bytes ++ l) : fFd buf o = .ok (-1) := by
  unfold fFd
  rw [u32_at, h, FRec.bytes]
  simp only [List.append_assoc]
  rw [show (16 : Nat) = 4 + (4 + (4 + (4 + 0))) from rfl, u32_skip _ _ _ _ (le32_length _), u32_skip _ _ _ 4 rfl,
    u32_skip _ _ _ _ (le32_length _), u32_skip _ _ _ _ (le32_length _), u32_le32]
  rfl

theorem drop_body (h : buf.drop o = r.bytes ++ l) : buf.drop (o + 24) = r.body ++ l := by
  have := congrArg (List.drop 24) h
  rw [List.drop_drop] at this
  rw [this, FRec.bytes]
  rw [List.append_assoc, List.drop_append, List.drop_eq_nil_of_le (by simp [le32_length])]
  simp [le32_length]

theorem body_info (hr : r.overflow = false) : r.body = r.info := by simp [FRec.body, hr]

theorem fInfoType_rec (h : buf.drop o = r.bytes ++ l) (hr : r.overflow = false) : fInfoType buf o = .ok infoDfidName := by
  unfold fInfoType
  have h1 := drop_body h
  have h2 := u8_at buf (o + 24) 0
  rw [Nat.add_zero] at h2
  rw [h2, h1, body_info hr, FRec.info]
  rfl

theorem info_handle (h : buf.drop o = r.bytes ++ l) (hr : r.overflow = false) (hw : r.WF) :
    buf.drop (o + 36) = le32 (BitVec.ofNat 32 r.handle.length) ++ (le32 r.htype ++ (r.handle ++ (r.name ++ (List.replicate r.pad 0 ++ (r.extra ++ l))))) := by
  have h1 := congrArg (List.drop 12) (drop_body h)
  rw [List.drop_drop, show o + 24 + 12 = o + 36 by omega] at h1
  rw [h1, body_info hr, FRec.info]
  have := hw.fsid
  simp only [List.append_assoc]
  rw [List.drop_append, List.drop_eq_nil_of_le (by simp)]
  simp only [List.length_cons, List.length_nil, List.nil_append]
  rw [List.drop_append, List.drop_eq_nil_of_le (by omega)]
  simp [this]

theorem info_short (hr : r.overflow = false) : r.handle.length < r.bytes.length := by
  rw [rec_length, body_info hr, FRec.info]
  simp only [List.length_append, List.length_cons, List.length_nil]
  omega

theorem fHandleBytes_rec (h : buf.drop o = r.bytes ++ l) (hr : r.overflow = false) (hw : r.WF)
    (hf : r.bytes.length < 4294967296) : fHandleBytes buf o = .ok r.handle.length := by
  unfold fHandleBytes
  have h2 := u32_at buf (o + 36) 0
  rw [Nat.add_zero] at h2
  rw [h2, info_handle h hr hw, u32_le32]
  simp only [Outcome.bind_ok, Outcome.pure_eq, BitVec.toNat_ofNat]
  congr 1
  have := info_short hr
  omega

theorem handle_rec (h : buf.drop o = r.bytes ++ l) (hr : r.overflow = false) (hw : r.WF) :
    (buf.drop (o + 44)).take r.handle.length = r.handle := by
  have h1 := congrArg (List.drop 8) (info_handle h hr hw)
  rw [List.drop_drop, show o + 36 + 8 = o + 44 by omega] at h1
  rw [h1, List.drop_append, List.drop_eq_nil_of_le (by simp [le32_length])]
  simp only [le32_length, List.nil_append]
  rw [List.drop_append, List.drop_eq_nil_of_le (by simp [le32_length])]
  simp [le32_length]

theorem name_rec (h : buf.drop o = r.bytes ++ l) (hr : r.overflow = false) (hw : r.WF) :
    In.cstr (buf.drop (o + 44 + r.handle.length)) = .ok r.name := by
  have h1 := congrArg (List.drop (8 + r.handle.length)) (info_handle h hr hw)
  rw [List.drop_drop, show o + 36 + (8 + r.handle.length) = o + 44 + r.handle.length by omega] at h1
  rw [h1, List.drop_append, List.drop_eq_nil_of_le (by simp [le32_length]; omega)]
  simp only [le32_length, List.nil_append]
  rw [List.drop_append, List.drop_eq_nil_of_le (by simp [le32_length]; omega)]
  simp only [le32_length, List.nil_append]
  rw [List.drop_append, List.drop_eq_nil_of_le (by omega)]
  rw [show 8 + r.handle.length - 4 - 4 - r.handle.length = 0 by omega]
  simp only [List.drop_zero, List.nil_append]
  obtain ⟨k, hk⟩ : ∃ k, r.pad = k + 1 := ⟨r.pad - 1, by have := hw.term; omega⟩
  rw [hk, List.replicate_succ]
  exact In.cstr_name r.name _ hw.noZero

/-! ### Paths -/

/-- `pathof` of a record. -/
theorem pathof_rec {σ} (S : Fa.Sys σ) (hS : Fa.Sound S) (h : buf.drop o = r.bytes ++ l) (hr : r.overflow = false) (hw : r.WF)
    (hf : r.bytes.length < 4294967296) (ec : Nat) (w : σ) :
    pathof S buf o ec w = .ok (match Fa.resolve S r w with
      | (none, w') => ([], (S.openByHandle w r.handle).1.2, w')
      | (some p, w') => (p, ec, w')) := by
  unfold pathof Fa.resolve
  rw [fHandleBytes_rec h hr hw hf]
  simp only [Outcome.bind_ok, handle_rec h hr hw, name_rec h hr hw]
  by_cases hfd : (S.openByHandle w r.handle).1.1 ≤ 0
  · simp [hfd]
  · obtain ⟨d, hd, hne, hlen⟩ := hS.link w r.handle (by omega)
    simp only [hfd, if_false]
    cases hx : S.readlink (S.openByHandle w r.handle).2 (S.openByHandle w r.handle).1.1 with
    | mk a w2 =>
      rw [hx] at hd
      simp only at hd; subst hd
      simp only
      have htake : d.take (pathMax - 1) = d := List.take_of_length_le (by simp only [pathMax]; omega)
      have hpos : 0 < d.length := List.length_pos_iff.2 hne
      simp only [htake, hpos, if_true]
      have hshort := hw.short
      have htk : (b!"/" ++ r.name).take (pathMax - d.length - 1) = b!"/" ++ r.name :=
        List.take_of_length_le (by simp only [pathMax, List.length_append, List.length_cons, List.length_nil]; omega)
      by_cases hdot : r.name = b!"."
      · simp [hdot]
      · simp only [ne_eq, hdot, not_false_eq_true, if_true, if_false, htk, Outcome.pure_eq, List.append_assoc]

/-- `resolve` fails exactly when the handle cannot be opened. -/
theorem resolve_none {σ} (S : Fa.Sys σ) (hS : Fa.Sound S) (w : σ) (hn : (Fa.resolve S r w).1 = none) :
    (S.openByHandle w r.handle).1.2 ≠ 0 := by
  apply hS.err
  apply Classical.byContradiction
  intro hfd
  obtain ⟨d, hd, hne, hlen⟩ := hS.link w r.handle (by omega)
  unfold Fa.resolve at hn
  simp only [hfd, if_false] at hn
  split at hn
  · cases hn
  · rename_i hx
    rw [hx] at hd; cases hd

end Verif.Lemmas.Fa
