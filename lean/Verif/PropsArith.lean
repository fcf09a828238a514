import Verif.ArithLemmas

/-!
# Properties of the pixel arithmetic (C06 - C10)
-/

namespace Smil
variable {t : PT}

/-! ## Specification side -/

/-- Clamp an exact integer to an interval. -/
def clampSpec (lo hi v : Int) : Int := if v < lo then lo else if hi < v then hi else v

/-- `r` is the residue of `v` modulo `n` lying in the range of `n` values starting at `lo`. -/
def IsResidue (lo n v r : Int) : Prop := lo ≤ r ∧ r < lo + n ∧ ∃ k : Int, v = r + k * n

/-! ## C06: saturated addition and subtraction -/

/-- **C06, addition, unsigned types** (any width): the result is the exact sum clamped. -/
theorem C06_add_unsigned (hs : t.signed = false) (a b : Px t) :
    ∃ r, kAdd a b = some r ∧ r.val = clampSpec t.lo t.hi (a.val + b.val) := by
  have h0 := lo_unsigned hs
  have ha := a.lo_le; have hb := b.lo_le; have ha' := a.le_hi; have hb' := b.le_hi
  have hu : t.cpp (t.hi - b.val) = some (t.hi - b.val) := cpp_of_mem (by omega) (by omega)
  have hw : (t.wrap (t.hi - b.val)).val = t.hi - b.val := t.wrap_of_mem (by omega) (by omega)
  simp only [kAdd, hu, Option.bind_eq_bind, Option.bind_some, gt_iff_lt, Px.lt_iff, hw]
  by_cases hc : t.hi - b.val < a.val
  · refine ⟨⊤, by rw [if_pos hc], ?_⟩
    simp only [Px.top_val, clampSpec]
    rw [if_neg (by omega), if_pos (by omega)]
  · have hsum : t.cpp (a.val + b.val) = some (a.val + b.val) := cpp_of_mem (by omega) (by omega)
    refine ⟨t.wrap (a.val + b.val), by rw [if_neg hc, hsum]; rfl, ?_⟩
    rw [t.wrap_of_mem (by omega) (by omega), clampSpec, if_neg (by omega), if_neg (by omega)]

/-- **C06, subtraction, unsigned types**: the result is the exact difference clamped. -/
theorem C06_sub_unsigned (hs : t.signed = false) (a b : Px t) :
    ∃ r, kSub a b = some r ∧ r.val = clampSpec t.lo t.hi (a.val - b.val) := by
  have h0 := lo_unsigned hs
  have ha := a.lo_le; have hb := b.lo_le; have ha' := a.le_hi; have hb' := b.le_hi
  have hu : t.cpp (t.lo + b.val) = some (t.lo + b.val) := cpp_of_mem (by omega) (by omega)
  have hw : (t.wrap (t.lo + b.val)).val = t.lo + b.val := t.wrap_of_mem (by omega) (by omega)
  simp only [kSub, hu, Option.bind_eq_bind, Option.bind_some, Px.lt_iff, hw]
  by_cases hc : a.val < t.lo + b.val
  · refine ⟨⊥, by rw [if_pos hc], ?_⟩
    simp only [Px.bot_val, clampSpec]
    rw [if_pos (by omega)]
  · have hsum : t.cpp (a.val - b.val) = some (a.val - b.val) := cpp_of_mem (by omega) (by omega)
    refine ⟨t.wrap (a.val - b.val), by rw [if_neg hc, hsum]; rfl, ?_⟩
    rw [t.wrap_of_mem (by omega) (by omega), clampSpec, if_neg (by omega), if_neg (by omega)]

/-- **C06, addition, every type, partial**: signed types are right when the second operand
is not negative.  Missing: negative second operands, see `C06_add_signed_bug`. -/
theorem C06_add_partial (a b : Px t) (hb0 : 0 ≤ b.val) :
    ∃ r, kAdd a b = some r ∧ r.val = clampSpec t.lo t.hi (a.val + b.val) := by
  have h0 := t.lo_nonpos
  have ha := a.lo_le; have hb := b.lo_le; have ha' := a.le_hi; have hb' := b.le_hi
  have hu : t.cpp (t.hi - b.val) = some (t.hi - b.val) := cpp_of_mem (by omega) (by omega)
  have hw : (t.wrap (t.hi - b.val)).val = t.hi - b.val := t.wrap_of_mem (by omega) (by omega)
  simp only [kAdd, hu, Option.bind_eq_bind, Option.bind_some, gt_iff_lt, Px.lt_iff, hw]
  by_cases hc : t.hi - b.val < a.val
  · refine ⟨⊤, by rw [if_pos hc], ?_⟩
    simp only [Px.top_val, clampSpec]
    rw [if_neg (by omega), if_pos (by omega)]
  · have hsum : t.cpp (a.val + b.val) = some (a.val + b.val) := cpp_of_mem (by omega) (by omega)
    refine ⟨t.wrap (a.val + b.val), by rw [if_neg hc, hsum]; rfl, ?_⟩
    rw [t.wrap_of_mem (by omega) (by omega), clampSpec, if_neg (by omega), if_neg (by omega)]

/-- **C06, subtraction, every type, partial**: right when the second operand is not negative.
Missing: negative second operands, see `C06_sub_signed_bug`. -/
theorem C06_sub_partial (a b : Px t) (hb0 : 0 ≤ b.val) :
    ∃ r, kSub a b = some r ∧ r.val = clampSpec t.lo t.hi (a.val - b.val) := by
  have h0 := t.lo_nonpos
  have h00 := t.hi_nonneg
  have ha := a.lo_le; have hb := b.lo_le; have ha' := a.le_hi; have hb' := b.le_hi
  have hu : t.cpp (t.lo + b.val) = some (t.lo + b.val) := cpp_of_mem (by omega) (by omega)
  have hw : (t.wrap (t.lo + b.val)).val = t.lo + b.val := t.wrap_of_mem (by omega) (by omega)
  simp only [kSub, hu, Option.bind_eq_bind, Option.bind_some, Px.lt_iff, hw]
  by_cases hc : a.val < t.lo + b.val
  · refine ⟨⊥, by rw [if_pos hc], ?_⟩
    simp only [Px.bot_val, clampSpec]
    rw [if_pos (by omega)]
  · have hsum : t.cpp (a.val - b.val) = some (a.val - b.val) := cpp_of_mem (by omega) (by omega)
    refine ⟨t.wrap (a.val - b.val), by rw [if_neg hc, hsum]; rfl, ?_⟩
    rw [t.wrap_of_mem (by omega) (by omega), clampSpec, if_neg (by omega), if_neg (by omega)]

/-- On `INT8` images adding `-1` to `5` saturates to 127: the saturation test wraps. -/
theorem C06_add_signed_bug :
    kAdd (t := INT8) ⟨5, by decide, by decide⟩ ⟨-1, by decide, by decide⟩ = some ⟨127, by decide, by decide⟩ := by decide

/-- On `INT8` images subtracting `-1` from `5` gives `-128`. -/
theorem C06_sub_signed_bug :
    kSub (t := INT8) ⟨5, by decide, by decide⟩ ⟨-1, by decide, by decide⟩ = some ⟨-128, by decide, by decide⟩ := by decide

/-- On `INT32` images adding a negative value is undefined behaviour (signed overflow). -/
theorem C06_add_int32_ub (a b : Px INT32) (hb : b.val < 0) : kAdd a b = none := by
  have : INT32.cpp (INT32.hi - b.val) = none := by
    unfold PT.cpp
    have : INT32.promoted = INT32 := rfl
    rw [this]
    have : INT32.signed = true := rfl
    rw [this, if_pos rfl, if_neg]
    have := int32_hi
    omega
  simp [kAdd, this]

/-- Hence the clamp statement without a guard on the operand is false. -/
theorem C06_add_fails :
    ¬ ∀ (t : PT) (a b : Px t), ∃ r, kAdd a b = some r ∧
        r.val = clampSpec t.lo t.hi (a.val + b.val) := by
  intro h
  obtain ⟨r, hr, hv⟩ := h INT8 ⟨5, by decide, by decide⟩ ⟨-1, by decide, by decide⟩
  rw [C06_add_signed_bug] at hr
  obtain rfl := Option.some.inj hr
  revert hv
  decide

/-- A saturating and a non saturating case of `UINT8`. -/
example : kAdd (t := UINT8) ⟨200, by decide, by decide⟩ ⟨100, by decide, by decide⟩ = some ⟨255, by decide, by decide⟩ ∧
    kAdd (t := UINT8) ⟨100, by decide, by decide⟩ ⟨100, by decide, by decide⟩ = some ⟨200, by decide, by decide⟩ ∧
    kSub (t := UINT8) ⟨3, by decide, by decide⟩ ⟨10, by decide, by decide⟩ = some ⟨0, by decide, by decide⟩ := by decide

/-! ## C07: wrapping arithmetic -/

/-- **C07, addition**: exact sum modulo the number of values of the type. -/
theorem C07_addNoSat (hs : t.signed = false ∨ t.bits ≤ 16) (a b : Px t) :
    ∃ r, kAddNoSat a b = some r ∧ IsResidue t.lo t.card (a.val + b.val) r.val := by
  have h0 := t.lo_nonpos; have h00 := t.hi_nonneg
  have ha := a.lo_le; have hb := b.lo_le; have ha' := a.le_hi; have hb' := b.le_hi
  obtain ⟨u, hu, hw⟩ := cpp_ok hs (v := a.val + b.val) (by omega) (by omega)
  refine ⟨t.wrap (a.val + b.val), by simp [kAddNoSat, hu, hw], Px.lo_le _, ?_, ?_⟩
  · have := Px.le_hi (t.wrap (a.val + b.val)); unfold PT.card; omega
  · obtain ⟨k, hk⟩ := t.wrap_dvd (a.val + b.val)
    exact ⟨k, by rw [mul_comm] at hk; omega⟩

/-- **C07, subtraction**: exact difference modulo the number of values of the type. -/
theorem C07_subNoSat (hs : t.signed = false ∨ t.bits ≤ 16) (a b : Px t) :
    ∃ r, kSubNoSat a b = some r ∧ IsResidue t.lo t.card (a.val - b.val) r.val := by
  have h0 := t.lo_nonpos; have h00 := t.hi_nonneg
  have ha := a.lo_le; have hb := b.lo_le; have ha' := a.le_hi; have hb' := b.le_hi
  obtain ⟨u, hu, hw⟩ := cpp_ok hs (v := a.val - b.val) (by omega) (by omega)
  refine ⟨t.wrap (a.val - b.val), by simp [kSubNoSat, hu, hw], Px.lo_le _, ?_, ?_⟩
  · have := Px.le_hi (t.wrap (a.val - b.val)); unfold PT.card; omega
  · obtain ⟨k, hk⟩ := t.wrap_dvd (a.val - b.val)
    exact ⟨k, by rw [mul_comm] at hk; omega⟩

/-- **C07, round trip**: `subNoSat(addNoSat(a,b),b) = a`. -/
theorem C07_add_sub_cancel (hs : t.signed = false ∨ t.bits ≤ 16) (a b : Px t) :
    (kAddNoSat a b).bind (fun s => kSubNoSat s b) = some a := by
  obtain ⟨s, hs1, hl, hh, k, hk⟩ := C07_addNoSat hs a b
  obtain ⟨r, hr1, hl', hh', k', hk'⟩ := C07_subNoSat hs s b
  rw [hs1, Option.bind_some, hr1]
  congr 1
  have h1 : t.wrap (s.val - b.val) = a :=
    wrap_unique (k := -k) (by linarith [hk])
  have h2 : t.wrap (s.val - b.val) = r := wrap_unique (k := k') hk'
  rw [← h2, h1]

/-- **C07, round trip**: `addNoSat(subNoSat(a,b),b) = a`. -/
theorem C07_sub_add_cancel (hs : t.signed = false ∨ t.bits ≤ 16) (a b : Px t) :
    (kSubNoSat a b).bind (fun s => kAddNoSat s b) = some a := by
  obtain ⟨s, hs1, hl, hh, k, hk⟩ := C07_subNoSat hs a b
  obtain ⟨r, hr1, hl', hh', k', hk'⟩ := C07_addNoSat hs s b
  rw [hs1, Option.bind_some, hr1]
  congr 1
  have h1 : t.wrap (s.val + b.val) = a :=
    wrap_unique (k := -k) (by linarith [hk])
  have h2 : t.wrap (s.val + b.val) = r := wrap_unique (k := k') hk'
  rw [← h2, h1]

/-- `mulNoSat` (DImageArith.hpp:812-818) runs the saturating kernel `mulLine`. -/
def kMulNoSatUsed (a b : Px t) : Option (Px t) := kMul a b

/-- The documented wrap-around does not happen in `mulNoSat`: 16*16 on `UINT8` is 255, while
the residue of 256 is 0. -/
theorem C07_mulNoSat_bug :
    kMulNoSatUsed (t := UINT8) ⟨16, by decide, by decide⟩ ⟨16, by decide, by decide⟩ = some ⟨255, by decide, by decide⟩ ∧
    IsResidue UINT8.lo UINT8.card (16 * 16) 0 := by
  refine ⟨by decide, by decide, by decide, 1, by decide⟩

/-- What `mul` and `mulNoSat` both compute on unsigned types: the product clamped. -/
theorem C07_mul_clamps (hs : t.signed = false) (a b : Px t) :
    ∃ r, kMul a b = some r ∧ r.val = clampSpec t.lo t.hi (a.val * b.val) := by
  have h0 := lo_unsigned hs
  have ha := a.lo_le; have hb := b.lo_le
  have hp : 0 ≤ a.val * b.val := mul_nonneg (by omega) (by omega)
  unfold kMul
  by_cases hc : a.val * b.val > t.hi
  · refine ⟨⊤, by rw [if_pos hc], ?_⟩
    rw [Px.top_val, clampSpec, if_neg (by omega), if_pos hc]
  · have : t.cpp (a.val * b.val) = some (a.val * b.val) := cpp_of_mem (by omega) (by omega)
    refine ⟨t.wrap (a.val * b.val), by rw [if_neg hc, this]; rfl, ?_⟩
    rw [t.wrap_of_mem (by omega) (by omega), clampSpec, if_neg (by omega), if_neg hc]

/-- The part of the product claim of C07 that holds: without overflow `mulNoSat` is exact. -/
theorem C07_mulNoSat_partial (hs : t.signed = false) (a b : Px t) (hfit : a.val * b.val ≤ t.hi) :
    ∃ r, kMulNoSatUsed a b = some r ∧ IsResidue t.lo t.card (a.val * b.val) r.val := by
  obtain ⟨r, hr, hv⟩ := C07_mul_clamps hs a b
  have h0 := lo_unsigned hs
  have hp : 0 ≤ a.val * b.val := by
    have ha := a.lo_le; have hb := b.lo_le
    exact mul_nonneg (by omega) (by omega)
  rw [clampSpec, if_neg (by omega), if_neg (by omega)] at hv
  refine ⟨r, hr, r.lo_le, ?_, 0, by omega⟩
  have := r.le_hi; unfold PT.card; omega

/-- Division: quotient of the magnitudes (truncated), the maximum for a zero divisor. -/
theorem C07_div_unsigned (hs : t.signed = false) (a b : Px t) :
    ∃ r, kDiv a b = some r ∧
      ((b.val = 0 → r.val = t.hi) ∧
       (b.val ≠ 0 → r.val * b.val ≤ a.val ∧ a.val < (r.val + 1) * b.val)) := by
  have h0 := lo_unsigned hs
  have ha := a.lo_le; have hb := b.lo_le; have ha' := a.le_hi
  unfold kDiv
  by_cases hc : b.val = 0
  · exact ⟨⊤, by rw [if_pos hc], fun _ => rfl, fun h => absurd hc h⟩
  · have hbp : 0 < b.val := by omega
    have hq0 : 0 ≤ a.val.tdiv b.val := Int.tdiv_nonneg (by omega) (by omega)
    have hq1 : a.val.tdiv b.val ≤ a.val := by
      rw [Int.tdiv_eq_ediv_of_nonneg (by omega)]
      exact Int.ediv_le_self _ (by omega)
    have : t.cpp (a.val.tdiv b.val) = some (a.val.tdiv b.val) := cpp_of_mem (by omega) (by omega)
    refine ⟨t.wrap (a.val.tdiv b.val), by rw [if_neg hc, this]; rfl, fun h => absurd h hc,
      fun _ => ?_⟩
    rw [t.wrap_of_mem (by omega) (by omega), Int.tdiv_eq_ediv_of_nonneg (by omega)]
    constructor
    · exact Int.ediv_mul_le _ hc
    · have := Int.lt_ediv_add_one_mul_self a.val hbp
      exact this

example : kAddNoSat (t := UINT8) ⟨200, by decide, by decide⟩ ⟨100, by decide, by decide⟩ = some ⟨44, by decide, by decide⟩ := by
  decide

/-! ## C08: inversion -/

/-- **C08**: inversion is defined on every pixel and is an involution. -/
theorem C08_inv_involution (hs : t.signed = false ∨ t.bits ≤ 16) (a : Px t) :
    ∃ b, kInv a = some b ∧ kInv b = some a := by
  refine ⟨_, kInv_eq hs a, ?_⟩
  rw [kInv_eq hs]
  congr 1
  apply Px.ext
  simp only
  omega

/-- **C08**: inversion reverses the order (both ways). -/
theorem C08_inv_antitone (hs : t.signed = false ∨ t.bits ≤ 16) (a b a' b' : Px t)
    (ha : kInv a = some a') (hb : kInv b = some b') : a ≤ b ↔ b' ≤ a' := by
  rw [kInv_eq hs] at ha hb
  obtain rfl := Option.some.inj ha
  obtain rfl := Option.some.inj hb
  rw [Px.le_iff, Px.le_iff]
  change a.val ≤ b.val ↔ t.hi + t.lo - b.val ≤ t.hi + t.lo - a.val
  omega

/-- **C08**: inversion exchanges the extreme values. -/
theorem C08_inv_extremes (hs : t.signed = false ∨ t.bits ≤ 16) :
    kInv (⊥ : Px t) = some ⊤ ∧ kInv (⊤ : Px t) = some ⊥ := by
  constructor <;> rw [kInv_eq hs] <;> congr 1 <;> apply Px.ext
  · change t.hi + t.lo - t.lo = t.hi; omega
  · change t.hi + t.lo - t.hi = t.lo; omega

/-- **C08**: De Morgan laws for `sup` and `inf`. -/
theorem C08_de_morgan (hs : t.signed = false ∨ t.bits ≤ 16) (a b a' b' : Px t)
    (ha : kInv a = some a') (hb : kInv b = some b') :
    kInv (kSup a b) = some (kInf a' b') ∧ kInv (kInf a b) = some (kSup a' b') := by
  have hle := C08_inv_antitone hs a b a' b' ha hb
  rcases le_total a b with h | h
  · have h' := hle.mp h
    rw [kSup_eq_max, kInf_eq_min, kInf_eq_min, kSup_eq_max, max_eq_right h, min_eq_right h',
      min_eq_left h, max_eq_left h']
    exact ⟨hb, ha⟩
  · have hle2 := C08_inv_antitone hs b a b' a' hb ha
    have h' := hle2.mp h
    rw [kSup_eq_max, kInf_eq_min, kInf_eq_min, kSup_eq_max, max_eq_left h, min_eq_left h',
      min_eq_right h, max_eq_right h']
    exact ⟨ha, hb⟩

/-- On `INT32` images inversion of a negative pixel is undefined behaviour. -/
theorem C08_inv_int32_ub (a : Px INT32) (h : a.val < 0) : kInv a = none := by
  have : INT32.cpp (INT32.hi - a.val) = none := by
    unfold PT.cpp
    have : INT32.promoted = INT32 := rfl
    rw [this]
    have : INT32.signed = true := rfl
    rw [this, if_pos rfl, if_neg]
    have := int32_hi
    omega
  simp [kInv, this]

example : kInv (t := INT8) ⟨-128, by decide, by decide⟩ = some ⟨127, by decide, by decide⟩ ∧
    kInv (t := INT8) ⟨5, by decide, by decide⟩ = some ⟨-6, by decide, by decide⟩ ∧
    kInv (t := UINT16) ⟨5, by decide, by decide⟩ = some ⟨65530, by decide, by decide⟩ := by decide

/-! ## C09: lattice -/

/-- **C09**: `sup`/`inf` satisfy the laws of a distributive lattice with the natural order. -/
theorem C09_lattice {α : Type} [LinearOrder α] (a b c : α) :
    kSup a b = kSup b a ∧ kInf a b = kInf b a ∧
    kSup (kSup a b) c = kSup a (kSup b c) ∧ kInf (kInf a b) c = kInf a (kInf b c) ∧
    kSup a a = a ∧ kInf a a = a ∧
    kSup a (kInf a b) = a ∧ kInf a (kSup a b) = a ∧
    kSup a (kInf b c) = kInf (kSup a b) (kSup a c) ∧
    kInf a (kSup b c) = kSup (kInf a b) (kInf a c) := by
  simp only [kSup_eq_max, kInf_eq_min]
  exact ⟨max_comm _ _, min_comm _ _, max_assoc _ _ _, min_assoc _ _ _, max_self _, min_self _,
    sup_inf_self, inf_sup_self, max_min_distrib_left _ _ _, min_max_distrib_left _ _ _⟩

/-- **C09**: `inf f g` is the greatest lower bound, `sup f g` the least upper bound. -/
theorem C09_bounds {α : Type} [LinearOrder α] (a b c : α) :
    kInf a b ≤ a ∧ kInf a b ≤ b ∧ a ≤ kSup a b ∧ b ≤ kSup a b ∧
    (c ≤ kInf a b ↔ c ≤ a ∧ c ≤ b) ∧ (kSup a b ≤ c ↔ a ≤ c ∧ b ≤ c) := by
  simp only [kSup_eq_max, kInf_eq_min]
  exact ⟨min_le_left _ _, min_le_right _ _, le_max_left _ _, le_max_right _ _, le_min_iff,
    max_le_iff⟩

/-- **C09, absolute difference, unsigned types**: the exact distance, and it is the saturated
difference of sup and inf. -/
theorem C09_absDiff (hs : t.signed = false) (a b : Px t) :
    ∃ r, kAbsDiff a b = some r ∧ r.val = |a.val - b.val| ∧
      kSub (kSup a b) (kInf a b) = some r := by
  have h0 := lo_unsigned hs
  have ha := a.lo_le; have hb := b.lo_le; have ha' := a.le_hi; have hb' := b.le_hi
  rw [kSup_eq_max, kInf_eq_min]
  obtain ⟨r, hr, hv⟩ := C06_sub_unsigned hs (max a b) (min a b)
  refine ⟨r, ?_, ?_, hr⟩
  · by_cases h : a > b
    · have h' : b.val < a.val := h
      have e1 : max a b = a := max_eq_left (le_of_lt h)
      have e2 : min a b = b := min_eq_right (le_of_lt h)
      rw [e1, e2, clampSpec, if_neg (by omega), if_neg (by omega)] at hv
      have hc : t.cpp (a.val - b.val) = some (a.val - b.val) := cpp_of_mem (by omega) (by omega)
      simp only [kAbsDiff, h, if_true, hc, Option.bind_eq_bind, Option.bind_some]
      rw [← hv, t.wrap_val]
    · have h' : a.val ≤ b.val := not_lt.mp h
      have e1 : max a b = b := max_eq_right (not_lt.mp h)
      have e2 : min a b = a := min_eq_left (not_lt.mp h)
      rw [e1, e2, clampSpec, if_neg (by omega), if_neg (by omega)] at hv
      have hc : t.cpp (b.val - a.val) = some (b.val - a.val) := cpp_of_mem (by omega) (by omega)
      simp only [kAbsDiff, h, if_false, hc, Option.bind_eq_bind, Option.bind_some]
      rw [← hv, t.wrap_val]
  · rcases le_total a b with h | h
    · have h' : a.val ≤ b.val := h
      rw [max_eq_right h, min_eq_left h, clampSpec, if_neg (by omega), if_neg (by omega)] at hv
      rw [hv, abs_sub_comm, abs_of_nonneg (by omega)]
    · have h' : b.val ≤ a.val := h
      rw [max_eq_left h, min_eq_right h, clampSpec, if_neg (by omega), if_neg (by omega)] at hv
      rw [hv, abs_of_nonneg (by omega)]

/-- On signed types the distance may not fit: `absDiff(-100, 100)` is `-56` on `INT8`. -/
theorem C09_absDiff_signed_bug :
    kAbsDiff (t := INT8) ⟨-100, by decide, by decide⟩ ⟨100, by decide, by decide⟩ = some ⟨-56, by decide, by decide⟩ := by decide

example : kAbsDiff (t := UINT8) ⟨3, by decide, by decide⟩ ⟨250, by decide, by decide⟩ = some ⟨247, by decide, by decide⟩ := by
  decide

/-! ## C10: comparisons -/

/-- Types whose maximum differs from 0, i.e. every type with at least one value bit. -/
def PT.Proper (t : PT) : Prop := 0 < t.hi

theorem zero_ne_top (h : t.Proper) : (Px.zero : Px t) ≠ ⊤ := by
  intro e
  have h2 := congrArg Px.val e
  change (0 : Int) = t.hi at h2
  unfold PT.Proper at h; omega

/-- **C10**: the comparison images only hold the maximum and zero, with the maximum exactly
where the comparison of the exact values is true. -/
theorem C10_values (h : t.Proper) (a b : Px t) :
    (kGrt a b = ⊤ ↔ a.val > b.val) ∧ (kGrt a b = Px.zero ↔ ¬ a.val > b.val) ∧
    (kGrtOrEqu a b = ⊤ ↔ a.val ≥ b.val) ∧ (kGrtOrEqu a b = Px.zero ↔ ¬ a.val ≥ b.val) ∧
    (kLow a b = ⊤ ↔ a.val < b.val) ∧ (kLow a b = Px.zero ↔ ¬ a.val < b.val) ∧
    (kLowOrEqu a b = ⊤ ↔ a.val ≤ b.val) ∧ (kLowOrEqu a b = Px.zero ↔ ¬ a.val ≤ b.val) ∧
    (kEqu a b = ⊤ ↔ a.val = b.val) ∧ (kEqu a b = Px.zero ↔ ¬ a.val = b.val) ∧
    (kDiff a b = ⊤ ↔ a.val ≠ b.val) ∧ (kDiff a b = Px.zero ↔ ¬ a.val ≠ b.val) := by
  have hz := zero_ne_top h
  have hz' := hz.symm
  have e : a = b ↔ a.val = b.val := Px.ext_iff'
  simp only [kGrt, kGrtOrEqu, kLow, kLowOrEqu, kEqu, kDiff, gt_iff_lt, ge_iff_le, Px.lt_iff,
    Px.le_iff, e]
  refine ⟨?_, ?_, ?_, ?_, ?_, ?_, ?_, ?_, ?_, ?_, ?_, ?_⟩ <;> split <;> simp_all

/-- **C10**: at each pixel exactly one of `low`, `equ`, `grt` is set. -/
theorem C10_partition (h : t.Proper) (a b : Px t) :
    (kLow a b = ⊤ ∧ kEqu a b = Px.zero ∧ kGrt a b = Px.zero) ∨
    (kLow a b = Px.zero ∧ kEqu a b = ⊤ ∧ kGrt a b = Px.zero) ∨
    (kLow a b = Px.zero ∧ kEqu a b = Px.zero ∧ kGrt a b = ⊤) := by
  obtain ⟨g1, g2, -, -, l1, l2, -, -, e1, e2, -, -⟩ := C10_values h a b
  rw [g1, g2, l1, l2, e1, e2]
  omega

/-- **C10**: the three other images are the complements, for every type whose inversion
exchanges 0 and the maximum (the unsigned types). -/
theorem C10_complements (hs : t.signed = false) (a b : Px t) :
    kInv (kGrt a b) = some (kLowOrEqu a b) ∧ kInv (kLow a b) = some (kGrtOrEqu a b) ∧
    kInv (kEqu a b) = some (kDiff a b) := by
  have hz : (Px.zero : Px t) = ⊥ := Px.ext (by
    change (0 : Int) = t.lo
    rw [lo_unsigned hs])
  obtain ⟨h1, h2⟩ := C08_inv_extremes (t := t) (Or.inl hs)
  simp only [kGrt, kGrtOrEqu, kLow, kLowOrEqu, kEqu, kDiff, hz]
  refine ⟨?_, ?_, ?_⟩
  · by_cases c : a > b
    · rw [if_pos c, if_neg (not_le.mpr c)]; exact h2
    · rw [if_neg c, if_pos (not_lt.mp c)]; exact h1
  · by_cases c : a < b
    · rw [if_pos c, if_neg (not_le.mpr c)]; exact h2
    · rw [if_neg c, if_pos (not_lt.mp c)]; exact h1
  · by_cases c : a = b
    · rw [if_pos c, if_pos c]; exact h2
    · rw [if_neg c, if_neg c]; exact h1

/-- Independent reading of an operator string. -/
def opSpec (op : String) (x y : Int) : Option Bool :=
  match op with
  | "==" => some (decide (x = y))
  | "!=" => some (decide (x ≠ y))
  | ">" => some (decide (y < x))
  | "<" => some (decide (x < y))
  | ">=" => some (decide (y ≤ x))
  | "<=" => some (decide (x ≤ y))
  | _ => none

theorem truthy_top (h : t.Proper) : (⊤ : Px t).truthy = true := by
  unfold PT.Proper at h
  simp only [Px.truthy, Px.top_val]
  exact decide_eq_true (by omega)

theorem truthy_zero : (Px.zero : Px t).truthy = false := by
  simp [Px.truthy, Px.zero, Px.val]

/-- **C10**: `compare` selects `trueVal` exactly where the operator holds, `falseVal`
elsewhere, and fails on an unknown operator. -/
theorem C10_compare {β : Type} (h : t.Proper) (op : String) (a b : Px t) (tv fv : β) :
    kCompare op a b tv fv = (opSpec op a.val b.val).map (fun c => if c then tv else fv) := by
  have e : a = b ↔ a.val = b.val := Px.ext_iff'
  have t1 := truthy_top h
  have t0 := truthy_zero (t := t)
  unfold kCompare compareKernel opSpec
  split_ifs with h1 h2 h3 h4 h5 h6
  · subst h1
    simp only [Option.map_some, kTest, kEqu, e]
    by_cases c : a.val = b.val <;> simp [c, t1, t0]
  · subst h2
    simp only [Option.map_some, kTest, kDiff, e]
    by_cases c : a.val = b.val <;> simp [c, t1, t0]
  · subst h3
    simp only [Option.map_some, kTest, kGrt, gt_iff_lt, Px.lt_iff]
    by_cases c : b.val < a.val <;> simp [c, t1, t0]
  · subst h4
    simp only [Option.map_some, kTest, kLow, Px.lt_iff]
    by_cases c : a.val < b.val <;> simp [c, t1, t0]
  · subst h5
    simp only [Option.map_some, kTest, kGrtOrEqu, ge_iff_le, Px.le_iff]
    by_cases c : b.val ≤ a.val <;> simp [c, t1, t0]
  · subst h6
    simp only [Option.map_some, kTest, kLowOrEqu, Px.le_iff]
    by_cases c : a.val ≤ b.val <;> simp [c, t1, t0]
  · split <;> simp_all

example : kCompare (t := UINT8) ">=" ⟨7, by decide, by decide⟩ ⟨7, by decide, by decide⟩ 1 2 = some 1 ∧
    kCompare (t := UINT8) "=>" ⟨7, by decide, by decide⟩ ⟨7, by decide, by decide⟩ 1 2 = none := by decide

example : UINT8.Proper ∧ INT16.Proper := by unfold PT.Proper; decide

end Smil
