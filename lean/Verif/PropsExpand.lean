import Verif.Expand
import Verif.PropsStretch
import Verif.ConvolveLemmas
import Verif.PropsLabel
import Mathlib.Analysis.SpecialFunctions.ExpDeriv
import Mathlib.Analysis.Calculus.Deriv.Inv

/-!
# C89: changing the scale of the values
-/

namespace Smil

section
variable {t t2 : PT}

/-! ### Specification -/

/-- The affine map that sends `a` to `c` and `b` to `d`. -/
def lineThrough (a b c d : Int) (v : Int) : ℚ := (c : ℚ) + ((v : ℚ) - a) * (((d : ℚ) - c) / ((b : ℚ) - a))

/-- Every pixel gets the integer part of its image by the affine map that sends `a` to `c` and `b` to `d`. -/
def IsTruncLin (a b c d : Int) (im : Img (Px t)) (out : Img (Px t2)) : Prop :=
  out.dims = im.dims ∧ ∀ p v, im.at? p = some v → ∃ n, out.at? p = some n ∧ IsTrunc (lineThrough a b c d v.val) n.val

/-- The order of the values is kept. -/
def KeepsOrder (im : Img (Px t)) (out : Img (Px t2)) : Prop :=
  ∀ p q u v m n, im.at? p = some u → im.at? q = some v → out.at? p = some m → out.at? q = some n → u ≤ v → m ≤ n

theorem lineThrough_left (a b c d : Int) : lineThrough a b c d a = c := by
  unfold lineThrough
  rw [sub_self, zero_mul, add_zero]

theorem lineThrough_right {a b : Int} (h : a ≠ b) (c d : Int) : lineThrough a b c d b = d := by
  unfold lineThrough
  have : (b : ℚ) - a ≠ 0 := by
    intro e
    have : (b : ℚ) = a := by linarith
    exact h (by exact_mod_cast this.symm)
  rw [mul_div_cancel₀ _ this]
  ring

theorem lineThrough_mono {a b c d : Int} (hab : a < b) (hcd : c ≤ d) {u v : Int} (h : u ≤ v) :
    lineThrough a b c d u ≤ lineThrough a b c d v := by
  unfold lineThrough
  have h1 : (0 : ℚ) < (b : ℚ) - a := by
    have : (a : ℚ) < b := by exact_mod_cast hab
    linarith
  have h2 : (0 : ℚ) ≤ (d : ℚ) - c := by
    have : (c : ℚ) ≤ d := by exact_mod_cast hcd
    linarith
  have h3 : (u : ℚ) ≤ v := by exact_mod_cast h
  have := mul_le_mul_of_nonneg_right (show (u : ℚ) - a ≤ v - a by linarith) (show (0 : ℚ) ≤ ((d : ℚ) - c) / ((b : ℚ) - a) by positivity)
  linarith

theorem lineThrough_swap (a b c d v : Int) (h : a ≠ b) : lineThrough a b c d v = lineThrough b a d c v := by
  unfold lineThrough
  have h1 : (b : ℚ) - a ≠ 0 := by
    intro e
    have : (b : ℚ) = a := by linarith
    exact h (by exact_mod_cast this.symm)
  have h2 : (a : ℚ) - b ≠ 0 := by
    intro e
    exact h1 (by linarith)
  rw [show (a : ℚ) - b = -((b : ℚ) - a) by ring, div_neg, ← neg_div, neg_sub]
  field_simp
  ring

theorem lineThrough_anti {a b c d : Int} (hab : a < b) (hcd : d ≤ c) {u v : Int} (h : u ≤ v) :
    lineThrough a b c d v ≤ lineThrough a b c d u := by
  have := lineThrough_mono hab (show -c ≤ -d by omega) h
  unfold lineThrough at this ⊢
  push_cast at this
  rw [show (-(d : ℚ) - -(c : ℚ)) = -((d : ℚ) - c) by ring, neg_div] at this
  linarith

theorem lineThrough_mem {a b c d v : Int} (hab : a < b) (h1 : a ≤ v) (h2 : v ≤ b) :
    (min c d : ℚ) ≤ lineThrough a b c d v ∧ lineThrough a b c d v ≤ (max c d : ℚ) := by
  have ea := lineThrough_left a b c d
  have eb := lineThrough_right (ne_of_lt hab) c d
  rcases le_total c d with h | h
  · have e1 := lineThrough_mono hab h h1
    have e2 := lineThrough_mono hab h h2
    rw [ea] at e1
    rw [eb] at e2
    exact ⟨(min_le_left _ _).trans e1, e2.trans (le_max_right _ _)⟩
  · have e1 := lineThrough_anti hab h h1
    have e2 := lineThrough_anti hab h h2
    rw [ea] at e1
    rw [eb] at e2
    exact ⟨(min_le_right _ _).trans e2, e1.trans (le_max_left _ _)⟩

theorem isTrunc_eq {q : ℚ} {m n : Int} (h : IsTrunc q n) (hq : q = m) : n = m := by
  subst hq
  exact le_antisymm (h.mono (isTrunc_int m) le_rfl) ((isTrunc_int m).mono h le_rfl)

/-- What follows from the affine map: the bounds go to the bounds, what is between them stays between them, and the order is kept, or
reversed. -/
theorem IsTruncLin.order {a b : Px t} {c d : Px t2} {im : Img (Px t)} {out : Img (Px t2)}
    (h : IsTruncLin a.val b.val c.val d.val im out) (hab : a < b) :
    (∀ p, im.at? p = some a → out.at? p = some c) ∧ (∀ p, im.at? p = some b → out.at? p = some d) ∧
    (∀ p v, im.at? p = some v → a ≤ v → v ≤ b → ∃ n, out.at? p = some n ∧ min c d ≤ n ∧ n ≤ max c d) ∧
    (c ≤ d → KeepsOrder im out) ∧
    (d ≤ c → ∀ p q u v m n, im.at? p = some u → im.at? q = some v → out.at? p = some m → out.at? q = some n → u ≤ v → n ≤ m) := by
  have hab' := Px.lt_iff.mp hab
  have hs := h.2
  refine ⟨fun p hp => ?_, fun p hp => ?_, fun p v hv h1 h2 => ?_, fun hcd p q u v m n hu hv hm hn huv => ?_,
    fun hcd p q u v m n hu hv hm hn huv => ?_⟩
  · obtain ⟨n, e1, e2⟩ := hs p a hp
    rw [e1, Px.ext (isTrunc_eq e2 (lineThrough_left _ _ _ _))]
  · obtain ⟨n, e1, e2⟩ := hs p b hp
    rw [e1, Px.ext (isTrunc_eq e2 (lineThrough_right (ne_of_lt hab') _ _))]
  · obtain ⟨n, e1, e2⟩ := hs p v hv
    obtain ⟨m1, m2⟩ := lineThrough_mem (c := c.val) (d := d.val) hab' (Px.le_iff.mp h1) (Px.le_iff.mp h2)
    refine ⟨n, e1, ?_, ?_⟩
    · rcases le_total c d with hcd | hcd
      · rw [min_eq_left hcd, Px.le_iff]
        refine (isTrunc_int c.val).mono e2 ?_
        rwa [min_eq_left (by exact_mod_cast Px.le_iff.mp hcd)] at m1
      · rw [min_eq_right hcd, Px.le_iff]
        refine (isTrunc_int d.val).mono e2 ?_
        rwa [min_eq_right (by exact_mod_cast Px.le_iff.mp hcd)] at m1
    · rcases le_total c d with hcd | hcd
      · rw [max_eq_right hcd, Px.le_iff]
        refine e2.mono (isTrunc_int d.val) ?_
        rwa [max_eq_right (by exact_mod_cast Px.le_iff.mp hcd)] at m2
      · rw [max_eq_left hcd, Px.le_iff]
        refine e2.mono (isTrunc_int c.val) ?_
        rwa [max_eq_left (by exact_mod_cast Px.le_iff.mp hcd)] at m2
  · obtain ⟨m', e1, f1⟩ := hs p u hu
    obtain ⟨n', e2, f2⟩ := hs q v hv
    rw [hm] at e1; cases e1
    rw [hn] at e2; cases e2
    exact Px.le_iff.mpr (f1.mono f2 (lineThrough_mono hab' (Px.le_iff.mp hcd) (Px.le_iff.mp huv)))
  · obtain ⟨m', e1, f1⟩ := hs p u hu
    obtain ⟨n', e2, f2⟩ := hs q v hv
    rw [hm] at e1; cases e1
    rw [hn] at e2; cases e2
    exact Px.le_iff.mpr (f2.mono f1 (lineThrough_anti hab' (Px.le_iff.mp hcd) (Px.le_iff.mp huv)))

/-- A kernel that gives every pixel of an image a value with `P` gives an image. -/
theorem mapK_forall (k : Px t → Option (Px t2)) (im : Img (Px t)) (P : Px t → Px t2 → Prop)
    (h : ∀ p v, im.at? p = some v → ∃ n, k v = some n ∧ P v n) :
    ∃ out, im.mapK k = some out ∧ out.dims = im.dims ∧ ∀ p v, im.at? p = some v → ∃ n, out.at? p = some n ∧ P v n := by
  obtain ⟨out, ho⟩ := Img.mapK_total k im (fun p v hv => by
    obtain ⟨n, hn, -⟩ := h p v hv
    rw [hn]; rfl)
  obtain ⟨h1, h2⟩ := Img.mapK_some _ _ _ ho
  refine ⟨out, ho, h1, fun p v hv => ?_⟩
  obtain ⟨n, hn, hn2⟩ := h2 p v hv
  obtain ⟨m, hm, hP⟩ := h p v hv
  rw [hn] at hm
  cases hm
  exact ⟨n, hn2, hP⟩

theorem lo_nonpos (t : PT) : t.lo ≤ 0 := by
  unfold PT.lo
  have h1 := Nat.one_le_two_pow (n := t.bits - 1)
  split <;> omega

theorem hi_nonneg (t : PT) : 0 ≤ t.hi := by
  unfold PT.hi
  have h1 := Nat.one_le_two_pow (n := t.bits - 1)
  have h2 := Nat.one_le_two_pow (n := t.bits)
  split <;> omega

theorem floor_half (t : PT) : ⌊(t.hi : ℝ) / 2⌋ = t.hi / 2 := by
  rw [Int.floor_eq_iff]
  have h1 : 2 * (t.hi / 2) ≤ t.hi := by omega
  have h2 : t.hi < 2 * (t.hi / 2) + 2 := by omega
  have h1' : (2 : ℝ) * ((t.hi / 2 : Int) : ℝ) ≤ t.hi := by exact_mod_cast h1
  have h2' : (t.hi : ℝ) < 2 * ((t.hi / 2 : Int) : ℝ) + 2 := by exact_mod_cast h2
  constructor <;> linarith

/-- The differences with a bound below are exact when the whole range is. -/
theorem DiffOk.below {a b v : Px t} (h : DiffOk a b) (h1 : a ≤ v) (h2 : v ≤ b) : DiffOk a v := by
  have e1 := Px.le_iff.mp h1
  have e2 := Px.le_iff.mp h2
  rcases h with h | ⟨hs, -⟩ | ⟨hs, h3, h4⟩
  · exact Or.inl h
  · exact Or.inr (Or.inl ⟨hs, h1⟩)
  · refine Or.inr (Or.inr ⟨hs, ?_, by omega⟩)
    have := t.lo_le_hi
    have h0 := lo_nonpos t
    omega

/-! ### `cast` -/

theorem hi_pos_u (hb : 0 < t.bits) (hs : t.signed = false) : 0 < t.hi := by
  unfold PT.hi
  rw [hs]
  have : 2 ^ 1 ≤ 2 ^ t.bits := Nat.pow_le_pow_right (by norm_num) hb
  simp only [Bool.false_eq_true, if_false]
  omega

theorem lo_lt_hi (hb : 2 ≤ t.bits) : t.lo < t.hi := by
  unfold PT.lo PT.hi
  have h1 : 2 ^ 1 ≤ 2 ^ (t.bits - 1) := Nat.pow_le_pow_right (by norm_num) (by omega)
  have h2 : 2 ^ 1 ≤ 2 ^ t.bits := Nat.pow_le_pow_right (by norm_num) (by omega)
  split <;> omega

/-- **C89**: `cast` to an unsigned type applies the affine map between the ranges of the two types. Partial: the code computes with `double`, the model exactly;
for signed output types see `C89_cast_signed_bug`. -/
theorem C89_cast_partial (auto : Bool) (im : Img (Px t)) (dout : Dims) (h : AcceptsS auto im.dims dout) (hb : 2 ≤ t.bits)
    (ht : t.bits ≤ 16 ∨ t.signed = false) (hs : t2.signed = false) :
    ∃ out : Img (Px t2), castImg auto im dout = some (.ok out) ∧ IsTruncLin t.lo t.hi t2.lo t2.hi im out := by
  have h0 := lo_unsigned hs
  have hl := lo_lt_hi hb
  have hI : DiffOk (⊥ : Px t) (⊤ : Px t) := by
    rcases ht with h | h
    · exact Or.inl h
    · exact Or.inr (Or.inl ⟨h, bot_le⟩)
  have hO : DiffOk (⊥ : Px t2) (⊤ : Px t2) := Or.inr (Or.inl ⟨hs, bot_le⟩)
  have e1 := hI.cpp
  have e2 := hO.cpp
  simp only [Px.bot_val, Px.top_val] at e1 e2
  obtain ⟨out, ho, hd, hv⟩ := mapK_forall (castPx (t2 := t2) (t2.hi - t2.lo) (t.hi - t.lo)) im
    (fun v n => IsTrunc (lineThrough t.lo t.hi t2.lo t2.hi v.val) n.val) (by
    intro p v _
    have e3 := (hI.below (v := v) bot_le le_top).cpp
    simp only [Px.bot_val] at e3
    obtain ⟨m1, m2⟩ := lineThrough_mem (c := t2.lo) (d := t2.hi) hl v.lo_le v.le_hi
    have hlh : (t2.lo : ℚ) ≤ t2.hi := by exact_mod_cast t2.lo_le_hi
    rw [min_eq_left hlh] at m1
    rw [max_eq_right hlh] at m2
    obtain ⟨n, hn, hn2⟩ := convToPx_spec (t := t2) m1 m2
    refine ⟨n, ?_, hn2⟩
    have ex : ((t2.hi - t2.lo : Int) : ℚ) / ((t.hi - t.lo : Int) : ℚ) * ((v.val - t.lo : Int) : ℚ) = lineThrough t.lo t.hi t2.lo t2.hi v.val := by
      unfold lineThrough
      rw [h0]
      push_cast
      ring
    have e4 : t2.cpp (t2.lo + n.val) = some (t2.lo + n.val) := by
      have := (show DiffOk (⊥ : Px t2) n from Or.inr (Or.inl ⟨hs, bot_le⟩)).cpp
      simp only [Px.bot_val, h0, sub_zero] at this
      rw [h0, zero_add, this]
    unfold castPx
    simp only [e3, Option.bind_eq_bind, Option.bind_some, ex, hn, e4]
    rw [h0, zero_add, PT.wrap_val]
    rfl)
  refine ⟨out, ?_, hd, hv⟩
  unfold castImg
  rw [stretchCheck_ok h]
  simp only [e1, e2, Option.bind_eq_bind, Option.bind_some, ho]
  rfl

/-- **C89**, order: `cast` keeps the order and sends the least value of the type to the least and the greatest to the greatest. -/
theorem C89_cast_order_partial (auto : Bool) (im : Img (Px t)) (dout : Dims) (h : AcceptsS auto im.dims dout) (hb : 2 ≤ t.bits)
    (ht : t.bits ≤ 16 ∨ t.signed = false) (hs : t2.signed = false) :
    ∃ out : Img (Px t2), castImg auto im dout = some (.ok out) ∧ KeepsOrder im out ∧
      (∀ p, im.at? p = some ⊥ → out.at? p = some ⊥) ∧ (∀ p, im.at? p = some ⊤ → out.at? p = some ⊤) := by
  obtain ⟨out, h1, h2⟩ := C89_cast_partial auto im dout h hb ht hs
  have h2' : IsTruncLin (⊥ : Px t).val (⊤ : Px t).val (⊥ : Px t2).val (⊤ : Px t2).val im out := by
    simpa only [Px.bot_val, Px.top_val] using h2
  obtain ⟨o1, o2, -, o3, -⟩ := h2'.order (Px.lt_iff.mpr (by simpa only [Px.bot_val, Px.top_val] using lo_lt_hi hb))
  exact ⟨out, h1, o3 bot_le, o1, o2⟩

theorem hi_dvd (hs : t.signed = false) (hs2 : t2.signed = false) (hd : t.bits ∣ t2.bits) : t.hi ∣ t2.hi := by
  obtain ⟨k, hk⟩ := hd
  unfold PT.hi
  rw [hs, hs2, hk]
  simp only [Bool.false_eq_true, if_false]
  have := sub_one_dvd_pow_sub_one ((2 : Int) ^ t.bits) k
  rw [← pow_mul] at this
  push_cast
  exact this

/-- **C89**, round trip: `cast` to a wider unsigned type (8, 16, 32 bits) and back gives the image back. -/
theorem C89_cast_back_partial (im : Img (Px t)) (hc : im.dims.count ≠ 0) (hb : 2 ≤ t.bits) (hs : t.signed = false)
    (hs2 : t2.signed = false) (hd : t.bits ∣ t2.bits) (hb2 : t2.bits ≠ 0) :
    ∃ (mid : Img (Px t2)) (back : Img (Px t)), castImg false im im.dims = some (.ok mid) ∧ castImg false mid im.dims = some (.ok back) ∧
      back.dims = im.dims ∧ ∀ p v, im.at? p = some v → back.at? p = some v := by
  have hle := Nat.le_of_dvd (by omega) hd
  obtain ⟨mid, m1, m2, m3⟩ := C89_cast_partial (t2 := t2) false im im.dims ⟨hc, Or.inl rfl⟩ hb (Or.inr hs) hs2
  obtain ⟨back, b1, b2, b3⟩ := C89_cast_partial (t2 := t) false mid im.dims ⟨by rw [m2]; exact hc, Or.inl m2.symm⟩ (by omega) (Or.inr hs2) hs
  refine ⟨mid, back, m1, b1, b2.trans m2, fun p v hv => ?_⟩
  obtain ⟨n, n1, n2⟩ := m3 p v hv
  obtain ⟨r, r1, r2⟩ := b3 p n n1
  obtain ⟨k, hk⟩ := hi_dvd hs hs2 hd
  have h1 : (t.hi : ℚ) ≠ 0 := by exact_mod_cast (hi_pos_u (by omega) hs).ne'
  have h2 : (t2.hi : ℚ) ≠ 0 := by exact_mod_cast (hi_pos_u (by omega) hs2).ne'
  have hkq : (t2.hi : ℚ) = t.hi * k := by exact_mod_cast hk
  have en : n.val = v.val * k := by
    refine isTrunc_eq n2 ?_
    unfold lineThrough
    rw [lo_unsigned hs, lo_unsigned hs2, hkq]
    push_cast
    field_simp
    ring
  have er : r.val = v.val := by
    refine isTrunc_eq r2 ?_
    unfold lineThrough
    rw [lo_unsigned hs, lo_unsigned hs2, en]
    push_cast
    rw [hkq]
    rw [hkq] at h2
    have hk0 : (k : ℚ) ≠ 0 := right_ne_zero_of_mul h2
    field_simp
    ring
  rw [r1, Px.ext er]

/-! ### `expand` -/

/-- **C89**: `expand` to a range `[Min, Max]` applies the affine map that sends the bounds of the input, those of the image with `onlyNonZero` and those of the type
without, to `Min` and `Max`. Partial: the code computes with `double`, the model exactly. -/
theorem C89_expand_partial (auto : Bool) (im : Img (Px t)) (c d : Px t2) (nz : Bool) (dout : Dims) (h : AcceptsD auto im.dims dout) (a b : Px t)
    (hr : (nz = true ∧ IsRange im a b) ∨ (nz = false ∧ a = ⊥ ∧ b = ⊤)) (hab : a ≠ b) (hi : DiffOk a b) (ho : DiffOk c d) :
    ∃ out, expandTo auto im c d nz dout = some (.ok out) ∧ IsTruncLin a.val b.val c.val d.val im out ∧
      (∀ p, im.at? p = some a → out.at? p = some c) ∧ (∀ p, im.at? p = some b → out.at? p = some d) ∧
      (∀ p n, out.at? p = some n → min c d ≤ n ∧ n ≤ max c d) ∧ (c ≤ d → KeepsOrder im out) := by
  have hmem : ∀ p v, im.at? p = some v → a ≤ v ∧ v ≤ b := by
    rcases hr with ⟨-, hr⟩ | ⟨-, rfl, rfl⟩
    · exact hr.2.2
    · exact fun _ _ _ => ⟨bot_le, le_top⟩
  have hle : a ≤ b := by
    rcases hr with ⟨-, ⟨p, hp⟩, -, hr⟩ | ⟨-, rfl, rfl⟩
    · exact (hr p a hp).2
    · exact bot_le
  have hlt : a < b := lt_of_le_of_ne hle hab
  have hlt' := Px.lt_iff.mp hlt
  have ea : (if nz then minValOf false im else ⊥) = a := by
    rcases hr with ⟨rfl, hr⟩ | ⟨rfl, rfl, rfl⟩
    · exact ((rangeVal_isRange im (range_of_isRange hr).1).2.unique hr).1
    · rfl
  have eb : (if nz then maxValOf false im else ⊤) = b := by
    rcases hr with ⟨rfl, hr⟩ | ⟨rfl, rfl, rfl⟩
    · exact ((rangeVal_isRange im (range_of_isRange hr).1).2.unique hr).2
    · rfl
  obtain ⟨out, o1, o2, o3⟩ := mapK_forall (expandPx a c (d.val - c.val) (b.val - a.val)) im
    (fun v n => IsTrunc (lineThrough a.val b.val c.val d.val v.val) n.val) (by
    intro p v hv
    obtain ⟨v1, v2⟩ := hmem p v hv
    obtain ⟨m1, m2⟩ := lineThrough_mem (c := c.val) (d := d.val) hlt' (Px.le_iff.mp v1) (Px.le_iff.mp v2)
    have c1 : (t2.lo : ℚ) ≤ c.val := by exact_mod_cast c.lo_le
    have c2 : (c.val : ℚ) ≤ t2.hi := by exact_mod_cast c.le_hi
    have d1 : (t2.lo : ℚ) ≤ d.val := by exact_mod_cast d.lo_le
    have d2 : (d.val : ℚ) ≤ t2.hi := by exact_mod_cast d.le_hi
    obtain ⟨n, hn, hn2⟩ := convToPx_spec (t := t2) ((le_min c1 d1).trans m1) (m2.trans (max_le c2 d2))
    refine ⟨n, ?_, hn2⟩
    have ex : (c.val : ℚ) + ((d.val - c.val : Int) : ℚ) / ((b.val - a.val : Int) : ℚ) * ((v.val - a.val : Int) : ℚ) =
        lineThrough a.val b.val c.val d.val v.val := by
      unfold lineThrough
      push_cast
      ring
    unfold expandPx
    simp only [(hi.below v1 v2).cpp, Option.bind_eq_bind, Option.bind_some, ex, hn])
  have hlin : IsTruncLin a.val b.val c.val d.val im out := ⟨o2, o3⟩
  obtain ⟨q1, q2, q3, q4, -⟩ := hlin.order hlt
  refine ⟨out, ?_, hlin, q1, q2, ?_, q4⟩
  · unfold expandTo
    rw [checkDims_ok h]
    simp only [ea, eb, hi.cpp, ho.cpp, Option.bind_eq_bind, Option.bind_some, o1]
    rw [if_neg (by omega)]
    rfl
  · intro p n hn
    have hin := Img.at?_eq_some_in _ _ _ hn
    rw [o2] at hin
    have hv := Img.at?_some im p hin
    obtain ⟨v1, v2⟩ := hmem p _ hv
    obtain ⟨n', e1, e2⟩ := q3 p _ hv v1 v2
    rw [hn] at e1
    cases e1
    exact e2

/-- **C89**: `expand` without bounds uses the whole range of the output type: the bounds of the input go to its least and greatest value. -/
theorem C89_expand_full_partial (auto : Bool) (im : Img (Px t)) (nz : Bool) (dout : Dims) (h : AcceptsD auto im.dims dout) (a b : Px t)
    (hr : (nz = true ∧ IsRange im a b) ∨ (nz = false ∧ a = ⊥ ∧ b = ⊤)) (hab : a ≠ b) (hi : DiffOk a b) (ho : DiffOk (⊥ : Px t2) ⊤) :
    ∃ out : Img (Px t2), expandFull auto im nz dout = some (.ok out) ∧ IsTruncLin a.val b.val t2.lo t2.hi im out ∧
      (∀ p, im.at? p = some a → out.at? p = some ⊥) ∧ (∀ p, im.at? p = some b → out.at? p = some ⊤) ∧ KeepsOrder im out := by
  obtain ⟨out, h1, h2, h3, h4, -, h5⟩ := C89_expand_partial auto im ⊥ ⊤ nz dout h a b hr hab hi ho
  exact ⟨out, h1, by simpa only [Px.bot_val, Px.top_val] using h2, h3, h4, h5 bot_le⟩

/-- **C89**: a constant image with `onlyNonZero` is refused. -/
theorem C89_expand_flat (auto : Bool) (im : Img (Px t)) (c d : Px t2) (dout : Dims) (h : AcceptsD auto im.dims dout) (a : Px t)
    (hr : IsRange im a a) : expandTo auto im c d true dout = some (.error (-100)) := by
  have e := (rangeVal_isRange im (range_of_isRange hr).1).2.unique hr
  unfold expandTo
  rw [checkDims_ok h]
  have hz : DiffOk a a := by
    by_cases hs : t.signed = true
    · refine Or.inr (Or.inr ⟨hs, ?_, ?_⟩) <;> rw [sub_self]
      · exact lo_nonpos t
      · exact hi_nonneg t
    · exact Or.inr (Or.inl ⟨by simpa using hs, le_rfl⟩)
  simp only [if_true, e.1, e.2, hz.cpp, Option.bind_eq_bind, Option.bind_some]
  rw [if_pos (sub_self _)]
  rfl

/-- The broken line through `(0, 0)`, `(a, c)`, `(b, d)` and `(top, top2)`. -/
def IsBroken (a b c d top top2 : Int) (v n : Int) : Prop :=
  (v < a → IsTrunc (lineThrough 0 a 0 c v) n) ∧ (a ≤ v → v ≤ b → IsTrunc (lineThrough a b c d v) n) ∧
  (b ≤ v → IsTrunc (lineThrough b top d top2 v) n)

/-- **C89**: `expand` with two ranges applies the broken line through the origin, `(inMin, outMin)`, `(inMax, outMax)` and the greatest values of the types, for unsigned types
and bounds in order. Partial: the code computes with `double`, the model exactly; see `C89_expand3_signed_bug` and `C89_expand3_reversed_bug` for the other cases. -/
theorem C89_expand3_partial (auto : Bool) (im : Img (Px t)) (a b : Px t) (c d : Px t2) (dout : Dims) (h : AcceptsD auto im.dims dout) (hs : t.signed = false)
    (hs2 : t2.signed = false) (hab : a < b) (hcd : c ≤ d) :
    ∃ out, expand3 auto im a b c d dout = some (.ok out) ∧ out.dims = im.dims ∧ (∀ p v, im.at? p = some v → ∃ n, out.at? p = some n ∧
      IsBroken a.val b.val c.val d.val t.hi t2.hi v.val n.val ∧ (v ≤ a → n ≤ c) ∧ (a ≤ v → v ≤ b → c ≤ n ∧ n ≤ d) ∧ (b ≤ v → d ≤ n)) ∧
      KeepsOrder im out := by
  have hab' := Px.lt_iff.mp hab
  have hcd' := Px.le_iff.mp hcd
  have l0 := lo_unsigned hs
  have l2 := lo_unsigned hs2
  have a0 := a.lo_le
  have c0 := c.lo_le
  have bh := b.le_hi
  have dh := d.le_hi
  have i1 : t.cpp (b.val - a.val) = some (b.val - a.val) := DiffOk.cpp (Or.inr (Or.inl ⟨hs, hab.le⟩))
  have i2 : t.cpp (t.hi - b.val) = some (t.hi - b.val) := by
    have := (show DiffOk b (⊤ : Px t) from Or.inr (Or.inl ⟨hs, le_top⟩)).cpp
    simpa only [Px.top_val] using this
  have o1 : t2.cpp (d.val - c.val) = some (d.val - c.val) := DiffOk.cpp (Or.inr (Or.inl ⟨hs2, hcd⟩))
  have o2 : t2.cpp (t2.hi - d.val) = some (t2.hi - d.val) := by
    have := (show DiffOk d (⊤ : Px t2) from Or.inr (Or.inl ⟨hs2, le_top⟩)).cpp
    simpa only [Px.top_val] using this
  set K : ExpandK := ⟨if a.val > 0 then (c.val : ℚ) / (a.val : ℚ) else 0, ((d.val - c.val : Int) : ℚ) / ((b.val - a.val : Int) : ℚ),
    if t.hi > b.val then ((t2.hi - d.val : Int) : ℚ) / ((t.hi - b.val : Int) : ℚ) else 0⟩ with hK
  have hk : expandK a b c d = some K := by
    unfold expandK
    rw [if_pos (show b.val > a.val from hab')]
    by_cases hb : t.hi > b.val
    · simp only [i1, i2, o1, o2, hb, if_true, Option.bind_eq_bind, Option.bind_some, Option.pure_def, hK]
    · simp only [i1, o1, hb, if_false, Option.bind_eq_bind, Option.bind_some, Option.pure_def, hK]
  -- the three pieces
  have p1 : ∀ v : Px t, v.val < a.val → ∃ n, expandPx3 K a b c d v = some n ∧ IsTrunc (lineThrough 0 a.val 0 c.val v.val) n.val := by
    intro v hv
    have v0 := v.lo_le
    obtain ⟨m1, m2⟩ := lineThrough_mem (a := 0) (b := a.val) (c := 0) (d := c.val) (v := v.val) (by omega) (by omega) hv.le
    have cq : (0 : ℚ) ≤ c.val := by exact_mod_cast (by omega : (0 : Int) ≤ c.val)
    have ch : (c.val : ℚ) ≤ t2.hi := by exact_mod_cast c.le_hi
    have lq : (t2.lo : ℚ) = 0 := by exact_mod_cast l2
    rw [Int.cast_zero, min_eq_left cq] at m1
    rw [Int.cast_zero, max_eq_right cq] at m2
    obtain ⟨n, hn, hn2⟩ := convToPx_spec (t := t2) (by rw [lq]; exact m1) (m2.trans ch)
    refine ⟨n, ?_, hn2⟩
    unfold expandPx3
    rw [if_pos hv, ← hn, hK]
    simp only [if_pos (show a.val > 0 by omega)]
    congr 1
    unfold lineThrough
    push_cast
    ring
  have p2 : ∀ v : Px t, a.val ≤ v.val → v.val < b.val → ∃ n, expandPx3 K a b c d v = some n ∧ IsTrunc (lineThrough a.val b.val c.val d.val v.val) n.val := by
    intro v hv hv2
    obtain ⟨m1, m2⟩ := lineThrough_mem (c := c.val) (d := d.val) hab' hv hv2.le
    have cq : (c.val : ℚ) ≤ d.val := by exact_mod_cast hcd'
    have ch : (d.val : ℚ) ≤ t2.hi := by exact_mod_cast dh
    have lq : (t2.lo : ℚ) ≤ c.val := by exact_mod_cast c0
    rw [min_eq_left cq] at m1
    rw [max_eq_right cq] at m2
    obtain ⟨n, hn, hn2⟩ := convToPx_spec (t := t2) (lq.trans m1) (m2.trans ch)
    refine ⟨n, ?_, hn2⟩
    have e := (show DiffOk a v from Or.inr (Or.inl ⟨hs, Px.le_iff.mpr hv⟩)).cpp
    unfold expandPx3
    rw [if_neg (by omega), if_pos hv2, ← hn, hK]
    simp only [e, Option.bind_eq_bind, Option.bind_some]
    congr 1
    unfold lineThrough
    push_cast
    ring
  have p3 : ∀ v : Px t, b.val ≤ v.val → ∃ n, expandPx3 K a b c d v = some n ∧ IsTrunc (lineThrough b.val t.hi d.val t2.hi v.val) n.val := by
    intro v hv
    have vh := v.le_hi
    have e := (show DiffOk b v from Or.inr (Or.inl ⟨hs, Px.le_iff.mpr hv⟩)).cpp
    have ex : expandPx3 K a b c d v = convToPx t2 (lineThrough b.val t.hi d.val t2.hi v.val) := by
      unfold expandPx3
      rw [if_neg (by omega), if_neg (by omega), hK]
      simp only [e, Option.bind_eq_bind, Option.bind_some]
      congr 1
      unfold lineThrough
      by_cases hb : t.hi > b.val
      · rw [if_pos hb]
        push_cast
        ring
      · rw [if_neg hb, show v.val = b.val by omega]
        push_cast
        ring
    have hd2 : (d.val : ℚ) ≤ t2.hi := by exact_mod_cast dh
    have hlo : (t2.lo : ℚ) ≤ d.val := by exact_mod_cast d.lo_le
    by_cases hb : t.hi > b.val
    · obtain ⟨m1, m2⟩ := lineThrough_mem (c := d.val) (d := t2.hi) hb hv vh
      rw [min_eq_left hd2] at m1
      rw [max_eq_right hd2] at m2
      rw [ex]
      exact convToPx_spec (t := t2) (hlo.trans m1) m2
    · rw [ex, show v.val = b.val by omega, lineThrough_left]
      exact convToPx_spec (t := t2) hlo hd2
  have P : ∀ v : Px t, ∃ n, expandPx3 K a b c d v = some n ∧ IsBroken a.val b.val c.val d.val t.hi t2.hi v.val n.val := by
    intro v
    by_cases h1 : v.val < a.val
    · obtain ⟨n, e1, e2⟩ := p1 v h1
      exact ⟨n, e1, fun _ => e2, fun h => by omega, fun h => by omega⟩
    · by_cases h2 : v.val < b.val
      · obtain ⟨n, e1, e2⟩ := p2 v (by omega) h2
        exact ⟨n, e1, fun h => by omega, fun _ _ => e2, fun h => by omega⟩
      · obtain ⟨n, e1, e2⟩ := p3 v (by omega)
        refine ⟨n, e1, fun h => by omega, fun _ h => ?_, fun _ => e2⟩
        have hvb : v.val = b.val := by omega
        rw [hvb, lineThrough_right (ne_of_lt hab')]
        rw [hvb, lineThrough_left] at e2
        exact e2
  -- the bounds of the pieces
  have B : ∀ (v : Px t) (n : Int), IsBroken a.val b.val c.val d.val t.hi t2.hi v.val n →
      (v.val ≤ a.val → n ≤ c.val) ∧ (a.val ≤ v.val → v.val ≤ b.val → c.val ≤ n ∧ n ≤ d.val) ∧ (b.val ≤ v.val → d.val ≤ n) := by
    intro v n hn
    have mid : a.val ≤ v.val → v.val ≤ b.val → c.val ≤ n ∧ n ≤ d.val := by
      intro h1 h2
      obtain ⟨m1, m2⟩ := lineThrough_mem (c := c.val) (d := d.val) hab' h1 h2
      have cq : (c.val : ℚ) ≤ d.val := by exact_mod_cast hcd'
      rw [min_eq_left cq] at m1
      rw [max_eq_right cq] at m2
      exact ⟨(isTrunc_int _).mono (hn.2.1 h1 h2) m1, (hn.2.1 h1 h2).mono (isTrunc_int _) m2⟩
    refine ⟨fun h => ?_, mid, fun h => ?_⟩
    · rcases lt_or_eq_of_le h with h | h
      · have v0 := v.lo_le
        have := lineThrough_mono (a := 0) (b := a.val) (c := 0) (d := c.val) (by omega) (by omega) h.le
        rw [lineThrough_right (by omega)] at this
        exact (hn.1 h).mono (isTrunc_int _) this
      · have := hn.2.1 (by omega) (by omega)
        rw [h, lineThrough_left] at this
        exact this.mono (isTrunc_int _) le_rfl
    · rcases lt_or_ge b.val t.hi with hb | hb
      · have := lineThrough_mono (c := d.val) (d := t2.hi) hb dh h
        rw [lineThrough_left] at this
        exact (isTrunc_int _).mono (hn.2.2 h) this
      · have vh := v.le_hi
        have := hn.2.2 h
        rw [show v.val = b.val by omega, lineThrough_left] at this
        exact (isTrunc_int _).mono this le_rfl
  obtain ⟨out, q1, q2, q3⟩ := mapK_forall (expandPx3 K a b c d) im (fun v n => IsBroken a.val b.val c.val d.val t.hi t2.hi v.val n.val) (fun p v _ => P v)
  refine ⟨out, ?_, q2, ?_, ?_⟩
  · unfold expand3
    rw [checkDims_ok h]
    simp only [i1, Option.bind_eq_bind, Option.bind_some, hk, q1]
    rw [if_neg (by omega)]
    rfl
  · intro p v hv
    obtain ⟨n, e1, e2⟩ := q3 p v hv
    obtain ⟨b1, b2, b3⟩ := B v n.val e2
    exact ⟨n, e1, e2, fun h => Px.le_iff.mpr (b1 (Px.le_iff.mp h)),
      fun h h' => ⟨Px.le_iff.mpr (b2 (Px.le_iff.mp h) (Px.le_iff.mp h')).1, Px.le_iff.mpr (b2 (Px.le_iff.mp h) (Px.le_iff.mp h')).2⟩,
      fun h => Px.le_iff.mpr (b3 (Px.le_iff.mp h))⟩
  · intro p q u v m n hu hv hm hn huv
    obtain ⟨m', e1, f1⟩ := q3 p u hu
    obtain ⟨n', e2, f2⟩ := q3 q v hv
    rw [hm] at e1; cases e1
    rw [hn] at e2; cases e2
    have huv := Px.le_iff.mp huv
    have gu := B u m.val f1
    have gv := B v n.val f2
    have u0 := u.lo_le
    rw [Px.le_iff]
    by_cases h1 : v.val < a.val
    · exact (f1.1 (by omega)).mono (f2.1 h1) (lineThrough_mono (by omega) (by omega) huv)
    by_cases h2 : u.val < a.val
    · have k1 := gu.1 h2.le
      by_cases h3 : v.val ≤ b.val
      · have := (gv.2.1 (by omega) h3).1
        omega
      · have := gv.2.2 (by omega)
        omega
    by_cases h3 : v.val ≤ b.val
    · exact (f1.2.1 (by omega) (by omega)).mono (f2.2.1 (by omega) h3) (lineThrough_mono hab' hcd' huv)
    by_cases h4 : u.val < b.val
    · have k1 := (gu.2.1 (by omega) h4.le).2
      have k2 := gv.2.2 (by omega)
      omega
    · have vh := v.le_hi
      exact (f1.2.2 (by omega)).mono (f2.2.2 (by omega)) (lineThrough_mono (by omega) dh huv)

/-! ### `sCurve` -/

/-- The curve of `sCurve`: a sigmoid of height `M` centred at `m`. -/
noncomputable def sigmoid (M ratio range m : ℝ) (x : ℝ) : ℝ := M / (1 + Real.exp (-(4 * ratio / range) * (x - m)))

/-- **C89**, the curve: it is half its height at the pivot, with slope `ratio` times the height over the range, and keeps the order if the ratio is not negative. -/
theorem C89_sigmoid (M ratio range m : ℝ) (hM : 0 ≤ M) (hr : 0 < range) :
    sigmoid M ratio range m m = M / 2 ∧ HasDerivAt (sigmoid M ratio range m) (ratio * (M / range)) m ∧
    (0 ≤ ratio → Monotone (sigmoid M ratio range m)) ∧ ∀ x, 0 ≤ sigmoid M ratio range m x ∧ sigmoid M ratio range m x ≤ M := by
  refine ⟨?_, ?_, ?_, ?_⟩
  · unfold sigmoid
    rw [sub_self, mul_zero, Real.exp_zero]
    norm_num
  · have h1 : HasDerivAt (fun x : ℝ => -(4 * ratio / range) * (x - m)) (-(4 * ratio / range) * 1) m :=
      ((hasDerivAt_id m).sub_const m).const_mul _
    have h2 := (h1.exp).const_add 1
    have h3 := (h2.inv (by
      have := Real.exp_pos (-(4 * ratio / range) * (m - m))
      linarith)).const_mul M
    refine (h3.congr_deriv ?_).congr_of_eventuallyEq (Filter.Eventually.of_forall fun x => ?_)
    · rw [sub_self, mul_zero, Real.exp_zero]
      field_simp
      ring
    · unfold sigmoid
      rw [div_eq_mul_inv]
      rfl
  · intro h0 x y hxy
    unfold sigmoid
    have e1 := Real.exp_pos (-(4 * ratio / range) * (y - m))
    refine div_le_div_of_nonneg_left hM (by linarith) ?_
    have : -(4 * ratio / range) * (y - m) ≤ -(4 * ratio / range) * (x - m) := by
      have : 0 ≤ 4 * ratio / range := by positivity
      nlinarith
    have := Real.exp_le_exp.mpr this
    linarith
  · intro x
    have e1 := Real.exp_pos (-(4 * ratio / range) * (x - m))
    unfold sigmoid
    exact ⟨by positivity, div_le_self hM (by linarith)⟩

theorem convR_floor {x : ℝ} (h1 : 0 ≤ x) (h2 : x ≤ t2.hi) : ∃ n, convRToPx t2 x = some n ∧ n.val = ⌊x⌋ := by
  have f0 : 0 ≤ ⌊x⌋ := Int.floor_nonneg.mpr h1
  have f1 : ⌊x⌋ ≤ t2.hi := by
    have := Int.floor_le_floor h2
    rwa [Int.floor_intCast] at this
  have hlo := lo_nonpos t2
  refine ⟨⟨⌊x⌋, by omega, f1⟩, ?_, rfl⟩
  unfold convRToPx
  simp only [if_pos h1]
  rw [dif_pos ⟨by omega, f1⟩]

theorem sCurve_at (auto : Bool) (im : Img (Px t)) (m : Px t) (ratio : ℝ) (dout : Dims) (h : AcceptsD auto im.dims dout) (a b pivot : Px t)
    (hr : IsRange im a b) (hab : a ≠ b) (hb : t.bits ≤ 16) (hm : sCentre pivot b (b.val - a.val) = m) :
    ∃ out : Img (Px t2), sCurve auto im pivot ratio dout = some (.ok out) ∧ out.dims = im.dims ∧ ∀ p v, im.at? p = some v → ∃ n, out.at? p = some n ∧
      n.val = ⌊sigmoid t2.hi ratio (b.val - a.val : Int) m.val v.val⌋ := by
  have e := (rangeVal_isRange im (range_of_isRange hr).1).2.unique hr
  have hle : a ≤ b := by
    obtain ⟨p, hp⟩ := hr.1
    exact (hr.2.2 p a hp).2
  have hlt := Px.lt_iff.mp (lt_of_le_of_ne hle hab)
  have hrange : (0 : ℝ) < ((b.val - a.val : Int) : ℝ) := by exact_mod_cast (by omega : 0 < b.val - a.val)
  have hM : (0 : ℝ) ≤ t2.hi := by exact_mod_cast hi_nonneg t2
  obtain ⟨out, o1, o2, o3⟩ := mapK_forall (sCurvePx (t2 := t2) (4 * ratio / ((b.val - a.val : Int) : ℝ)) m) im
    (fun v n => n.val = ⌊sigmoid t2.hi ratio (b.val - a.val : Int) m.val v.val⌋) (by
    intro p v _
    obtain ⟨s1, s2⟩ := (C89_sigmoid t2.hi ratio (b.val - a.val : Int) m.val hM hrange).2.2.2 v.val
    obtain ⟨n, hn, hn2⟩ := convR_floor (t2 := t2) s1 s2
    refine ⟨n, ?_, hn2⟩
    unfold sCurvePx
    rw [(show DiffOk m v from Or.inl hb).cpp]
    simp only [Option.bind_eq_bind, Option.bind_some]
    rw [← hn]
    congr 1
    unfold sigmoid
    push_cast
    rfl)
  refine ⟨out, ?_, o2, o3⟩
  unfold sCurve
  rw [checkDims_ok h]
  simp only [e.1, e.2, (show DiffOk a b from Or.inl hb).cpp, Option.bind_eq_bind, Option.bind_some, hm, o1]
  rw [if_neg (by omega)]
  rfl

/-- **C89**: with a pivot other than zero and not above the image, `sCurve` applies the integer part of the sigmoid centred at the pivot; the order is kept and the pixels
at the pivot get half of the greatest value. Partial: real numbers instead of `double`, types of 8 and 16 bits (see `C89_scurve_wrap_bug`). -/
theorem C89_scurve_partial (auto : Bool) (im : Img (Px t)) (m : Px t) (ratio : ℝ) (dout : Dims) (h : AcceptsD auto im.dims dout) (a b : Px t)
    (hr : IsRange im a b) (hab : a ≠ b) (hb : t.bits ≤ 16) (h0 : m.val ≠ 0) (hmb : m ≤ b) :
    ∃ out : Img (Px t2), sCurve auto im m ratio dout = some (.ok out) ∧ out.dims = im.dims ∧
      (∀ p v, im.at? p = some v → ∃ n, out.at? p = some n ∧ n.val = ⌊sigmoid t2.hi ratio ((b.val : ℝ) - a.val) m.val v.val⌋) ∧
      (∀ p, im.at? p = some m → ∃ n, out.at? p = some n ∧ n.val = t2.hi / 2) ∧ (0 ≤ ratio → KeepsOrder im out) := by
  obtain ⟨out, o1, o2, o3⟩ := sCurve_at (t2 := t2) auto im m ratio dout h a b m hr hab hb (by
    unfold sCentre
    rw [if_neg (by rintro (h | h); exacts [h0 h, absurd hmb (not_le.mpr h)])])
  simp only [Int.cast_sub] at o3
  have hle : a ≤ b := by
    obtain ⟨p, hp⟩ := hr.1
    exact (hr.2.2 p a hp).2
  have hlt := Px.lt_iff.mp (lt_of_le_of_ne hle hab)
  have hrange : (0 : ℝ) < (b.val : ℝ) - a.val := by
    have : (a.val : ℝ) < b.val := by exact_mod_cast hlt
    linarith
  have hM : (0 : ℝ) ≤ t2.hi := by exact_mod_cast hi_nonneg t2
  obtain ⟨s1, -, s2, -⟩ := C89_sigmoid t2.hi ratio ((b.val : ℝ) - a.val) m.val hM hrange
  refine ⟨out, o1, o2, o3, fun p hp => ?_, fun hra p q u v x y hu hv hx hy huv => ?_⟩
  · obtain ⟨n, e1, e2⟩ := o3 p m hp
    refine ⟨n, e1, ?_⟩
    rw [e2, s1, floor_half]
  · obtain ⟨x', e1, f1⟩ := o3 p u hu
    obtain ⟨y', e2, f2⟩ := o3 q v hv
    rw [hx] at e1; cases e1
    rw [hy] at e2; cases e2
    rw [Px.le_iff, f1, f2]
    exact Int.floor_le_floor (s2 hra (by exact_mod_cast Px.le_iff.mp huv))

/-! ### Where the code departs from the claim -/

/-- **C89**, signed output types: the conversion of the scaled value to the type is undefined as soon as the image has a pixel of greatest value, because the least value is only
added afterwards. -/
theorem C89_cast_signed_bug (auto : Bool) (im : Img (Px t)) (dout : Dims) (h : AcceptsS auto im.dims dout) (hb : 2 ≤ t.bits) (ht : t.bits ≤ 16 ∨ t.signed = false)
    (hs : t2.signed = true) (p : IntPoint) (hp : im.at? p = some ⊤) : castImg (t2 := t2) auto im dout = none := by
  have hl := lo_lt_hi hb
  have hI : DiffOk (⊥ : Px t) (⊤ : Px t) := by
    rcases ht with h | h
    · exact Or.inl h
    · exact Or.inr (Or.inl ⟨h, bot_le⟩)
  have e1 := hI.cpp
  simp only [Px.bot_val, Px.top_val] at e1
  unfold castImg
  rw [stretchCheck_ok h]
  simp only [e1, Option.bind_eq_bind, Option.bind_some]
  cases hn : t2.cpp (t2.hi - t2.lo) with
  | none => rfl
  | some num =>
    simp only [Option.bind_some]
    have hnum : num = t2.hi - t2.lo := by
      unfold PT.cpp at hn
      have hps : t2.promoted.signed = true := by
        unfold PT.promoted
        split
        · rfl
        · exact hs
      rw [if_pos hps] at hn
      split at hn
      · exact (Option.some.inj hn).symm
      · cases hn
    have hlo : t2.lo < 0 := by
      unfold PT.lo
      rw [if_pos hs]
      have := Nat.one_le_two_pow (n := t2.bits - 1)
      omega
    have hk : castPx (t := t) (t2 := t2) num (t.hi - t.lo) ⊤ = none := by
      unfold castPx
      simp only [Px.top_val, e1, Option.bind_eq_bind, Option.bind_some]
      have hd : (((t.hi - t.lo : Int)) : ℚ) ≠ 0 := by exact_mod_cast (by omega : t.hi - t.lo ≠ 0)
      rw [div_mul_cancel₀ _ hd]
      have : convToPx t2 (num : ℚ) = none := by
        unfold convToPx
        have hn0 : (0 : ℚ) ≤ num := by
          have := hi_nonneg t2
          exact_mod_cast (by omega : (0 : Int) ≤ num)
        simp only [if_pos hn0, Int.floor_intCast]
        rw [dif_neg (by omega)]
      rw [this]
      rfl
    have : im.mapK (castPx (t2 := t2) num (t.hi - t.lo)) = none := by
      unfold Img.mapK
      rw [if_neg]
      intro hall
      obtain ⟨i, hi, he, -⟩ := Img.at?_buf im p _ hp
      have := hall i hi
      rw [he, hk] at this
      cases this
    rw [this]
    rfl

/-- **C89**, `expand` with two ranges and signed types: below a negative `inMin` every pixel gets zero, out of `[0, outMin]` and not in order: -10 goes to -20 and -50 to 0. -/
theorem C89_expand3_signed_bug :
    (expandPx3 (t := INT8) (t2 := INT8) ⟨0, 2, 107 / 117⟩ ⟨-10, by decide, by decide⟩ ⟨10, by decide, by decide⟩ ⟨-20, by decide, by decide⟩
      ⟨20, by decide, by decide⟩ ⟨-50, by decide, by decide⟩).map Px.val = some 0 ∧
    (expandPx3 (t := INT8) (t2 := INT8) ⟨0, 2, 107 / 117⟩ ⟨-10, by decide, by decide⟩ ⟨10, by decide, by decide⟩ ⟨-20, by decide, by decide⟩
      ⟨20, by decide, by decide⟩ ⟨-10, by decide, by decide⟩).map Px.val = some (-20) ∧
    (expandK (t := INT8) (t2 := INT8) ⟨-10, by decide, by decide⟩ ⟨10, by decide, by decide⟩ ⟨-20, by decide, by decide⟩
      ⟨20, by decide, by decide⟩).map (fun K => (K.k1, K.k2, K.k3)) = some (0, 2, 107 / 117) := by
  decide +kernel

/-- **C89**, bounds of the input in the wrong order: they are accepted, and the pixels at `inMax` do not get `outMax`: with the ranges [200, 100] and [10, 50] the pixels of value 100
get 5. -/
theorem C89_expand3_reversed_bug :
    (expand3 (t := UINT8) (t2 := UINT8) false (im8 ⟨2, 1, 1⟩ [100, 200]) ⟨200, by decide, by decide⟩ ⟨100, by decide, by decide⟩ ⟨10, by decide, by decide⟩
      ⟨50, by decide, by decide⟩ ⟨2, 1, 1⟩).map (fun r => match r with | .ok o => (o.vals.map Px.val) | .error _ => []) = some [5, 182] := by
  decide +kernel

/-- **C89**, the range of the output in the wrong order: a decreasing map for the small types (`C89_expand_partial`), undefined behaviour for 32 bits. -/
theorem C89_expand_wrap_bug :
    (expandTo (t := UINT8) (t2 := UINT32) false (im8 ⟨2, 1, 1⟩ [0, 255]) ⟨10, by decide, by decide⟩ ⟨5, by decide, by decide⟩ true ⟨2, 1, 1⟩).isNone = true ∧
    (expandTo (t := UINT8) (t2 := UINT8) false (im8 ⟨2, 1, 1⟩ [0, 255]) ⟨10, by decide, by decide⟩ ⟨5, by decide, by decide⟩ true ⟨2, 1, 1⟩).map
      (fun r => match r with | .ok o => (o.vals.map Px.val) | .error _ => []) = some [10, 5] := by
  decide +kernel

/-- **C89**, `sCurve` without a pivot: the centre is half of the width of the range, which is not the median and is below every pixel of an image whose greatest value is less than
three times the least; no pixel then gets less than half of the greatest value, whatever the positive ratio. -/
theorem C89_scurve_pivot_bug (auto : Bool) (im : Img (Px t)) (ratio : ℝ) (dout : Dims) (h : AcceptsD auto im.dims dout) (a b : Px t)
    (hr : IsRange im a b) (hab : a ≠ b) (hb : t.bits ≤ 16) (hs : t.signed = false) (h3 : b.val < 3 * a.val) (hra : 0 ≤ ratio) (z : Px t) (hz : z.val = 0) :
    ∃ out : Img (Px t2), sCurve auto im z ratio dout = some (.ok out) ∧ ∀ p n, out.at? p = some n → t2.hi / 2 ≤ n.val := by
  have hle : a ≤ b := by
    obtain ⟨p, hp⟩ := hr.1
    exact (hr.2.2 p a hp).2
  have hlt := Px.lt_iff.mp (lt_of_le_of_ne hle hab)
  have hlo := lo_unsigned hs
  have hbh := b.le_hi
  have ha0 := a.lo_le
  obtain ⟨out, o1, o2, o3⟩ := sCurve_at (t2 := t2) auto im (t.wrap ((b.val - a.val) / 2)) ratio dout h a b z hr hab hb (by
    unfold sCentre
    rw [if_pos (Or.inl hz)])
  refine ⟨out, o1, fun p n hn => ?_⟩
  have hin := Img.at?_eq_some_in _ _ _ hn
  rw [o2] at hin
  have hv := Img.at?_some im p hin
  obtain ⟨n', e1, e2⟩ := o3 p _ hv
  rw [hn] at e1
  cases e1
  have hwr : (t.wrap ((b.val - a.val) / 2)).val = (b.val - a.val) / 2 := t.wrap_of_mem (by omega) (by omega)
  have hva := Px.le_iff.mp (hr.2.2 p _ hv).1
  have hM : (0 : ℝ) ≤ t2.hi := by exact_mod_cast hi_nonneg t2
  have hrange : (0 : ℝ) < ((b.val - a.val : Int) : ℝ) := by exact_mod_cast (by omega : 0 < b.val - a.val)
  obtain ⟨s1, -, s2, -⟩ := C89_sigmoid t2.hi ratio (b.val - a.val : Int) (t.wrap ((b.val - a.val) / 2)).val hM hrange
  have hge : ((t.wrap ((b.val - a.val) / 2)).val : ℝ) ≤ ((im.px p.x.toNat p.y.toNat p.z.toNat).val : ℝ) := by
    rw [hwr]
    exact_mod_cast (by omega : (b.val - a.val) / 2 ≤ (im.px p.x.toNat p.y.toNat p.z.toNat).val)
  have := s2 hra hge
  rw [s1] at this
  rw [e2]
  refine le_trans ?_ (Int.floor_le_floor this)
  rw [floor_half]

/-- **C89**, `sCurve` on 32 bits: the difference with the pivot is computed modulo 2^32, so that the pixels below the pivot are pushed to the greatest value: with the
coefficient 2 (values 0 to 2, ratio 1) and the pivot 1, a pixel of value 0 gets at least 254 and one of value 1 gets 127. -/
theorem C89_scurve_wrap_bug :
    (∃ n : Px UINT8, sCurvePx (t := UINT32) 2 ⟨1, by decide, by decide⟩ ⟨0, by decide, by decide⟩ = some n ∧ 254 ≤ n.val) ∧
    (∃ n : Px UINT8, sCurvePx (t := UINT32) 2 ⟨1, by decide, by decide⟩ ⟨1, by decide, by decide⟩ = some n ∧ n.val = 127) := by
  have h8 : (UINT8.hi : ℝ) = 255 := by
    have : UINT8.hi = 255 := by decide
    exact_mod_cast this
  constructor
  · have hc : UINT32.cpp ((0 : Int) - 1) = some 4294967295 := by decide +kernel
    have hx : Real.exp (-2 * ((4294967295 : Int) : ℝ)) ≤ 1 / 255 := by
      have := Real.add_one_le_exp (254 : ℝ)
      have h2 : Real.exp (-2 * ((4294967295 : Int) : ℝ)) ≤ Real.exp (-254) := Real.exp_le_exp.mpr (by norm_num)
      rw [Real.exp_neg] at h2
      refine h2.trans ?_
      rw [one_div]
      exact inv_anti₀ (by norm_num) (by linarith)
    have hp := Real.exp_pos (-2 * ((4294967295 : Int) : ℝ))
    obtain ⟨n, hn, hn2⟩ := convR_floor (t2 := UINT8) (x := (UINT8.hi : ℝ) / (1 + Real.exp (-2 * ((4294967295 : Int) : ℝ)))) (by rw [h8]; positivity)
      (div_le_self (by rw [h8]; norm_num) (by linarith))
    refine ⟨n, ?_, ?_⟩
    · unfold sCurvePx
      simp only [hc, Option.bind_eq_bind, Option.bind_some, hn]
    · rw [hn2, Int.le_floor, h8, le_div_iff₀ (by linarith)]
      norm_num at hx ⊢
      linarith
  · have hc : UINT32.cpp ((1 : Int) - 1) = some 0 := by decide +kernel
    obtain ⟨n, hn, hn2⟩ := convR_floor (t2 := UINT8) (x := (UINT8.hi : ℝ) / (1 + Real.exp (-2 * ((0 : Int) : ℝ)))) (by rw [h8]; positivity)
      (div_le_self (by rw [h8]; norm_num) (by have := Real.exp_pos (-2 * ((0 : Int) : ℝ)); linarith))
    refine ⟨n, ?_, ?_⟩
    · unfold sCurvePx
      simp only [hc, Option.bind_eq_bind, Option.bind_some, hn]
    · rw [hn2, h8, Int.cast_zero, mul_zero, Real.exp_zero, Int.floor_eq_iff]
      norm_num

/-! ### The hypotheses are met -/

example : AcceptsS false (im8 ⟨2, 1, 1⟩ [3, 200]).dims ⟨2, 1, 1⟩ ∧ (2 ≤ UINT8.bits) ∧ UINT8.bits ∣ UINT16.bits :=
  ⟨⟨by decide, Or.inl rfl⟩, by decide, by decide⟩

example : AcceptsD false (im8 ⟨3, 1, 1⟩ [10, 20, 30]).dims ⟨3, 1, 1⟩ ∧ IsRange (im8 ⟨3, 1, 1⟩ [10, 20, 30]) ⟨10, by decide, by decide⟩ ⟨30, by decide, by decide⟩ ∧
    (expandTo (t := UINT8) (t2 := UINT8) false (im8 ⟨3, 1, 1⟩ [10, 20, 30]) ⟨0, by decide, by decide⟩ ⟨255, by decide, by decide⟩ true ⟨3, 1, 1⟩).map
      (fun r => match r with | .ok o => (o.vals.map Px.val) | .error _ => []) = some [0, 127, 255] := by
  refine ⟨⟨by decide, by decide, Or.inl rfl⟩, ⟨⟨⟨0, 0, 0⟩, by decide +kernel⟩, ⟨⟨2, 0, 0⟩, by decide +kernel⟩, fun p v hv => ?_⟩, by decide +kernel⟩
  have h : ∀ v ∈ (im8 ⟨3, 1, 1⟩ [10, 20, 30]).vals, (⟨10, by decide, by decide⟩ : Px UINT8) ≤ v ∧ v ≤ (⟨30, by decide, by decide⟩ : Px UINT8) := by decide +kernel
  exact h v ((Img.mem_vals _ _).mpr ⟨p, hv⟩)

example : (expand3 (t := UINT8) (t2 := UINT8) false (im8 ⟨5, 1, 1⟩ [50, 100, 150, 200, 255]) ⟨100, by decide, by decide⟩ ⟨200, by decide, by decide⟩ ⟨20, by decide, by decide⟩
      ⟨220, by decide, by decide⟩ ⟨5, 1, 1⟩).map (fun r => match r with | .ok o => (o.vals.map Px.val) | .error _ => []) = some [10, 20, 120, 220, 255] := by
  decide +kernel

end

end Smil
