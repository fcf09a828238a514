import Verif.Resize
import Verif.ConvolveLemmas
import Mathlib.Algebra.BigOperators.Intervals
import Mathlib.Algebra.Order.Floor.Ring
import Mathlib.Algebra.Order.AbsoluteValue.Basic
import Mathlib.Tactic.NormNum
import Mathlib.Tactic.Positivity

/-!
# Resizing: specification and lemmas
-/

namespace Smil
variable {α : Type} {t : PT}

/-! ### Specification -/

/-- The hat function: 1 at 0, linear, 0 from distance 1. -/
def hat (d : ℚ) : ℚ := max 0 (1 - |d|)

/-- The value at `q` of the piecewise linear function that takes the value `g x` at `x = 0 … n - 1`. -/
def hatSum (n : Nat) (q : ℚ) (g : Nat → ℚ) : ℚ := ∑ x ∈ Finset.range n, hat (q - x) * g x

/-- The position in an axis of `n` pixels that corresponds to the position `i` in an axis of `s` pixels, the ends
corresponding to each other. -/
def axisPos (n s : Nat) (i : Int) : ℚ := if n ≤ 1 then 0 else (i : ℚ) * ((n : ℚ) - 1) / ((s : ℚ) - 1)

/-- The value of a pixel as a number. -/
def pixQ (im : Img (Px t)) (x y z : Nat) : ℚ := (im.at? ⟨x, y, z⟩).elim 0 fun v => (v.val : ℚ)

/-- Every pixel of `out` is the integer part of the linear interpolation of `im`, axis by axis, at the corresponding
position. -/
def IsLinear (im out : Img (Px t)) : Prop :=
  ∀ p v, out.at? p = some v →
    IsTrunc (hatSum im.dims.w (axisPos im.dims.w out.dims.w p.x) fun x =>
      hatSum im.dims.h (axisPos im.dims.h out.dims.h p.y) fun y =>
      hatSum im.dims.d (axisPos im.dims.d out.dims.d p.z) fun z => pixQ im x y z) v.val

/-- `c` is the integer nearest to `i * (n - 1) / (s - 1)`, the greater one when there are two. -/
def IsNearest (n s : Nat) (i c : Int) : Prop :=
  -((s : Int) - 1) < 2 * (c * ((s : Int) - 1) - i * ((n : Int) - 1)) ∧
  2 * (c * ((s : Int) - 1) - i * ((n : Int) - 1)) ≤ (s : Int) - 1

/-- Every pixel of `out` is the pixel of `im` nearest to the corresponding position. -/
def IsClosest (im out : Img α) : Prop :=
  ∀ p v, out.at? p = some v → ∃ q, im.at? q = some v ∧ IsNearest im.dims.w out.dims.w p.x q.x ∧
    IsNearest im.dims.h out.dims.h p.y q.y ∧ q.z = p.z

/-! ### Hats -/

theorem hat_nonneg (d : ℚ) : 0 ≤ hat d := le_max_left _ _

theorem hat_zero_of (d : ℚ) (h : 1 ≤ |d|) : hat d = 0 := by
  unfold hat
  exact max_eq_left (by linarith)

theorem hat_of (d : ℚ) (h : |d| ≤ 1) : hat d = 1 - |d| := by
  unfold hat
  exact max_eq_right (by linarith)

/-- A sum of hats has one or two terms. -/
theorem hatSum_two (n : Nat) (l : Nat) (q : ℚ) (g : Nat → ℚ) (h1 : (l : ℚ) ≤ q) (h2 : q ≤ l + 1) (h3 : l + 1 < n) :
    hatSum n q g = (1 - (q - l)) * g l + (q - l) * g (l + 1) := by
  unfold hatSum
  rw [← Finset.sum_subset (s₁ := {l, l + 1}) (by
    intro x hx
    rw [Finset.mem_insert, Finset.mem_singleton] at hx
    rw [Finset.mem_range]
    omega)]
  · rw [Finset.sum_pair (by omega)]
    have e1 : hat (q - l) = 1 - (q - l) := by
      rw [hat_of _ (by rw [abs_of_nonneg (by linarith)]; linarith), abs_of_nonneg (by linarith)]
    have e2 : hat (q - ((l + 1 : Nat) : ℚ)) = q - l := by
      have : q - ((l + 1 : Nat) : ℚ) ≤ 0 := by push_cast; linarith
      rw [hat_of _ (by rw [abs_of_nonpos this]; push_cast; linarith), abs_of_nonpos this]
      push_cast; ring
    rw [e1, e2]
  · intro x _ hx
    rw [Finset.mem_insert, Finset.mem_singleton, not_or] at hx
    rw [hat_zero_of, zero_mul]
    rcases Nat.lt_or_gt_of_ne hx.1 with h | h
    · have : (x : ℚ) + 1 ≤ l := by exact_mod_cast h
      rw [abs_of_nonneg (by linarith)]
      linarith
    · have h' : l + 2 ≤ x := by omega
      have : (l : ℚ) + 2 ≤ x := by exact_mod_cast h'
      rw [abs_of_nonpos (by linarith)]
      linarith

theorem hatSum_one (n l : Nat) (g : Nat → ℚ) (h : l < n) : hatSum n (l : ℚ) g = g l := by
  unfold hatSum
  rw [Finset.sum_eq_single l]
  · rw [sub_self]
    simp [hat]
  · intro x _ hx
    rw [hat_zero_of, zero_mul]
    rcases Nat.lt_or_gt_of_ne hx with h | h
    · have : (x : ℚ) + 1 ≤ l := by exact_mod_cast h
      rw [abs_of_nonneg (by linarith)]
      linarith
    · have : (l : ℚ) + 1 ≤ x := by exact_mod_cast h
      rw [abs_of_nonpos (by linarith)]
      linarith
  · intro hx
    exact absurd (Finset.mem_range.mpr h) hx

theorem hatSum_mono (n : Nat) (q : ℚ) {g g' : Nat → ℚ} (h : ∀ x, x < n → g x ≤ g' x) : hatSum n q g ≤ hatSum n q g' :=
  Finset.sum_le_sum fun x hx => mul_le_mul_of_nonneg_left (h x (Finset.mem_range.mp hx)) (hat_nonneg _)

theorem hatSum_congr (n : Nat) (q : ℚ) {g g' : Nat → ℚ} (h : ∀ x, x < n → g x = g' x) : hatSum n q g = hatSum n q g' :=
  Finset.sum_congr rfl fun x hx => by rw [h x (Finset.mem_range.mp hx)]

/-- The floor of a position in the axis. -/
theorem floor_pos {n : Nat} {q : ℚ} (h0 : 0 ≤ q) (h1 : q ≤ (n : ℚ) - 1) :
    ∃ l : Nat, ⌊q⌋ = (l : Int) ∧ l < n ∧ (l : ℚ) ≤ q ∧ q ≤ l + 1 ∧ (¬ l + 1 < n → q = l) := by
  have hf : 0 ≤ ⌊q⌋ := Int.floor_nonneg.mpr h0
  obtain ⟨l, hl⟩ := Int.eq_ofNat_of_zero_le hf
  have a1 : (l : ℚ) ≤ q := by
    have := Int.floor_le q
    rw [hl] at this
    exact_mod_cast this
  have a2 : q < l + 1 := by
    have := Int.lt_floor_add_one q
    rw [hl] at this
    exact_mod_cast this
  have a3 : l < n := by
    have : (l : ℚ) < n := by linarith
    exact_mod_cast this
  refine ⟨l, hl, a3, a1, le_of_lt a2, fun h => ?_⟩
  have : l + 1 = n := by omega
  have : (l : ℚ) + 1 = n := by exact_mod_cast this
  linarith

/-- The coefficients of the code are the hats. -/
theorem linPos_spec {n : Nat} {q : ℚ} (h0 : 0 ≤ q) (h1 : q ≤ (n : ℚ) - 1) :
    ∃ l h : Nat, ∃ c : ℚ, linPos n q = ((l : Int), (h : Int), c, 1 - c) ∧ l < n ∧ h < n ∧
      ∀ g : Nat → ℚ, hatSum n q g = (1 - c) * g l + c * g h := by
  obtain ⟨l, hl, b1, b2, b3, b4⟩ := floor_pos h0 h1
  unfold linPos
  rw [hl]
  by_cases hc : l + 1 < n
  · refine ⟨l, l + 1, q - l, ?_, b1, hc, fun g => ?_⟩
    · simp only
      rw [if_pos (by omega), if_pos (by omega)]
      simp
    · exact hatSum_two n l q g b2 b3 hc
  · refine ⟨l, l, 1, ?_, b1, b1, fun g => ?_⟩
    · simp only
      rw [if_neg (by omega), if_neg (by omega)]
    · rw [b4 hc, hatSum_one n l g b1]
      ring

theorem hatSum_const {n : Nat} {q : ℚ} (h0 : 0 ≤ q) (h1 : q ≤ (n : ℚ) - 1) (c : ℚ) : hatSum n q (fun _ => c) = c := by
  obtain ⟨l, h, k, _, _, _, e⟩ := linPos_spec h0 h1
  rw [e]
  ring

/-! ### Positions -/

theorem axisPos_bounds {n s : Nat} (hn : 0 < n) {i : Nat} (hi : i < s) (hs : n = 1 ∨ s ≠ 1) :
    0 ≤ axisPos n s i ∧ axisPos n s i ≤ (n : ℚ) - 1 := by
  unfold axisPos
  split
  · rename_i h
    have : n = 1 := by omega
    rw [this]
    norm_num
  · rename_i h
    have h1 : (1 : ℚ) ≤ n := by exact_mod_cast hn
    have h2 : (i : ℚ) + 1 ≤ s := by exact_mod_cast hi
    have h4 : (2 : ℚ) ≤ s := by
      have : 2 ≤ s := by omega
      exact_mod_cast this
    have h5 : (0 : ℚ) < (s : ℚ) - 1 := by linarith
    have h6 : (0 : ℚ) ≤ i := by positivity
    constructor
    · refine div_nonneg (mul_nonneg ?_ (by linarith)) (le_of_lt h5)
      exact_mod_cast h6
    · rw [div_le_iff₀ h5]
      rw [mul_comm]
      refine mul_le_mul_of_nonneg_left ?_ (by linarith)
      push_cast
      linarith

theorem rsPos_eq {n s i : Nat} (hn : 0 < n) (hs : s ≠ 1) : rsPos n s i = some (axisPos n s i) := by
  unfold rsPos axisPos
  rw [if_neg hs]
  congr 1
  split
  · rename_i h
    have : n = 1 := by omega
    rw [this]
    norm_num
  · push_cast
    ring

/-- The rounded position. -/
theorem roundQ_spec {n s i : Nat} (hn : 0 < n) (hi : i < s) (hs : s ≠ 1) :
    IsNearest n s i (roundQ (axisPos n s i)) ∧ 0 ≤ roundQ (axisPos n s i) ∧ roundQ (axisPos n s i) ≤ (n : Int) - 1 := by
  obtain ⟨h0, h1⟩ := axisPos_bounds hn hi (Or.inr hs)
  have hs2 : 2 ≤ s := by omega
  have h4 : (0 : ℚ) < (s : ℚ) - 1 := by
    have : (2 : ℚ) ≤ s := by exact_mod_cast hs2
    linarith
  unfold roundQ
  rw [if_pos h0]
  have f1 := Int.floor_le (axisPos n s i + 1 / 2)
  have f2 := Int.lt_floor_add_one (axisPos n s i + 1 / 2)
  generalize hk : ⌊axisPos n s i + 1 / 2⌋ = k at *
  have e : axisPos n s i * ((s : ℚ) - 1) = (i : ℚ) * ((n : ℚ) - 1) := by
    unfold axisPos
    split
    · rename_i h
      have : n = 1 := by omega
      rw [this]
      norm_num
    · rw [div_mul_cancel₀ _ (ne_of_gt h4)]
      push_cast
      rfl
  refine ⟨⟨?_, ?_⟩, ?_, ?_⟩
  · have : (axisPos n s i - 1 / 2) * ((s : ℚ) - 1) < k * ((s : ℚ) - 1) := mul_lt_mul_of_pos_right (by linarith) h4
    have : -((s : ℚ) - 1) < 2 * (k * ((s : ℚ) - 1) - (i : ℚ) * ((n : ℚ) - 1)) := by
      rw [← e]; linarith
    exact_mod_cast this
  · have : k * ((s : ℚ) - 1) ≤ (axisPos n s i + 1 / 2) * ((s : ℚ) - 1) := mul_le_mul_of_nonneg_right f1 (le_of_lt h4)
    have : 2 * (k * ((s : ℚ) - 1) - (i : ℚ) * ((n : ℚ) - 1)) ≤ (s : ℚ) - 1 := by
      rw [← e]; linarith
    exact_mod_cast this
  · have : (-1 : ℚ) < k := by linarith
    have : -1 < k := by exact_mod_cast this
    omega
  · have : (k : ℚ) < n := by linarith
    have : k < n := by exact_mod_cast this
    omega

theorem IsNearest.unique {n s : Nat} (hs : 2 ≤ s) {i c c' : Int} (h : IsNearest n s i c) (h' : IsNearest n s i c') :
    c = c' := by
  obtain ⟨h1, h2⟩ := h
  obtain ⟨h3, h4⟩ := h'
  have hs' : (1 : Int) ≤ (s : Int) - 1 := by omega
  generalize (s : Int) - 1 = u at *
  generalize i * ((n : Int) - 1) = v at *
  rcases lt_trichotomy c c' with h | h | h
  · have : (c + 1) * u ≤ c' * u := Int.mul_le_mul_of_nonneg_right (by omega) (by omega)
    rw [add_mul] at this
    omega
  · exact h
  · have : (c' + 1) * u ≤ c * u := Int.mul_le_mul_of_nonneg_right (by omega) (by omega)
    rw [add_mul] at this
    omega

/-! ### Images -/

theorem rdOff_at (im : Img α) {x y z : Nat} (hx : x < im.dims.w) (hy : y < im.dims.h) (hz : z < im.dims.d) :
    rdOff im ((z : Int) * ((im.dims.w : Int) * im.dims.h) + (y : Int) * im.dims.w + x) = im.at? ⟨x, y, z⟩ := by
  have hp : Img.In im.dims ⟨x, y, z⟩ := by unfold Img.In; simp only; omega
  have hlt := offOf_lt hp
  rw [Img.buf_offOf im _ hp]
  have e : ((z : Int) * ((im.dims.w : Int) * im.dims.h) + (y : Int) * im.dims.w + x) =
      ((offOf im.dims ⟨x, y, z⟩ : Nat) : Int) := by
    unfold offOf rasterIndex
    simp only [Int.toNat_natCast]
    push_cast
    ring
  unfold rdOff
  rw [e, if_pos ⟨by omega, by exact_mod_cast hlt⟩]
  rfl

theorem rsImg_spec [Inhabited α] (D : Dims) (f : Nat → Nat → Nat → Option α) (P : Nat → Nat → Nat → α → Prop)
    (h : ∀ i j k, i < D.w → j < D.h → k < D.d → ∃ v, f i j k = some v ∧ P i j k v) :
    ∃ o, rsImg D f = some o ∧ o.dims = D ∧ ∀ p v, o.at? p = some v → P p.x.toNat p.y.toNat p.z.toNat v := by
  have key : ∀ p, Img.In D p → ∃ v, f p.x.toNat p.y.toNat p.z.toNat = some v ∧ P p.x.toNat p.y.toNat p.z.toNat v := by
    intro p hp
    unfold Img.In at hp
    exact h _ _ _ (by omega) (by omega) (by omega)
  unfold rsImg
  rw [if_pos fun o ho => by
    obtain ⟨v, hv, _⟩ := key _ (coordPt_in ho).1
    rw [hv]; rfl]
  refine ⟨_, rfl, rfl, fun p v hv => ?_⟩
  have hp0 := Img.at?_eq_some_in _ _ _ hv
  have hp : Img.In D p := hp0
  rw [Img.buf_offOf _ _ hp0] at hv
  simp only [coordPt_offOf hp, Option.some.injEq] at hv
  obtain ⟨u, hu, hP⟩ := key p hp
  rw [hu] at hv
  rw [← hv]
  exact hP

theorem rsImg_none [Inhabited α] (D : Dims) (f : Nat → Nat → Nat → Option α) (hD : D.count ≠ 0)
    (h : f 0 0 0 = none) : rsImg D f = none := by
  unfold rsImg
  refine if_neg fun hc => ?_
  have := hc 0 (by omega)
  have e : coordPt D 0 = ⟨0, 0, 0⟩ := by unfold coordPt; simp
  rw [e] at this
  simp only [Int.toNat_zero] at this
  rw [h] at this
  cases this

theorem alloc_pos3 {im : Img α} (ha : im.alloc = true) : 0 < im.dims.w ∧ 0 < im.dims.h ∧ 0 < im.dims.d := by
  unfold Img.alloc Dims.count at ha
  have h : im.dims.d * im.dims.h * im.dims.w ≠ 0 := by simpa using ha
  have h1 : im.dims.w ≠ 0 := fun e => h (by rw [e]; simp)
  have h2 : im.dims.h ≠ 0 := fun e => h (by rw [e]; simp)
  have h3 : im.dims.d ≠ 0 := fun e => h (by rw [e]; simp)
  omega

/-- One pixel of the closest method. -/
theorem closestPx_spec {im : Img α} (ha : im.alloc = true) {sx sy i j : Nat} (hi : i < sx) (hj : j < sy)
    (hsx : sx ≠ 1) (hsy : sy ≠ 1) :
    ∃ v, closestPx im sx sy i j = some v ∧ ∃ q, im.at? q = some v ∧ IsNearest im.dims.w sx i q.x ∧
      IsNearest im.dims.h sy j q.y ∧ q.z = 0 := by
  obtain ⟨hw, hh, hd⟩ := alloc_pos3 ha
  obtain ⟨x1, x2, x3⟩ := roundQ_spec hw hi hsx
  obtain ⟨y1, y2, y3⟩ := roundQ_spec hh hj hsy
  unfold closestPx
  rw [rsPos_eq hw hsx, rsPos_eq hh hsy]
  simp only [Option.bind_some]
  rw [min_eq_left x3, min_eq_left y3]
  obtain ⟨x, hx⟩ := Int.eq_ofNat_of_zero_le x2
  obtain ⟨y, hy⟩ := Int.eq_ofNat_of_zero_le y2
  rw [hx] at x1 x3 ⊢
  rw [hy] at y1 y3 ⊢
  have e := rdOff_at im (x := x) (y := y) (z := 0) (by omega) (by omega) hd
  simp only [Nat.cast_zero, zero_mul, zero_add] at e
  have hp : Img.In im.dims ⟨x, y, 0⟩ := by unfold Img.In; simp only; omega
  rw [e]
  refine ⟨_, Img.buf_offOf im _ hp, ⟨x, y, 0⟩, Img.buf_offOf im _ hp, x1, y1, rfl⟩

/-- The interpolated value lies between bounds of the pixels. -/
theorem linear_bounds {im : Img (Px t)} {qx qy qz : ℚ} (hx : 0 ≤ qx ∧ qx ≤ (im.dims.w : ℚ) - 1)
    (hy : 0 ≤ qy ∧ qy ≤ (im.dims.h : ℚ) - 1) (hz : 0 ≤ qz ∧ qz ≤ (im.dims.d : ℚ) - 1) {lo hi : Int}
    (hb : ∀ p v, im.at? p = some v → lo ≤ v.val ∧ v.val ≤ hi) :
    (lo : ℚ) ≤ hatSum im.dims.w qx (fun x => hatSum im.dims.h qy fun y => hatSum im.dims.d qz fun z => pixQ im x y z) ∧
    hatSum im.dims.w qx (fun x => hatSum im.dims.h qy fun y => hatSum im.dims.d qz fun z => pixQ im x y z) ≤ hi := by
  have hp : ∀ x y z, x < im.dims.w → y < im.dims.h → z < im.dims.d →
      (lo : ℚ) ≤ pixQ im x y z ∧ pixQ im x y z ≤ hi := by
    intro x y z h1 h2 h3
    have hp : Img.In im.dims ⟨x, y, z⟩ := by unfold Img.In; simp only; omega
    have e := Img.buf_offOf im _ hp
    unfold pixQ
    rw [e]
    simp only [Option.elim_some]
    obtain ⟨b1, b2⟩ := hb _ _ e
    exact ⟨by exact_mod_cast b1, by exact_mod_cast b2⟩
  constructor
  · calc (lo : ℚ) = hatSum im.dims.w qx fun _ => hatSum im.dims.h qy fun _ => hatSum im.dims.d qz fun _ => (lo : ℚ) := by
          rw [hatSum_const hz.1 hz.2, hatSum_const hy.1 hy.2, hatSum_const hx.1 hx.2]
      _ ≤ _ := hatSum_mono _ _ fun x h1 => hatSum_mono _ _ fun y h2 => hatSum_mono _ _ fun z h3 => (hp x y z h1 h2 h3).1
  · calc _ ≤ hatSum im.dims.w qx fun _ => hatSum im.dims.h qy fun _ => hatSum im.dims.d qz fun _ => (hi : ℚ) :=
          hatSum_mono _ _ fun x h1 => hatSum_mono _ _ fun y h2 => hatSum_mono _ _ fun z h3 => (hp x y z h1 h2 h3).2
      _ = hi := by rw [hatSum_const hz.1 hz.2, hatSum_const hy.1 hy.2, hatSum_const hx.1 hx.2]

theorem pixQ_at {im : Img (Px t)} {x y z : Nat} (h1 : x < im.dims.w) (h2 : y < im.dims.h) (h3 : z < im.dims.d) :
    ∃ v, im.at? ⟨x, y, z⟩ = some v ∧ pixQ im x y z = (v.val : ℚ) := by
  have hp : Img.In im.dims ⟨x, y, z⟩ := by unfold Img.In; simp only; omega
  have e := Img.buf_offOf im _ hp
  exact ⟨_, e, by unfold pixQ; rw [e]; rfl⟩

/-- One pixel of the trilinear method. -/
theorem trilinearPx_spec {im : Img (Px t)} (ha : im.alloc = true) {sx sy sz i j k : Nat} (hi : i < sx) (hj : j < sy)
    (hk : k < sz) (hsx : sx ≠ 1) (hsy : sy ≠ 1) (hsz : sz ≠ 1) :
    ∃ v, trilinearPx im sx sy sz i j k = some v ∧
      IsTrunc (hatSum im.dims.w (axisPos im.dims.w sx i) fun x => hatSum im.dims.h (axisPos im.dims.h sy j) fun y =>
        hatSum im.dims.d (axisPos im.dims.d sz k) fun z => pixQ im x y z) v.val := by
  obtain ⟨hw, hh, hd⟩ := alloc_pos3 ha
  have bx := axisPos_bounds hw hi (Or.inr hsx)
  have bY := axisPos_bounds hh hj (Or.inr hsy)
  have bz := axisPos_bounds hd hk (Or.inr hsz)
  obtain ⟨v0, b1⟩ := linear_bounds bx bY bz (lo := t.lo) (hi := t.hi) (fun _ v _ => ⟨v.lo_le, v.le_hi⟩)
  obtain ⟨v, hv, hv2⟩ := convToPx_spec v0 b1
  refine ⟨v, ?_, hv2⟩
  obtain ⟨xl, xh, cx, ex, xa, xb, gx⟩ := linPos_spec bx.1 bx.2
  obtain ⟨yl, yh, cy, ey, ya, yb, gy⟩ := linPos_spec bY.1 bY.2
  obtain ⟨zl, zh, cz, ez, za, zb, gz⟩ := linPos_spec bz.1 bz.2
  unfold trilinearPx
  rw [rsPos_eq hw hsx, rsPos_eq hh hsy, rsPos_eq hd hsz]
  simp only [Option.bind_some]
  rw [ex, ey, ez]
  simp only
  rw [rdOff_at im xa ya za, rdOff_at im xb ya za, rdOff_at im xa yb za, rdOff_at im xb yb za,
    rdOff_at im xa ya zb, rdOff_at im xb ya zb, rdOff_at im xa yb zb, rdOff_at im xb yb zb]
  obtain ⟨a, a1, a2⟩ := pixQ_at xa ya za
  obtain ⟨b, b1, b2⟩ := pixQ_at xb ya za
  obtain ⟨c, c1, c2⟩ := pixQ_at xa yb za
  obtain ⟨d, d1, d2⟩ := pixQ_at xb yb za
  obtain ⟨e, e1, e2⟩ := pixQ_at xa ya zb
  obtain ⟨f, f1, f2⟩ := pixQ_at xb ya zb
  obtain ⟨g, g1, g2⟩ := pixQ_at xa yb zb
  obtain ⟨h, h1, h2⟩ := pixQ_at xb yb zb
  rw [a1, b1, c1, d1, e1, f1, g1, h1]
  simp only [Option.bind_some]
  rw [← hv]
  congr 1
  rw [gx, gy, gy, gz, gz, gz, gz, a2, b2, c2, d2, e2, f2, g2, h2]
  ring

/-- One pixel of the bilinear method. -/
theorem bilinearPx_spec {im : Img (Px t)} (ha : im.alloc = true) (hd1 : im.dims.d = 1) {sx sy i j : Nat} (hi : i < sx)
    (hj : j < sy) (hsx : sx ≠ 1) (hsy : sy ≠ 1) (k : Int) :
    ∃ v, bilinearPx im sx sy i j = some v ∧
      IsTrunc (hatSum im.dims.w (axisPos im.dims.w sx i) fun x => hatSum im.dims.h (axisPos im.dims.h sy j) fun y =>
        hatSum im.dims.d (axisPos im.dims.d 1 k) fun z => pixQ im x y z) v.val := by
  obtain ⟨hw, hh, hd⟩ := alloc_pos3 ha
  have bx := axisPos_bounds hw hi (Or.inr hsx)
  have bY := axisPos_bounds hh hj (Or.inr hsy)
  have hz0 : axisPos im.dims.d 1 k = 0 := by
    unfold axisPos
    rw [if_pos (by omega)]
  have bz : 0 ≤ axisPos im.dims.d 1 k ∧ axisPos im.dims.d 1 k ≤ (im.dims.d : ℚ) - 1 := by
    rw [hz0, hd1]
    norm_num
  obtain ⟨v0, b1⟩ := linear_bounds bx bY bz (lo := t.lo) (hi := t.hi) (fun _ v _ => ⟨v.lo_le, v.le_hi⟩)
  obtain ⟨v, hv, hv2⟩ := convToPx_spec v0 b1
  refine ⟨v, ?_, hv2⟩
  obtain ⟨xl, xh, cx, ex, xa, xb, gx⟩ := linPos_spec bx.1 bx.2
  obtain ⟨yl, yh, cy, ey, ya, yb, gy⟩ := linPos_spec bY.1 bY.2
  unfold bilinearPx
  rw [rsPos_eq hw hsx, rsPos_eq hh hsy]
  simp only [Option.bind_some]
  rw [ex, ey]
  simp only
  have rd : ∀ x y : Nat, x < im.dims.w → y < im.dims.h →
      rdOff im ((y : Int) * im.dims.w + x) = im.at? ⟨x, y, (0 : Nat)⟩ := by
    intro x y hx hy
    have := rdOff_at im hx hy hd
    simp only [Nat.cast_zero, zero_mul, zero_add] at this
    exact this
  rw [rd _ _ xa ya, rd _ _ xb ya, rd _ _ xa yb, rd _ _ xb yb]
  obtain ⟨a, a1, a2⟩ := pixQ_at xa ya hd
  obtain ⟨b, b1, b2⟩ := pixQ_at xb ya hd
  obtain ⟨c, c1, c2⟩ := pixQ_at xa yb hd
  obtain ⟨d, d1, d2⟩ := pixQ_at xb yb hd
  rw [a1, b1, c1, d1]
  simp only [Option.bind_some]
  rw [← hv]
  congr 1
  have hz : ∀ x y, hatSum im.dims.d (axisPos im.dims.d 1 k) (fun z => pixQ im x y z) = pixQ im x y 0 := by
    intro x y
    rw [hz0]
    have := hatSum_one im.dims.d 0 (fun z => pixQ im x y z) hd
    simpa using this
  rw [gx, gy, gy, hz, hz, hz, hz, a2, b2, c2, d2]
  ring

end Smil
