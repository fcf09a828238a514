import Verif.CrossCorr
import Verif.PropsCovariance
import Verif.PropsZhang

/-!
# C105: the cross correlation of two phases
-/

namespace Smil
section
variable {t : PT}

/-- The part of the pairs at the displacement `h` that go from the value `v1` to the value `v2`. -/
def phaseFrac (im : Img (Px t)) (v1 v2 : Px t) (h : IntPoint) (pts : List IntPoint) : ℚ :=
  ((pts.filter fun p => decide (im.at? p = some v1 ∧ im.at? ⟨p.x + h.x, p.y + h.y, p.z + h.z⟩ = some v2)).length : ℚ) / pts.length

theorem phaseImg_at (im : Img (Px t)) (v : Px t) (p : IntPoint) : (phaseImg im v).at? p = (im.at? p).map fun a => if a = v then ⊤ else Px.zero := by
  unfold phaseImg Img.at? Img.px
  simp only
  by_cases h : Img.In im.dims p
  · rw [if_pos h, if_pos h]; rfl
  · rw [if_neg h, if_neg h]; rfl

theorem phase_rat (im : Img (Px t)) (v : Px t) (p : IntPoint) :
    ratAt (fun a : Px t => (a.val : ℚ)) (phaseImg im v) p = if im.at? p = some v then (t.hi : ℚ) else 0 := by
  unfold ratAt
  rw [phaseImg_at]
  cases h : im.at? p with
  | none => simp
  | some a =>
    simp only [Option.map_some, Option.elim_some, Option.some.injEq]
    split_ifs
    · rfl
    · simp [Px.zero]

theorem sum_indicator (c : ℚ) (P : IntPoint → Prop) [DecidablePred P] (L : List IntPoint) :
    (L.map fun p => if P p then c else 0).sum = c * ((L.filter fun p => decide (P p)).length : ℚ) := by
  induction L with
  | nil => simp
  | cons a L ih =>
    rw [List.map_cons, List.sum_cons, ih]
    by_cases h : P a
    · rw [if_pos h, List.filter_cons_of_pos (by simpa using h), List.length_cons]
      push_cast
      ring
    · rw [if_neg h, List.filter_cons_of_neg (by simpa using h), zero_add]

/-- One displacement, of at most the size of the image. -/
theorem crossAt_eq (im : Img (Px t)) (v1 v2 : Px t) (hfit : t.promoted.lo ≤ t.hi * t.hi ∧ t.hi * t.hi ≤ t.promoted.hi) (h0 : t.promoted.lo ≤ 0)
    (h0' : 0 ≤ t.promoted.hi) (dx dy dz len : Nat)
    (hx : dx * len ≤ im.dims.w) (hy : dy * len ≤ im.dims.h) (hz : dz * len ≤ im.dims.d)
    (pts : List IntPoint) (hp : IsPairs im.dims (Img.pt (dx * len) (dy * len) (dz * len)) pts) :
    crossAt im v1 v2 dx dy dz len = some ((t.hi : ℚ) ^ 2 * phaseFrac im v1 v2 (Img.pt (dx * len) (dy * len) (dz * len)) pts) := by
  have hper := hp.perm (covPts_pairs im.dims (dx * len) (dy * len) (dz * len))
  have hlen := length_covPts im.dims (dx * len) (dy * len) (dz * len)
  rw [← hper.length_eq] at hlen
  have hnil : pts.length = 0 → phaseFrac im v1 v2 (Img.pt (dx * len) (dy * len) (dz * len)) pts = 0 := by
    intro h
    unfold phaseFrac
    rw [h]; simp
  unfold crossAt
  rw [if_neg (by omega)]
  split_ifs with c1 c2 c3 c4
  · rw [hnil (by rw [hlen, c1]; simp), mul_zero]
  · omega
  · rw [hnil (by rw [hlen, c3]; simp), mul_zero]
  · omega
  simp only
  have hval : ∀ v (p : IntPoint) (a : Px t), (phaseImg im v).at? p = some a → a.val = t.hi ∨ a.val = 0 := by
    intro v p a h
    rw [phaseImg_at] at h
    cases hq : im.at? p with
    | none => rw [hq] at h; simp at h
    | some b =>
      rw [hq] at h
      simp only [Option.map_some, Option.some.injEq] at h
      rw [← h]
      split_ifs
      · left; rfl
      · right; simp [Px.zero]
  rw [covSum_eq mulPx (fun a : Px t => (a.val : ℚ)) (phaseImg im v1) (phaseImg im v2) rfl]
  swap
  · intro p a b h1 h2
    apply mulPx_fit
    · rcases hval _ _ _ h1 with e1 | e1 <;> rcases hval _ _ _ h2 with e2 | e2 <;> rw [e1, e2] <;> first | exact hfit.1 | (simp only [mul_zero, zero_mul]; exact h0)
    · rcases hval _ _ _ h1 with e1 | e1 <;> rcases hval _ _ _ h2 with e2 | e2 <;> rw [e1, e2] <;> first | exact hfit.2 | (simp only [mul_zero, zero_mul]; exact h0')
  rw [Option.map_some, ← hlen]
  congr 1
  have hsum : ((covPts (phaseImg im v1).dims (dx * len) (dy * len) (dz * len)).map fun p =>
      ratAt (fun a : Px t => (a.val : ℚ)) (phaseImg im v1) p *
        ratAt (fun a : Px t => (a.val : ℚ)) (phaseImg im v2) (movePt (Img.pt (dx * len) (dy * len) (dz * len)) p)).sum =
      (t.hi : ℚ) ^ 2 * ((pts.filter fun p => decide (im.at? p = some v1 ∧
        im.at? (movePt (Img.pt (dx * len) (dy * len) (dz * len)) p) = some v2)).length : ℚ) := by
    rw [← sum_indicator, ← sum_perm_map (show pts.Perm (covPts (phaseImg im v1).dims _ _ _) from hper)]
    congr 1
    refine List.map_congr_left fun p _ => ?_
    rw [phase_rat, phase_rat]
    by_cases a : im.at? p = some v1 <;> by_cases b : im.at? (movePt (Img.pt (dx * len) (dy * len) (dz * len)) p) = some v2 <;> simp [a, b, sq]
  rw [hsum]
  split_ifs with hn
  · unfold phaseFrac movePt
    rw [mul_div_assoc]
  · push Not at hn
    rw [hnil hn, mul_zero]
    have : pts = [] := List.length_eq_zero_iff.1 hn
    rw [this]; simp

/-- The number of steps after the default is put in: the largest size less one. -/
def IsSteps (D : Dims) (maxSteps n : Nat) : Prop :=
  if maxSteps = 0 then (n + 1 = D.w ∨ n + 1 = D.h ∨ n + 1 = D.d) ∧ D.w ≤ n + 1 ∧ D.h ≤ n + 1 ∧ D.d ≤ n + 1 else n = maxSteps

theorem steps_eq {D : Dims} {maxSteps n : Nat} (h : IsSteps D maxSteps n) :
    (if maxSteps = 0 then max (max D.w D.h) D.d - 1 else maxSteps) = n := by
  unfold IsSteps at h
  split_ifs at h ⊢ <;> omega

theorem fit_small (hb : t.bits ≤ 8) : (t.promoted.lo ≤ t.hi * t.hi ∧ t.hi * t.hi ≤ t.promoted.hi) ∧ t.promoted.lo ≤ 0 ∧ 0 ≤ t.promoted.hi := by
  have hp : t.promoted = INT32 := by unfold PT.promoted; rw [if_pos (by omega)]
  have hlo : -255 ≤ t.lo ∧ t.hi ≤ 255 ∧ -255 ≤ t.hi := by
    unfold PT.lo PT.hi
    have e1 : 2 ^ (t.bits - 1) ≤ 2 ^ 7 := Nat.pow_le_pow_right (by decide) (by omega)
    have e2 : 2 ^ t.bits ≤ 2 ^ 8 := Nat.pow_le_pow_right (by decide) hb
    have e3 : 0 < 2 ^ (t.bits - 1) := Nat.two_pow_pos _
    have e4 : 0 < 2 ^ t.bits := Nat.two_pow_pos _
    split <;> omega
  rw [hp]
  have e3 : INT32.lo = -2147483648 := by decide
  have e4 : INT32.hi = 2147483647 := by decide
  rw [e3, e4]
  have ea : |t.hi| ≤ 255 := abs_le.mpr ⟨by omega, by omega⟩
  have : |t.hi * t.hi| ≤ 255 * 255 := by
    rw [abs_mul]; exact mul_le_mul ea ea (abs_nonneg _) (by norm_num)
  have := abs_le.mp this
  omega

/-- **C105** (partial: types of at most 8 bits, displacements that do not exceed the image). The vector has one more entries than steps. The entry `len` is
the part of the pairs of pixels at the displacement `len · (dx, dy, dz)` that go from the first to the second value; missing for the full claim: the code
multiplies it by the square of the maximum of the type (`C105_scale_bug`). -/
theorem C105_cross_partial (hb : t.bits ≤ 8) (im : Img (Px t)) (v1 v2 : Px t) (hc : im.dims.count ≠ 0) (dx dy dz maxSteps n : Nat)
    (hn : IsSteps im.dims maxSteps n) (hx : dx * n ≤ im.dims.w) (hy : dy * n ≤ im.dims.h) (hz : dz * n ≤ im.dims.d) :
    ∃ vec : List ℚ, measCrossCorrelation im v1 v2 dx dy dz maxSteps false = some (vec.map some) ∧ vec.length = n + 1 ∧
      ∀ len ≤ n, ∀ pts : List IntPoint, IsPairs im.dims ⟨(dx * len : Nat), (dy * len : Nat), (dz * len : Nat)⟩ pts →
        vec[len]? = some ((t.hi : ℚ) ^ 2 * phaseFrac im v1 v2 ⟨(dx * len : Nat), (dy * len : Nat), (dz * len : Nat)⟩ pts) := by
  obtain ⟨f1, f2, f3⟩ := fit_small hb
  have key : ∀ len ≤ n, dx * len ≤ im.dims.w ∧ dy * len ≤ im.dims.h ∧ dz * len ≤ im.dims.d := fun len hl =>
    ⟨le_trans (Nat.mul_le_mul_left _ hl) hx, le_trans (Nat.mul_le_mul_left _ hl) hy, le_trans (Nat.mul_le_mul_left _ hl) hz⟩
  obtain ⟨vec, h1, h2, h3⟩ := covMapM_some (crossAt im v1 v2 dx dy dz) (List.range (n + 1)) fun i hi => by
    obtain ⟨a, b, c⟩ := key i (by rw [List.mem_range] at hi; omega)
    exact ⟨_, crossAt_eq im v1 v2 f1 f2 f3 dx dy dz i a b c _ (covPts_pairs im.dims _ _ _)⟩
  refine ⟨vec, ?_, by simpa using h2, ?_⟩
  · unfold measCrossCorrelation
    rw [if_neg hc]
    simp only
    rw [steps_eq hn, h1]
    rfl
  · intro len hl pts hp
    obtain ⟨a, b, c⟩ := key len hl
    refine h3 len (by rw [List.length_range]; omega) _ ?_
    rw [List.getElem_range]
    exact crossAt_eq im v1 v2 f1 f2 f3 dx dy dz len a b c pts hp

/-- **C105**, normalised: the factor cancels; the entries are the parts divided by the first one, when it is not zero. -/
theorem C105_normalized_partial (hb : t.bits ≤ 8) (ht : t.hi ≠ 0) (im : Img (Px t)) (v : Px t) (hc : im.dims.count ≠ 0) (dx dy dz maxSteps n : Nat)
    (hn : IsSteps im.dims maxSteps n) (hx : dx * n ≤ im.dims.w) (hy : dy * n ≤ im.dims.h) (hz : dz * n ≤ im.dims.d)
    (pts : Nat → List IntPoint) (hp : ∀ len ≤ n, IsPairs im.dims ⟨(dx * len : Nat), (dy * len : Nat), (dz * len : Nat)⟩ (pts len))
    (h0 : phaseFrac im v v ⟨0, 0, 0⟩ (pts 0) ≠ 0) :
    ∃ vec : List ℚ, measCrossCorrelation im v v dx dy dz maxSteps true = some (vec.map some) ∧ vec.length = n + 1 ∧
      ∀ len ≤ n, vec[len]? = some (phaseFrac im v v ⟨(dx * len : Nat), (dy * len : Nat), (dz * len : Nat)⟩ (pts len) /
        phaseFrac im v v ⟨0, 0, 0⟩ (pts 0)) := by
  obtain ⟨vec, h1, h2, h3⟩ := C105_cross_partial hb im v v hc dx dy dz maxSteps n hn hx hy hz
  have hd0 : vec.headD 0 = (t.hi : ℚ) ^ 2 * phaseFrac im v v ⟨0, 0, 0⟩ (pts 0) := by
    have := h3 0 (by omega) (pts 0) (hp 0 (by omega))
    cases vec with
    | nil => simp at h2
    | cons a l =>
      simp only [List.getElem?_cons_zero, Option.some.injEq] at this
      simpa using this
  have hhi : (t.hi : ℚ) ^ 2 ≠ 0 := pow_ne_zero _ (by exact_mod_cast ht)
  have hne : vec.headD 0 ≠ 0 := by rw [hd0]; exact mul_ne_zero hhi h0
  refine ⟨vec.map fun a => a / vec.headD 0, ?_, by simpa using h2, ?_⟩
  · unfold measCrossCorrelation at h1 ⊢
    rw [if_neg hc] at h1 ⊢
    simp only at h1 ⊢
    cases hm : (List.range ((if maxSteps = 0 then max (max im.dims.w im.dims.h) im.dims.d - 1 else maxSteps) + 1)).mapM (crossAt im v v dx dy dz) with
    | none => rw [hm] at h1; simp at h1
    | some l =>
      rw [hm] at h1
      simp only [Bool.false_eq_true, if_false, Option.map_some, Option.some.injEq] at h1
      have hl : l = vec := List.map_injective_iff.2 (Option.some_injective _) h1
      rw [hl]
      simp only [Option.map_some, if_true, Option.some.injEq, List.map_map]
      refine List.map_congr_left fun a _ => ?_
      simp only [Function.comp, if_neg hne]
  · intro len hl
    rw [List.getElem?_map, h3 len hl (pts len) (hp len hl), Option.map_some, hd0, mul_div_mul_left _ _ hhi]

/-- **C105**: an image that is not allocated is refused. -/
theorem C105_refuse (im : Img (Px t)) (v1 v2 : Px t) (hc : im.dims.count = 0) (dx dy dz maxSteps : Nat) (normalize : Bool) :
    measCrossCorrelation im v1 v2 dx dy dz maxSteps normalize = some [] := by
  unfold measCrossCorrelation
  rw [if_pos hc]

/-! ## Exceptions -/

/-- An image with one value: all pairs go from it to itself, and the entries are 65025 instead of 1. -/
theorem C105_scale_bug :
    measCrossCorrelation (im8 ⟨2, 1, 1⟩ [7, 7]) (UINT8.wrap 7) (UINT8.wrap 7) 1 0 0 1 false = some [some 65025, some 65025] := by decide +kernel

/-- Two distinct values, normalised: no pixel has both, so the first entry is zero and every entry is divided by zero. -/
theorem C105_normalized_bug (hb : t.bits ≤ 8) (im : Img (Px t)) (v1 v2 : Px t) (hv : v1 ≠ v2) (hc : im.dims.count ≠ 0) (dx dy dz maxSteps n : Nat)
    (hn : IsSteps im.dims maxSteps n) (hx : dx * n ≤ im.dims.w) (hy : dy * n ≤ im.dims.h) (hz : dz * n ≤ im.dims.d) :
    measCrossCorrelation im v1 v2 dx dy dz maxSteps true = some (List.replicate (n + 1) none) := by
  obtain ⟨vec, h1, h2, h3⟩ := C105_cross_partial hb im v1 v2 hc dx dy dz maxSteps n hn hx hy hz
  have hd0 : vec.headD 0 = 0 := by
    have := h3 0 (by omega) _ (covPts_pairs im.dims (dx * 0) (dy * 0) (dz * 0))
    cases vec with
    | nil => rfl
    | cons a l =>
      simp only [List.getElem?_cons_zero, Option.some.injEq] at this
      rw [List.headD_cons, this]
      unfold phaseFrac
      rw [List.filter_eq_nil_iff.2]
      · simp
      · intro p _
        simp only [Nat.mul_zero, Nat.cast_zero, add_zero, decide_eq_true_eq, not_and]
        intro a b
        rw [a] at b
        exact hv (Option.some.inj b)
  unfold measCrossCorrelation at h1 ⊢
  rw [if_neg hc] at h1 ⊢
  simp only at h1 ⊢
  cases hm : (List.range ((if maxSteps = 0 then max (max im.dims.w im.dims.h) im.dims.d - 1 else maxSteps) + 1)).mapM (crossAt im v1 v2 dx dy dz) with
  | none => rw [hm] at h1; simp at h1
  | some l =>
    rw [hm] at h1
    simp only [Bool.false_eq_true, if_false, Option.map_some, Option.some.injEq] at h1
    have hl : l = vec := List.map_injective_iff.2 (Option.some_injective _) h1
    rw [hl]
    simp only [Option.map_some, if_true, Option.some.injEq, hd0]
    rw [List.map_const', h2]

/-- Too many steps: as soon as a displacement exceeds the number of slices, or of lines or columns with pairs left in the outer directions, the lengths wrap
and the image is read beyond its end. -/
theorem C105_steps_ub (im : Img (Px t)) (v1 v2 : Px t) (hc : im.dims.count ≠ 0) (dx dy dz maxSteps n len : Nat)
    (hn : IsSteps im.dims maxSteps n) (hl : len ≤ n) (normalize : Bool)
    (h : im.dims.d < dz * len ∨ (dz * len < im.dims.d ∧ im.dims.h < dy * len) ∨ (dz * len < im.dims.d ∧ dy * len < im.dims.h ∧ im.dims.w < dx * len)) :
    measCrossCorrelation im v1 v2 dx dy dz maxSteps normalize = none := by
  have hnone : crossAt im v1 v2 dx dy dz len = none := by
    unfold crossAt
    rcases h with h | h | h
    · rw [if_pos h]
    · rw [if_neg (by omega), if_neg (by omega), if_pos h.2]
    · rw [if_neg (by omega), if_neg (by omega), if_neg (by omega), if_neg (by omega), if_pos h.2.2]
  have hm : (List.range (n + 1)).mapM (crossAt im v1 v2 dx dy dz) = none := by
    generalize hL : List.range (n + 1) = L
    have hmem : len ∈ L := by rw [← hL, List.mem_range]; omega
    clear hL
    induction L with
    | nil => simp at hmem
    | cons a L ih =>
      rw [List.mapM_cons]
      rcases List.mem_cons.1 hmem with rfl | hmem
      · rw [hnone]; rfl
      · cases crossAt im v1 v2 dx dy dz a with
        | none => rfl
        | some b => rw [ih hmem]; rfl
  unfold measCrossCorrelation
  rw [if_neg hc]
  simp only
  rw [steps_eq hn, hm]
  rfl

/-- The default number of steps is too large for the diagonal of an image of four columns and two lines, and for the direction of the slices of a plane
image. -/
theorem C105_default_ub (im : Img (Px t)) (v1 v2 : Px t) (hD : im.dims = ⟨4, 2, 1⟩) (normalize : Bool) :
    measCrossCorrelation im v1 v2 1 1 0 0 normalize = none ∧ measCrossCorrelation im v1 v2 0 0 1 0 normalize = none := by
  have hs : IsSteps im.dims 0 3 := by rw [hD]; unfold IsSteps; decide
  have hc : im.dims.count ≠ 0 := by rw [hD]; decide
  constructor
  · exact C105_steps_ub im v1 v2 hc 1 1 0 0 3 3 hs (le_refl _) normalize (by rw [hD]; decide)
  · exact C105_steps_ub im v1 v2 hc 0 0 1 0 3 3 hs (le_refl _) normalize (by rw [hD]; decide)

/-- `UINT16`: the product of two maxima overflows. -/
theorem C105_overflow_ub :
    measCrossCorrelation (imOf UINT16 ⟨2, 1, 1⟩ [7, 7]) (UINT16.wrap 7) (UINT16.wrap 7) 1 0 0 1 false = none := by decide +kernel

/-- A line with two phases: one of the five pairs at distance one goes from 1 to 2. -/
example : IsSteps ⟨6, 1, 1⟩ 2 2 ∧ 1 * 2 ≤ 6 ∧
    measCrossCorrelation (im8 ⟨6, 1, 1⟩ [1, 1, 1, 2, 2, 2]) (UINT8.wrap 1) (UINT8.wrap 2) 1 0 0 2 false =
      some [some 0, some (65025 * (1 / 5)), some (65025 * (2 / 4))] := ⟨by unfold IsSteps; decide, by decide, by decide +kernel⟩

end
end Smil
