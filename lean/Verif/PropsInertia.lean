import Mathlib.Tactic.FinCases
import Mathlib.Tactic.Positivity
import Verif.InertiaLemmas
import Verif.PropsBuild

/-!
# Barycentre, centred moments and inertia matrices (C87)
-/

namespace Smil
section
variable {t : PT} {κ : Type} [LinearOrder κ]

theorem quo_mass (l : List (IntPoint × Px t)) (g : IntPoint → Int) (f : IntPoint → ℚ) (h : ∀ p, (g p : ℚ) = f p) (hm : massOf l ≠ 0) :
    quo (l.map fun e => e.2.val * g e.1).sum (l.map fun e => e.2.val).sum = some (baryOf l f) := by
  have e0 : (((l.map fun e => e.2.val).sum : Int) : ℚ) = massOf l := by
    have := massSum_cast l (fun _ => 1) (fun _ => 1) fun _ => by norm_num
    simpa [massOf] using this
  have e1 := massSum_cast l g f h
  unfold quo baryOf
  rw [if_neg, e1, e0]
  intro h0
  apply hm
  rw [← e0, h0]
  norm_num

theorem foldl_bar (l : List (IntPoint × Px t)) (s : BarSt) :
    l.foldl barStep s = ⟨s.xs + (l.map fun e => e.2.val * e.1.x).sum, s.ys + (l.map fun e => e.2.val * e.1.y).sum,
      s.zs + (l.map fun e => e.2.val * e.1.z).sum, s.ts + (l.map fun e => e.2.val).sum⟩ := by
  induction l generalizing s with
  | nil => simp
  | cons e l ih =>
    rw [List.foldl_cons, ih]
    simp only [barStep, List.map_cons, List.sum_cons, BarSt.mk.injEq]
    refine ⟨by ring, by ring, by ring, by ring⟩

theorem barFin_fold (im3d : Bool) (l : List (IntPoint × Px t)) (hm : massOf l ≠ 0) :
    barFin im3d (l.foldl barStep (barFn (t := t)).init) =
      if im3d then [some (baryOf l cX), some (baryOf l cY), some (baryOf l cZ)] else [some (baryOf l cX), some (baryOf l cY)] := by
  rw [foldl_bar]
  unfold barFin
  simp only [barFn, zero_add]
  rw [quo_mass l IntPoint.x cX (fun _ => rfl) hm, quo_mass l IntPoint.y cY (fun _ => rfl) hm, quo_mass l IntPoint.z cZ (fun _ => rfl) hm]

/-- **C87**. The barycentre: the mean of the coordinates of the pixels, weighted by their values. -/
theorem C87_barycenter (im : Img (Px t)) (h : im.dims.count ≠ 0) (hm : massOf im.scan ≠ 0) :
    measBarycenter im = if im.dims.d > 1 then [some (baryOf im.scan cX), some (baryOf im.scan cY), some (baryOf im.scan cZ)]
      else [some (baryOf im.scan cX), some (baryOf im.scan cY)] := by
  have hsel : im.selPos nzPx false = im.scan := by
    rw [selPos_nz]
    unfold consideredPts
    simp
  unfold measBarycenter
  rw [posRun_eq (barFn (t := t)) nzPx barStep (fun s l x y z _ => rfl) false im h, hsel]
  simp only
  rw [barFin_fold _ _ hm]
  simp only [decide_eq_true_eq]

/-- **C87**, each blob has its own barycentre. -/
theorem C87_blobsBarycenter (zero : κ) (onlyNZ : Bool) (lab : Img κ) (im : Img (Px t)) (hd : im.dims = lab.dims)
    (hm : ∀ k, (onlyNZ = true → k ≠ zero) → (∃ p, lab.at? p = some k) → massOf (blobPts lab k im) ≠ 0) :
    ∃ res, blobsBarycenter im (computeBlobs zero onlyNZ lab) = some res ∧ IsPerBlob zero onlyNZ lab (fun k =>
      if im.dims.d > 1 then [some (baryOf (blobPts lab k im) cX), some (baryOf (blobPts lab k im) cY), some (baryOf (blobPts lab k im) cZ)]
      else [some (baryOf (blobPts lab k im) cX), some (baryOf (blobPts lab k im) cY)]) res := by
  obtain ⟨res, h1, h2⟩ := C19_measure_pos zero onlyNZ lab im hd (barFn (t := t)) barStep (fun s l x y z _ => rfl)
  have h3 := h2.map (fun _ s => barFin (decide (im.dims.d > 1)) s)
  refine ⟨_, by unfold blobsBarycenter; rw [h1, Option.map_some], h3.sorted, fun k s => ?_⟩
  rw [h3.entries]
  constructor
  · rintro ⟨a, rfl⟩
    refine ⟨a, ?_⟩
    rw [barFin_fold _ _ (hm k a.1 a.2)]
    simp only [decide_eq_true_eq]
  · rintro ⟨a, rfl⟩
    refine ⟨a, ?_⟩
    rw [barFin_fold _ _ (hm k a.1 a.2)]
    simp only [decide_eq_true_eq]

/-- **C87**, with unsigned pixels the barycentre lies in every half space that holds all the pixels that are not zero: it is in their convex hull, in
particular in the image. -/
theorem C87_barycenter_hull (hs : t.signed = false) (l : List (IntPoint × Px t)) (hm : massOf l ≠ 0) (a b c k : ℚ)
    (h : ∀ e ∈ l, e.2.val ≠ 0 → a * cX e.1 + b * cY e.1 + c * cZ e.1 ≤ k) :
    a * baryOf l cX + b * baryOf l cY + c * baryOf l cZ ≤ k := by
  have hpos : 0 < massOf l := lt_of_le_of_ne (massOf_pos hs l).1 (Ne.symm hm)
  have h1 := massSum_mono l (fun p => a * cX p + b * cY p + c * cZ p) (fun _ => k * 1) (fun e _ => px_nonneg hs e.2)
    (fun e he hv => by rw [mul_one]; exact h e he hv)
  rw [massSum_mul, massSum_add l (fun p => a * cX p + b * cY p), massSum_add, massSum_mul, massSum_mul, massSum_mul] at h1
  unfold baryOf
  rw [← mul_div_assoc, ← mul_div_assoc, ← mul_div_assoc, ← add_div, ← add_div, div_le_iff₀ hpos]
  exact h1

/-- **C87**, centred moments: the mass, zeros, and the second order moments about the barycentre. The mass has to be positive, or every pixel zero, which is
always so with unsigned pixels. -/
theorem C87_central (onlyNZ : Bool) (im : Img (Px t)) (h : im.dims.count ≠ 0)
    (hm : t.signed = false ∨ 0 < massOf im.scan) :
    measMomentsC onlyNZ true im = some (
      let C := comoment im.scan
      if im.dims.d > 1 then [massOf im.scan, 0, 0, 0, C cX cY, C cX cZ, C cY cZ, C cX cX, C cY cY, C cZ cZ]
      else [massOf im.scan, 0, 0, C cX cY, C cX cX, C cY cY]) := by
  have hM : Massive im.scan := by
    rcases hm with hs | hp
    · exact massive_unsigned hs _
    · exact Or.inl hp
  unfold measMomentsC
  simp only [if_true]
  rw [measMoments_eq onlyNZ im h, centerMoments_eq _ _ hM]
  unfold cmomsOf
  simp only [decide_eq_true_eq]

theorem massive_blob (lab : Img κ) (im : Img (Px t)) (k : κ) (h : (∃ p, lab.at? p = some k) → 0 < massOf (blobPts lab k im)) :
    Massive (blobPts lab k im) := by
  by_cases hk : ∃ p, lab.at? p = some k
  · exact Or.inl (h hk)
  · refine Or.inr ?_
    rintro ⟨p, v⟩ he
    exact absurd ⟨p, ((mem_blobPts lab k im p v).mp he).2⟩ hk

/-- **C87**, moments of the blobs, as they are or about the barycentre of each one. -/
theorem C87_blobsMoments (zero : κ) (onlyNZ central : Bool) (lab : Img κ) (im : Img (Px t)) (hd : im.dims = lab.dims)
    (hm : central = true → t.signed = false ∨ ∀ k, (onlyNZ = true → k ≠ zero) → (∃ p, lab.at? p = some k) → 0 < massOf (blobPts lab k im)) :
    ∃ res, blobsMoments central im (computeBlobs zero onlyNZ lab) = some res ∧ IsPerBlob zero onlyNZ lab (fun k =>
      let l := blobPts lab k im
      let C := fun f g => if central then comoment l f g else massSum l fun p => f p * g p
      let F := fun f => if central then 0 else massSum l f
      if im.dims.d > 1 then [massOf l, F cX, F cY, F cZ, C cX cY, C cX cZ, C cY cZ, C cX cX, C cY cY, C cZ cZ]
      else [massOf l, F cX, F cY, C cX cY, C cX cX, C cY cY]) res := by
  obtain ⟨res, h1, h2⟩ := blobsMoments_eq zero onlyNZ central lab im hd fun hc k hk => by
    rcases hm hc with hs | hp
    · exact massive_unsigned hs _
    · exact massive_blob lab im k (hp k hk)
  refine ⟨res, h1, ?_⟩
  cases central
  · simpa only [Bool.false_eq_true, if_false, momsOf, decide_eq_true_eq] using h2
  · simpa only [if_true, cmomsOf, decide_eq_true_eq] using h2

/-- **C87**, moments of a label image: each label counts as its own value. -/
theorem C87_labels (lab : Img (Px t)) (k : Px t) (f : IntPoint → ℚ) :
    massSum (blobPts lab k lab) f = k.val * ((blobPts lab k lab).map fun e => f e.1).sum := by
  have h : ∀ e ∈ blobPts lab k lab, e.2 = k := by
    rintro ⟨p, v⟩ he
    obtain ⟨a, b⟩ := (mem_blobPts lab k lab p v).mp he
    rw [a, Option.some.injEq] at b
    exact b
  generalize blobPts lab k lab = l at h
  induction l with
  | nil => simp [massSum_nil]
  | cons e l ih =>
    rw [massSum_cons, List.map_cons, List.sum_cons, ih fun a ha => h a (List.mem_cons_of_mem _ ha), h e List.mem_cons_self]
    ring

/-- A list of nine numbers is the inertia matrix, line by line, of weighted points about the point `(ox, oy, oz)`: it is symmetric and `uᵀ M u` is the sum of the
squares of `u × (p - o)`. -/
def IsInertia3 (l : List (IntPoint × Px t)) (ox oy oz : ℚ) (m : List ℚ) : Prop :=
  ∃ M : Fin 3 → Fin 3 → ℚ, m = [M 0 0, M 0 1, M 0 2, M 1 0, M 1 1, M 1 2, M 2 0, M 2 1, M 2 2] ∧ (∀ i j, M i j = M j i) ∧
    ∀ a b c : ℚ, a * (M 0 0 * a + M 0 1 * b + M 0 2 * c) + b * (M 1 0 * a + M 1 1 * b + M 1 2 * c) + c * (M 2 0 * a + M 2 1 * b + M 2 2 * c) =
      massSum l fun p => (b * (cZ p - oz) - c * (cY p - oy)) ^ 2 + (c * (cX p - ox) - a * (cZ p - oz)) ^ 2 + (a * (cY p - oy) - b * (cX p - ox)) ^ 2

/-- The same with the matrix documented for images of one slice, `m20, -m11, -m11, m02`: `uᵀ M u` is the sum of the squares of `a x - b y`. -/
def IsInertia2 (l : List (IntPoint × Px t)) (ox oy : ℚ) (m : List ℚ) : Prop :=
  ∃ M : Fin 2 → Fin 2 → ℚ, m = [M 0 0, M 0 1, M 1 0, M 1 1] ∧ (∀ i j, M i j = M j i) ∧
    ∀ a b : ℚ, a * (M 0 0 * a + M 0 1 * b) + b * (M 1 0 * a + M 1 1 * b) = massSum l fun p => (a * (cX p - ox) - b * (cY p - oy)) ^ 2

theorem inertia3_form (l : List (IntPoint × Px t)) (a b c : ℚ) (X Y Z : IntPoint → ℚ) :
    (massSum l fun p => (b * Z p - c * Y p) ^ 2 + (c * X p - a * Z p) ^ 2 + (a * Y p - b * X p) ^ 2) =
      a ^ 2 * ((massSum l fun p => Y p * Y p) + massSum l fun p => Z p * Z p) +
      b ^ 2 * ((massSum l fun p => X p * X p) + massSum l fun p => Z p * Z p) +
      c ^ 2 * ((massSum l fun p => X p * X p) + massSum l fun p => Y p * Y p) -
      2 * a * b * (massSum l fun p => X p * Y p) - 2 * a * c * (massSum l fun p => X p * Z p) - 2 * b * c * (massSum l fun p => Y p * Z p) := by
  induction l with
  | nil => simp [massSum_nil]
  | cons e l ih => simp only [massSum_cons, ih]; ring

theorem inertia2_form (l : List (IntPoint × Px t)) (a b : ℚ) (X Y : IntPoint → ℚ) :
    (massSum l fun p => (a * X p - b * Y p) ^ 2) =
      a ^ 2 * (massSum l fun p => X p * X p) + b ^ 2 * (massSum l fun p => Y p * Y p) - 2 * a * b * (massSum l fun p => X p * Y p) := by
  induction l with
  | nil => simp [massSum_nil]
  | cons e l ih => simp only [massSum_cons, ih]; ring

/-- The point the matrix refers to: the origin, or the barycentre. -/
def originOf (central : Bool) (l : List (IntPoint × Px t)) (f : IntPoint → ℚ) : ℚ := if central then baryOf l f else 0

theorem secondMoment (central : Bool) (l : List (IntPoint × Px t)) (f g : IntPoint → ℚ) :
    (massSum l fun p => (f p - originOf central l f) * (g p - originOf central l g)) =
      if central then comoment l f g else massSum l fun p => f p * g p := by
  unfold originOf comoment
  cases central <;> simp

/-- **C87**, images of several slices: for each blob the matrix of inertia about the origin or about its barycentre. -/
theorem C87_inertia3 (zero : κ) (onlyNZ central : Bool) (lab : Img κ) (im : Img (Px t)) (hd : im.dims = lab.dims) (hc : im.dims.count ≠ 0)
    (h3 : im.dims.d > 1) (hm : central = true → t.signed = false ∨ ∀ k, (onlyNZ = true → k ≠ zero) → (∃ p, lab.at? p = some k) → 0 < massOf (blobPts lab k im)) :
    ∃ res g, blobsInertiaMatrix central im (computeBlobs zero onlyNZ lab) = some res ∧ IsPerBlob zero onlyNZ lab g res ∧
      ∀ k, let l := blobPts lab k im
        IsInertia3 l (originOf central l cX) (originOf central l cY) (originOf central l cZ) (g k) := by
  let C := fun k f g => let l := blobPts lab k im; if central then comoment l f g else massSum l fun p => f p * g p
  obtain ⟨res, h1, h2⟩ := blobsInertia_eq zero onlyNZ central lab im hd hc (fun hc k hk => by
    rcases hm hc with hs | hp
    · exact massive_unsigned hs _
    · exact massive_blob lab im k (hp k hk))
    (fun k => [C k cY cY + C k cZ cZ, -C k cX cY, -C k cX cZ, -C k cX cY, C k cX cX + C k cZ cZ, -C k cY cZ, -C k cX cZ, -C k cY cZ, C k cX cX + C k cY cY])
    (fun k => by
      rw [decide_eq_true h3]
      cases central
      · simp only [Bool.false_eq_true, if_false, momsOf, if_true, inertiaOf, C]
      · simp only [if_true, cmomsOf, inertiaOf, C])
  refine ⟨res, _, h1, h2, fun k => ?_⟩
  refine ⟨fun i j => match i, j with
    | 0, 0 => C k cY cY + C k cZ cZ | 0, 1 => -C k cX cY | 0, 2 => -C k cX cZ
    | 1, 0 => -C k cX cY | 1, 1 => C k cX cX + C k cZ cZ | 1, 2 => -C k cY cZ
    | 2, 0 => -C k cX cZ | 2, 1 => -C k cY cZ | 2, 2 => C k cX cX + C k cY cY, rfl, ?_, fun a b c => ?_⟩
  · intro i j
    fin_cases i <;> fin_cases j <;> rfl
  · have e := inertia3_form (blobPts lab k im) a b c (fun p => cX p - originOf central (blobPts lab k im) cX)
      (fun p => cY p - originOf central (blobPts lab k im) cY) (fun p => cZ p - originOf central (blobPts lab k im) cZ)
    simp only [secondMoment] at e
    simp only
    rw [e]
    simp only [C]
    ring

/-- **C87**, images of one slice: the matrix as it is documented. -/
theorem C87_inertia2 (zero : κ) (onlyNZ central : Bool) (lab : Img κ) (im : Img (Px t)) (hd : im.dims = lab.dims) (hc : im.dims.count ≠ 0)
    (h3 : im.dims.d = 1) (hm : central = true → t.signed = false ∨ ∀ k, (onlyNZ = true → k ≠ zero) → (∃ p, lab.at? p = some k) → 0 < massOf (blobPts lab k im)) :
    ∃ res g, blobsInertiaMatrix central im (computeBlobs zero onlyNZ lab) = some res ∧ IsPerBlob zero onlyNZ lab g res ∧
      ∀ k, let l := blobPts lab k im
        IsInertia2 l (originOf central l cX) (originOf central l cY) (g k) := by
  let C := fun k f g => let l := blobPts lab k im; if central then comoment l f g else massSum l fun p => f p * g p
  obtain ⟨res, h1, h2⟩ := blobsInertia_eq zero onlyNZ central lab im hd hc (fun hc k hk => by
    rcases hm hc with hs | hp
    · exact massive_unsigned hs _
    · exact massive_blob lab im k (hp k hk))
    (fun k => [C k cX cX, -C k cX cY, -C k cX cY, C k cY cY])
    (fun k => by
      rw [decide_eq_false (by omega)]
      cases central
      · simp only [Bool.false_eq_true, if_false, momsOf, inertiaOf, C]
      · simp only [if_true, Bool.false_eq_true, if_false, cmomsOf, inertiaOf, C])
  refine ⟨res, _, h1, h2, fun k => ?_⟩
  refine ⟨fun i j => match i, j with
    | 0, 0 => C k cX cX | 0, 1 => -C k cX cY
    | 1, 0 => -C k cX cY | 1, 1 => C k cY cY, rfl, ?_, fun a b => ?_⟩
  · intro i j
    fin_cases i <;> fin_cases j <;> rfl
  · have e := inertia2_form (blobPts lab k im) a b (fun p => cX p - originOf central (blobPts lab k im) cX)
      (fun p => cY p - originOf central (blobPts lab k im) cY)
    simp only [secondMoment] at e
    simp only
    rw [e]
    simp only [C]
    ring

/-- **C87**, the matrices determine the moments of inertia: with unsigned pixels no direction has a negative one. -/
theorem C87_inertia_nonneg (hs : t.signed = false) (l : List (IntPoint × Px t)) (ox oy oz : ℚ) (M : Fin 3 → Fin 3 → ℚ)
    (h : IsInertia3 l ox oy oz [M 0 0, M 0 1, M 0 2, M 1 0, M 1 1, M 1 2, M 2 0, M 2 1, M 2 2]) (a b c : ℚ) :
    0 ≤ a * (M 0 0 * a + M 0 1 * b + M 0 2 * c) + b * (M 1 0 * a + M 1 1 * b + M 1 2 * c) + c * (M 2 0 * a + M 2 1 * b + M 2 2 * c) := by
  obtain ⟨N, h1, -, h3⟩ := h
  simp only [List.cons.injEq, and_true] at h1
  obtain ⟨e0, e1, e2, e3, e4, e5, e6, e7, e8⟩ := h1
  rw [e0, e1, e2, e3, e4, e5, e6, e7, e8, h3]
  exact massSum_nonneg l _ (fun e _ => px_nonneg hs e.2) fun p => by positivity

/-! ### Where the code departs from the claim -/

/-- **C87**, the matrix of an image of one slice has its axes exchanged: for pixels on a horizontal line the moment of inertia about the direction of the line is
given as two, that about the direction across it as zero. With a second, empty slice the matrix is the right one. -/
theorem C87_inertia2_axes_bug :
    blobsInertiaMatrix true (im8 ⟨3, 3, 1⟩ [0, 0, 0, 1, 1, 1, 0, 0, 0]) (computeBlobs (UINT8.wrap 0) true (im8 ⟨3, 3, 1⟩ [0, 0, 0, 1, 1, 1, 0, 0, 0])) =
      some [(UINT8.wrap 1, [2, 0, 0, 0])] ∧
    blobsInertiaMatrix true (im8 ⟨3, 3, 2⟩ [0, 0, 0, 1, 1, 1, 0, 0, 0])
      (computeBlobs (UINT8.wrap 0) true (im8 ⟨3, 3, 2⟩ [0, 0, 0, 1, 1, 1, 0, 0, 0])) =
      some [(UINT8.wrap 1, [0, 0, 0, 0, 2, 0, 0, 0, 2])] := by
  decide +kernel

/-- **C87**, signed pixels: as soon as the mass is not positive all the centred moments are zero. Here they should be `-4, 0, 0, 0, -4, 0`. -/
theorem C87_negative_bug :
    measMomentsC (t := INT8) true true ⟨⟨3, 1, 1⟩, fun i => if i = 1 then INT8.wrap 0 else INT8.wrap (-2)⟩ = some [0, 0, 0, 0, 0, 0] ∧
    massOf (t := INT8) (Img.scan ⟨⟨3, 1, 1⟩, fun i => if i = 1 then INT8.wrap 0 else INT8.wrap (-2)⟩) = -4 ∧
    comoment (t := INT8) (Img.scan ⟨⟨3, 1, 1⟩, fun i => if i = 1 then INT8.wrap 0 else INT8.wrap (-2)⟩) cX cX = -4 := by
  decide +kernel

/-- **C87**, an image of zeros has no barycentre: the coordinates are not numbers. -/
theorem C87_nan_bug : measBarycenter (im8 ⟨2, 1, 1⟩ [0, 0]) = [none, none] := by decide +kernel

/-- **C87**, an image that is not allocated: the moments are an empty vector, centring it reads its first entry. -/
theorem C87_empty_bug (onlyNZ : Bool) (im : Img (Px t)) (h : im.dims.count = 0) :
    measMomentsC onlyNZ false im = some [] ∧ measMomentsC onlyNZ true im = none := by
  unfold measMomentsC measMoments posRun
  rw [if_pos h]
  exact ⟨rfl, rfl⟩

/-- Equal shapes with different labels have different moments when only the label image is given. -/
theorem C87_labels_bug :
    (blobsMoments true (im8 ⟨2, 2, 1⟩ [1, 1, 2, 2]) (computeBlobs (UINT8.wrap 0) true (im8 ⟨2, 2, 1⟩ [1, 1, 2, 2]))) =
      some [(UINT8.wrap 1, [2, 0, 0, 0, 1 / 2, 0]), (UINT8.wrap 2, [4, 0, 0, 0, 1, 0])] := by
  decide +kernel

/-- The hypotheses are met: a slanted blob, weighted. -/
example : (im8 ⟨2, 2, 1⟩ [3, 0, 0, 1]).dims.count ≠ 0 ∧ massOf (im8 ⟨2, 2, 1⟩ [3, 0, 0, 1]).scan = 4 ∧
    measBarycenter (im8 ⟨2, 2, 1⟩ [3, 0, 0, 1]) = [some (1 / 4), some (1 / 4)] ∧
    measMomentsC true true (im8 ⟨2, 2, 1⟩ [3, 0, 0, 1]) = some [4, 0, 0, 3 / 4, 3 / 4, 3 / 4] := by
  decide +kernel

/-- Two blobs of an image of two slices. -/
example : blobsInertiaMatrix true (im8 ⟨2, 2, 2⟩ [1, 0, 0, 0, 0, 1, 0, 2]) (computeBlobs (UINT8.wrap 0) true (im8 ⟨2, 2, 2⟩ [1, 0, 0, 0, 0, 1, 0, 2])) =
    some [(UINT8.wrap 1, [1 / 2, 0, -1 / 2, 0, 1, 0, -1 / 2, 0, 1 / 2]), (UINT8.wrap 2, [0, 0, 0, 0, 0, 0, 0, 0, 0])] := by
  decide +kernel

end
end Smil
