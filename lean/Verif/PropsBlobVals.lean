import Verif.BlobVals
import Verif.PropsBlobMeasures
import Verif.PropsMeasures
import Mathlib.Tactic.FieldSimp
import Mathlib.Tactic.Linarith
import Mathlib.Tactic.Positivity
import Mathlib.Algebra.Order.Ring.Rat

/-!
# C92: mean, values, mode, median and box of each blob
-/

namespace Smil

section
variable {κ : Type} [LinearOrder κ] {t : PT}

/-- An entry of the result of a measure goes through `finalize`. -/
theorem perBlob_map {σ τ : Type} {zero : κ} {onlyNZ : Bool} {lab : Img κ} {f : κ → σ} {res : List (κ × σ)}
    (h : IsPerBlob zero onlyNZ lab f res) (g : σ → τ) :
    IsPerBlob zero onlyNZ lab (fun k => g (f k)) (res.map fun e => (e.1, g e.2)) := by
  refine ⟨List.pairwise_map.mpr h.sorted, fun k s => ?_⟩
  simp only [List.mem_map, Prod.exists, Prod.mk.injEq]
  constructor
  · rintro ⟨k', s', hm, rfl, rfl⟩
    obtain ⟨h1, h2⟩ := (h.entries _ _).mp hm
    exact ⟨h1, by rw [h2]⟩
  · rintro ⟨h1, rfl⟩
    exact ⟨k, f k, (h.entries _ _).mpr ⟨h1, rfl⟩, rfl, rfl⟩

theorem blobVals_ne (lab : Img κ) (k : κ) (im : Img (Px t)) (hd : im.dims = lab.dims) (p : IntPoint)
    (hp : lab.at? p = some k) : blobVals lab k im ≠ [] := by
  have hin := lab.at?_eq_some_in p k hp
  have hv : im.px p.x.toNat p.y.toNat p.z.toNat ∈ blobVals lab k im :=
    (mem_blobVals _ _ _ _).mpr ⟨p, im.at?_some p (by rw [hd]; exact hin), hp⟩
  exact List.ne_nil_of_mem hv

theorem foldl_mean (l : List (Px t)) (s : Nat × Int × Int) :
    l.foldl (fun s v => (s.1 + 1, s.2.1 + v.val, s.2.2 + v.val * v.val)) s =
      (s.1 + l.length, s.2.1 + (l.map Px.val).sum, s.2.2 + (l.map fun v => v.val * v.val).sum) := by
  induction l generalizing s with
  | nil => simp
  | cons a l ih =>
    rw [List.foldl_cons, ih]
    simp only [List.length_cons, List.map_cons, List.sum_cons, Prod.mk.injEq]
    refine ⟨by omega, by ring, by ring⟩

theorem sum_dev (l : List (Px t)) (m : ℚ) :
    (l.map fun v => ((v.val : ℚ) - m) * ((v.val : ℚ) - m)).sum =
      ((l.map fun v => v.val * v.val).sum : ℤ) - 2 * m * ((l.map Px.val).sum : ℤ) + l.length * (m * m) := by
  induction l with
  | nil => simp
  | cons a l ih =>
    simp only [List.map_cons, List.sum_cons, List.length_cons, ih]
    push_cast
    ring

/-- **C92**, mean. For each label present, the first number times the number of pixels of the label is the sum of
their values, and the number under the square root times the number of pixels is the sum of the squares of their
deviations from the first; it is not negative. -/
theorem C92_mean_partial (zero : κ) (onlyNZ : Bool) (lab : Img κ) (im : Img (Px t)) (hd : im.dims = lab.dims) :
    ∃ (res : _) (f : κ → ℚ × ℚ), blobsMeanVal im (computeBlobs zero onlyNZ lab) = some res ∧
      IsPerBlob zero onlyNZ lab f res ∧
      ∀ k p, lab.at? p = some k →
        (f k).1 * (blobVals lab k im).length = ((blobVals lab k im).map Px.val).sum ∧
        (f k).2 * (blobVals lab k im).length =
          ((blobVals lab k im).map fun v => ((v.val : ℚ) - (f k).1) * ((v.val : ℚ) - (f k).1)).sum ∧
        0 ≤ (f k).2 := by
  obtain ⟨res, h1, h2⟩ := C19_measure zero onlyNZ lab im hd (meanFn (t := t)) _ (fun s l _ => rfl)
  refine ⟨_, _, by unfold blobsMeanVal; rw [h1]; rfl, perBlob_map h2 meanFin, fun k p hp => ?_⟩
  have hne := blobVals_ne lab k im hd p hp
  have hf : ((blobPts lab k im).map Prod.snd).foldl
      (fun s v => (s.1 + 1, s.2.1 + v.val, s.2.2 + v.val * v.val)) (meanFn (t := t)).init =
      ((blobVals lab k im).length, ((blobVals lab k im).map Px.val).sum,
        ((blobVals lab k im).map fun v => v.val * v.val).sum) := by
    rw [foldl_mean]
    simp [meanFn, blobVals]
  rw [hf]
  set l := blobVals lab k im
  have hn : l.length ≠ 0 := fun h => hne (List.length_eq_zero_iff.mp h)
  have hq : (l.length : ℚ) ≠ 0 := by exact_mod_cast hn
  unfold meanFin
  rw [if_neg hn]
  have e1 : (((l.map Px.val).sum : ℤ) : ℚ) / l.length * l.length = ((l.map Px.val).sum : ℤ) := div_mul_cancel₀ _ hq
  have e2 : ((((l.map fun v => v.val * v.val).sum : ℤ) : ℚ) / l.length -
      (((l.map Px.val).sum : ℤ) : ℚ) / l.length * ((((l.map Px.val).sum : ℤ) : ℚ) / l.length)) * l.length =
      (l.map fun v => ((v.val : ℚ) - (((l.map Px.val).sum : ℤ) : ℚ) / l.length) *
        ((v.val : ℚ) - (((l.map Px.val).sum : ℤ) : ℚ) / l.length)).sum := by
    rw [sum_dev]
    field_simp
    ring
  refine ⟨e1, e2, ?_⟩
  simp only
  have h0 : (0 : ℚ) ≤ (l.map fun v => ((v.val : ℚ) - (((l.map Px.val).sum : ℤ) : ℚ) / l.length) *
        ((v.val : ℚ) - (((l.map Px.val).sum : ℤ) : ℚ) / l.length)).sum := by
    apply List.sum_nonneg
    intro x hx
    obtain ⟨v, -, rfl⟩ := List.mem_map.mp hx
    exact mul_self_nonneg _
  rw [← e2] at h0
  have hpos : (0 : ℚ) < l.length := by
    have : 0 < l.length := by omega
    exact_mod_cast this
  exact nonneg_of_mul_nonneg_left h0 hpos

/-- **C92**, values: for each label present the values on its pixels, each once, in increasing order. -/
theorem C92_values (zero : κ) (onlyNZ : Bool) (lab : Img κ) (im : Img (Px t)) (hd : im.dims = lab.dims) :
    ∃ (res : _) (f : κ → List (Px t)), blobsValueList im (computeBlobs zero onlyNZ lab) = some res ∧
      IsPerBlob zero onlyNZ lab f res ∧
      ∀ k, (f k).Pairwise (· < ·) ∧ ∀ v, v ∈ f k ↔ ∃ p, im.at? p = some v ∧ lab.at? p = some k := by
  obtain ⟨res, h1, h2⟩ := C19_measure zero onlyNZ lab im hd (valueListFn (t := t)) _ (fun s l _ => rfl)
  refine ⟨res, _, h1, h2, fun k => ?_⟩
  obtain ⟨h3, h4⟩ := foldl_set (blobVals lab k im) [] List.Pairwise.nil
  refine ⟨h3, fun v => ?_⟩
  rw [← mem_blobVals]
  exact (h4 v).trans (by simp)

/-- The positive values on the pixels of label `k`. -/
def blobPos (lab : Img κ) (k : κ) (im : Img (Px t)) : List (Px t) :=
  (blobVals lab k im).filter fun v => decide (v.val > 0)

theorem mem_blobPos (lab : Img κ) (k : κ) (im : Img (Px t)) (v : Px t) :
    v ∈ blobPos lab k im ↔ 0 < v.val ∧ ∃ p, im.at? p = some v ∧ lab.at? p = some k := by
  unfold blobPos
  rw [List.mem_filter, mem_blobVals, decide_eq_true_eq, and_comm]

/-- **C92**, mode. For each label present, the most frequent of the positive values on its pixels and among those the
first to reach its count in raster order; zero if none is positive. Missing: values that are not positive should count
(`C92_mode_bug`). -/
theorem C92_mode_partial (zero : κ) (onlyNZ : Bool) (lab : Img κ) (im : Img (Px t)) (hd : im.dims = lab.dims)
    (hb : t.hi < 2 ^ 32) :
    ∃ (res : _) (f : κ → Option (Px t)), blobsModeVal im (computeBlobs zero onlyNZ lab) = some res ∧
      IsPerBlob zero onlyNZ lab f res ∧
      ∀ k p, lab.at? p = some k → ∃ m, f k = some m ∧
        (blobPos lab k im = [] → m.val = 0) ∧
        (blobPos lab k im ≠ [] →
          (∀ v, (blobPos lab k im).count v ≤ (blobPos lab k im).count m) ∧
          ∃ pre post, blobPos lab k im = pre ++ m :: post ∧
            (pre ++ [m]).count m = (blobPos lab k im).count m ∧
            ∀ v, pre.count v < (blobPos lab k im).count m) := by
  obtain ⟨res, h1, h2⟩ := C19_measure zero onlyNZ lab im hd (modeFn (t := t)) modeStep' modeFn_seq
  refine ⟨_, _, by unfold blobsModeVal; rw [h1]; rfl, perBlob_map h2 ModeSt.ret, fun k p hp => ?_⟩
  have hne := blobVals_ne lab k im hd p hp
  have hinv := foldl_mode hb (blobVals lab k im)
  simp only at hinv
  change ModeInv (blobPos lab k im) _ at hinv
  refine ⟨((blobVals lab k im).foldl modeStep ⟨[], 0, Px.zero, none⟩).mode, ?_, ?_, ?_⟩
  · change ((blobVals lab k im).foldl modeStep' modeFn.init).ret = _
    rw [← modeFn_seq _ _ hne]
    rfl
  · intro hn
    rw [(hinv.nil hn).2]
    rfl
  · intro hn
    obtain ⟨pre, post, h1, h2, h3, h4⟩ := hinv.first hn
    refine ⟨fun v => ?_, pre, post, h1, by rw [h2, h3], by rw [h3]; exact h4⟩
    rw [h3]
    by_cases hv : v ∈ blobPos lab k im
    · exact hinv.max v hv
    · rw [List.count_eq_zero_of_not_mem hv]; omega

/-- **C92**, median. For each label present, a positive value of its pixels that has more than half of the positive
ones at or below it and at most half of them below it, as long as the values fit an `int`; zero if none is positive.
Missing: values that are not positive should count (`C92_median_bug`), and values of 2^31 or more should keep their
order (`C17_median_wide_bug`). -/
theorem C92_median_partial (zero : κ) (onlyNZ : Bool) (lab : Img κ) (im : Img (Px t)) (hd : im.dims = lab.dims)
    (hr : ∀ p v, im.at? p = some v → v.val < 2 ^ 31) :
    ∃ (res : _) (f : κ → Px t), blobsMedianVal im (computeBlobs zero onlyNZ lab) = some res ∧
      IsPerBlob zero onlyNZ lab f res ∧
      ∀ k, (blobPos lab k im = [] → (f k).val = 0) ∧
        (blobPos lab k im ≠ [] → f k ∈ blobPos lab k im ∧
          (blobPos lab k im).length < 2 * (blobPos lab k im).countP (fun v => decide (v ≤ f k)) ∧
          2 * (blobPos lab k im).countP (fun v => decide (v < f k)) ≤ (blobPos lab k im).length) := by
  obtain ⟨res, h1, h2⟩ := C19_measure zero onlyNZ lab im hd (medianFn (t := t)) _ (fun s l _ => rfl)
  refine ⟨_, _, by unfold blobsMedianVal; rw [h1]; rfl,
    perBlob_map h2 fun s => t.wrap (medianLoop s.2 0 s.1), fun k => ?_⟩
  obtain ⟨h3, h4⟩ := foldl_median (blobVals lab k im)
  change IsCount _ ((blobPos lab k im).map keyOf) at h3
  change _ = (blobPos lab k im).length at h4
  change (_ → (t.wrap (medianLoop
    ((blobVals lab k im).foldl (fun (s : List (Int × Nat) × Nat) v =>
      if v.val > 0 then (mapIncr (keyOf v) s.1, s.2 + 1) else s) ([], 0)).2 0
    ((blobVals lab k im).foldl (fun (s : List (Int × Nat) × Nat) v =>
      if v.val > 0 then (mapIncr (keyOf v) s.1, s.2 + 1) else s) ([], 0)).1)).val = 0) ∧ (_ → t.wrap (medianLoop
    ((blobVals lab k im).foldl (fun (s : List (Int × Nat) × Nat) v =>
      if v.val > 0 then (mapIncr (keyOf v) s.1, s.2 + 1) else s) ([], 0)).2 0
    ((blobVals lab k im).foldl (fun (s : List (Int × Nat) × Nat) v =>
      if v.val > 0 then (mapIncr (keyOf v) s.1, s.2 + 1) else s) ([], 0)).1) ∈ _ ∧
      _ < 2 * List.countP (fun v => decide (v ≤ t.wrap (medianLoop
    ((blobVals lab k im).foldl (fun (s : List (Int × Nat) × Nat) v =>
      if v.val > 0 then (mapIncr (keyOf v) s.1, s.2 + 1) else s) ([], 0)).2 0
    ((blobVals lab k im).foldl (fun (s : List (Int × Nat) × Nat) v =>
      if v.val > 0 then (mapIncr (keyOf v) s.1, s.2 + 1) else s) ([], 0)).1))) _ ∧
      2 * List.countP (fun v => decide (v < t.wrap (medianLoop
    ((blobVals lab k im).foldl (fun (s : List (Int × Nat) × Nat) v =>
      if v.val > 0 then (mapIncr (keyOf v) s.1, s.2 + 1) else s) ([], 0)).2 0
    ((blobVals lab k im).foldl (fun (s : List (Int × Nat) × Nat) v =>
      if v.val > 0 then (mapIncr (keyOf v) s.1, s.2 + 1) else s) ([], 0)).1))) _ ≤ _)
  rw [h4]
  set m := ((blobVals lab k im).foldl (fun (s : List (Int × Nat) × Nat) v =>
      if v.val > 0 then (mapIncr (keyOf v) s.1, s.2 + 1) else s) ([], 0)).1 with hm
  constructor
  · intro hn
    rw [hn] at h3 ⊢
    have : m = [] := by
      cases hm' : m with
      | nil => rfl
      | cons e m' =>
        obtain ⟨k, n⟩ := e
        rw [hm'] at h3
        have := (h3.2 k n).mp (by simp)
        simp at this
    rw [this]
    exact t.wrap_of_mem t.lo_nonpos t.hi_nonneg
  · intro hn
    have hkey : ∀ v ∈ blobPos lab k im, keyOf v = v.val := by
      intro v hv
      obtain ⟨h0, p, hp, -⟩ := (mem_blobPos lab k im v).mp hv
      have := hr p v hp
      exact INT32.wrap_of_mem (by have : INT32.lo = -2^31 := by decide
                                  omega) (by have : INT32.hi = 2^31 - 1 := by decide
                                             omega)
    have hkm : (blobPos lab k im).map keyOf = (blobPos lab k im).map Px.val := List.map_congr_left hkey
    rw [hkm] at h3
    have := medianLoop_spec ((blobPos lab k im).map Px.val) (by simpa using hn) [] m (by simpa using h3)
      (by simp)
    simp only [List.map_nil, List.sum_nil, List.length_map] at this
    obtain ⟨q1, q2, q3⟩ := this
    obtain ⟨w, hw, hwk⟩ := List.mem_map.mp q1
    have hwrap : t.wrap (medianLoop (blobPos lab k im).length 0 m) = w := by
      rw [← hwk]; exact t.wrap_val w
    rw [hwrap]
    rw [← hwk, List.countP_map] at q2 q3
    exact ⟨hw, q2, q3⟩

/-- The points of label `k`. -/
def blobDom (lab : Img κ) (k : κ) (im : Img (Px t)) : List IntPoint := (blobPts lab k im).map Prod.fst

theorem mem_blobDom (lab : Img κ) (k : κ) (im : Img (Px t)) (hd : im.dims = lab.dims) (p : IntPoint) :
    p ∈ blobDom lab k im ↔ lab.at? p = some k := by
  unfold blobDom
  simp only [List.mem_map, Prod.exists, mem_blobPts]
  constructor
  · rintro ⟨q, v, ⟨-, h⟩, rfl⟩; exact h
  · intro h
    exact ⟨p, _, ⟨im.at?_some p (by rw [hd]; exact lab.at?_eq_some_in p k h), h⟩, rfl⟩

/-- `a` is the least and `b` the greatest value of the coordinate `c` on the points of label `k`. -/
def IsExtent (lab : Img κ) (k : κ) (c : IntPoint → Int) (a b : Nat) : Prop :=
  IsLeast {x | ∃ p, lab.at? p = some k ∧ c p = x} (a : Int) ∧ IsGreatest {x | ∃ p, lab.at? p = some k ∧ c p = x} (b : Int)

/-- **C92**, box. For each label present, the box has the least and the greatest coordinates of the pixels of the
label; those along `z` are only given for an image of several slices. -/
theorem C92_box (zero : κ) (onlyNZ : Bool) (lab : Img κ) (im : Img (Px t)) (hd : im.dims = lab.dims) :
    ∃ (res : _) (f : κ → List Nat), blobsBoundBox im (computeBlobs zero onlyNZ lab) = some res ∧
      IsPerBlob zero onlyNZ lab f res ∧
      ∀ k p, lab.at? p = some k → ∃ x0 y0 z0 x1 y1 z1,
        f k = (if lab.dims.d > 1 then [x0, y0, z0, x1, y1, z1] else [x0, y0, x1, y1]) ∧
        IsExtent lab k IntPoint.x x0 x1 ∧ IsExtent lab k IntPoint.y y0 y1 ∧
        (lab.dims.d > 1 → IsExtent lab k IntPoint.z z0 z1) := by
  obtain ⟨res, h1, h2⟩ := C19_measure_pos zero onlyNZ lab im hd (boxFn (t := t) im.dims)
    (fun s e => boxPt im.dims s e.1) (fun s l x y z hl => boxFn_seq im.dims s l x y z hl)
  refine ⟨_, _, by unfold blobsBoundBox; rw [h1]; rfl,
    perBlob_map h2 (boxFin (decide (im.dims.d > 1))), fun k q hq => ?_⟩
  have hfold : (blobPts lab k im).foldl (fun s e => boxPt im.dims s e.1) (boxFn (t := t) im.dims).init =
      (blobDom lab k im).foldl (boxPt im.dims) ⟨im.dims.w, im.dims.h, im.dims.d, 0, 0, 0⟩ := by
    unfold blobDom
    rw [List.foldl_map]
    rfl
  rw [hfold]
  obtain ⟨g1, g2, g3, g4, g5⟩ := foldl_box im.dims (blobDom lab k im)
    ⟨im.dims.w, im.dims.h, im.dims.d, 0, 0, 0⟩
  simp only at g1 g2 g3 g4 g5
  set r := (blobDom lab k im).foldl (boxPt im.dims) ⟨im.dims.w, im.dims.h, im.dims.d, 0, 0, 0⟩
  have hdom : blobDom lab k im ≠ [] := List.ne_nil_of_mem ((mem_blobDom lab k im hd q).mpr hq)
  have hpin : ∀ p ∈ blobDom lab k im, Img.In im.dims p := by
    intro p hp
    rw [hd]
    exact lab.at?_eq_some_in p k ((mem_blobDom lab k im hd p).mp hp)
  have hset : ∀ c : IntPoint → Int, {x | ∃ p ∈ blobDom lab k im, c p = x} = {x | ∃ p, lab.at? p = some k ∧ c p = x} := by
    intro c
    ext x
    simp only [Set.mem_setOf_eq, mem_blobDom lab k im hd]
  have hspan : ∀ (c : IntPoint → Int) (a b : Nat), IsSpan c (blobDom lab k im) a b → IsExtent lab k c a b := by
    intro c a b h
    unfold IsSpan at h
    rw [hset] at h
    exact h
  refine ⟨r.x0, r.y0, r.z0, r.x1, r.y1, r.z1, ?_, hspan _ _ _ ?_, hspan _ _ _ ?_, fun h3 => hspan _ _ _ ?_⟩
  · unfold boxFin
    simp only [decide_eq_true_eq, hd]
  · refine isSpan_of _ _ hdom _ _ im.dims.w ?_ g1 g3
    intro p hp
    have := hpin p hp
    unfold Img.In at this
    omega
  · refine isSpan_of _ _ hdom _ _ im.dims.h ?_ g2 g4
    intro p hp
    have := hpin p hp
    unfold Img.In at this
    omega
  · refine isSpan_of _ _ hdom _ _ im.dims.d ?_ (g5 (by rw [hd]; exact h3)).1 (g5 (by rw [hd]; exact h3)).2
    intro p hp
    have := hpin p hp
    unfold Img.In at this
    omega

end

/-- **C92**, box of a label image: the same without a second image. -/
theorem C92_box_labels {t : PT} (onlyNZ : Bool) (lab : Img (Px t)) :
    ∃ (res : _) (f : Px t → List Nat), blobsBoundBoxLbl onlyNZ lab = some res ∧
      IsPerBlob Px.zero onlyNZ lab f res ∧
      ∀ k p, lab.at? p = some k → ∃ x0 y0 z0 x1 y1 z1,
        f k = (if lab.dims.d > 1 then [x0, y0, z0, x1, y1, z1] else [x0, y0, x1, y1]) ∧
        IsExtent lab k IntPoint.x x0 x1 ∧ IsExtent lab k IntPoint.y y0 y1 ∧
        (lab.dims.d > 1 → IsExtent lab k IntPoint.z z0 z1) :=
  C92_box Px.zero onlyNZ lab lab rfl

/-- The results on concrete images, as numbers. -/
def numRes {σ τ : Type} (g : σ → τ) (r : Option (List (Px UINT8 × σ))) : Option (List (Int × τ)) :=
  r.map fun l => l.map fun e => (e.1.val, g e.2)

/-- The blobs of a concrete label image. -/
def exBlobs (D : Dims) (l : List Nat) : BlobMap (Px UINT8) := computeBlobs Px.zero true (im8 D l)

/-- **C92**, mode, exception: most pixels of the blob are zero but the mode is 7. -/
theorem C92_mode_bug : numRes (fun o => o.map Px.val)
    (blobsModeVal (im8 ⟨4, 1, 1⟩ [0, 0, 7, 9]) (exBlobs ⟨4, 1, 1⟩ [1, 1, 1, 2])) =
      some [(1, some 7), (2, some 9)] := by decide +kernel

/-- **C92**, median, exception: two thirds of the pixels of the blob are zero but the median is 7. -/
theorem C92_median_bug : numRes Px.val
    (blobsMedianVal (im8 ⟨4, 1, 1⟩ [0, 0, 7, 9]) (exBlobs ⟨4, 1, 1⟩ [1, 1, 1, 2])) =
      some [(1, 7), (2, 9)] := by decide +kernel

/-- **C92**, sizes: nothing compares the image with the one of the blobs. With fewer pixels, values are read outside of
the image; with another width, the box is that of other pixels. -/
theorem C92_size_bug :
    (blobsMeanVal (im8 ⟨2, 1, 1⟩ [5, 6]) (exBlobs ⟨3, 1, 1⟩ [0, 1, 1])).isNone = true ∧
    numRes id (blobsBoundBox (im8 ⟨4, 1, 1⟩ [0, 0, 0, 0]) (exBlobs ⟨2, 2, 1⟩ [0, 1, 0, 1])) =
      some [(1, [1, 0, 3, 0])] ∧
    numRes id (blobsBoundBoxLbl true (im8 ⟨2, 2, 1⟩ [0, 1, 0, 1])) = some [(1, [1, 0, 1, 1])] := by
  decide +kernel

/-- Two blobs with their means, values, modes, medians and boxes. -/
example :
    numRes id (blobsMeanVal (im8 ⟨3, 2, 1⟩ [4, 8, 3, 4, 3, 3]) (exBlobs ⟨3, 2, 1⟩ [1, 1, 2, 0, 2, 2])) =
      some [(1, (6, 4)), (2, (3, 0))] ∧
    numRes (fun l => l.map Px.val)
      (blobsValueList (im8 ⟨3, 2, 1⟩ [8, 4, 3, 4, 3, 3]) (exBlobs ⟨3, 2, 1⟩ [1, 1, 2, 0, 2, 2])) =
      some [(1, [4, 8]), (2, [3])] ∧
    numRes (fun o => o.map Px.val)
      (blobsModeVal (im8 ⟨3, 2, 1⟩ [8, 4, 3, 4, 5, 5]) (exBlobs ⟨3, 2, 1⟩ [1, 1, 2, 0, 2, 2])) =
      some [(1, some 8), (2, some 5)] ∧
    numRes Px.val
      (blobsMedianVal (im8 ⟨3, 2, 1⟩ [8, 4, 3, 4, 7, 5]) (exBlobs ⟨3, 2, 1⟩ [1, 1, 2, 0, 2, 2])) =
      some [(1, 8), (2, 5)] ∧
    numRes id (blobsBoundBoxLbl true (im8 ⟨3, 2, 1⟩ [1, 1, 2, 0, 2, 2])) =
      some [(1, [0, 0, 1, 0]), (2, [1, 0, 2, 1])] := by
  decide +kernel

/-- Three slices: the box has six coordinates. -/
example : numRes id (blobsBoundBoxLbl true (im8 ⟨2, 1, 3⟩ [0, 1, 2, 1, 0, 2])) =
    some [(1, [1, 0, 0, 1, 0, 1]), (2, [0, 0, 1, 1, 0, 2])] := by decide +kernel

end Smil
