import Verif.CompareLemmas
import Verif.PropsArith

/-!
# C69: similarity of images

The indices of binary images are the documented ratios of the numbers of true and false positives and negatives, each count being increased by one half; the Hamming distance is a distance.
-/

namespace Smil
variable {t : PT}

theorem indexOf_ok (E : Env (Px t)) {a b : Img (Px t)} (ha : a.alloc = true) (hb : b.alloc = true) (h : b.dims = a.dims)
    (f : Img (Px t) → Img (Px t) → Rat) : indexOf E a b f = f a b := by
  unfold indexOf cmpCheck
  rw [if_neg (by simp [ha, hb]), if_pos h]

theorem ifBinary_ok {a b : Img (Px t)} (ha : TwoValued a) (hb : TwoValued b) (f : Img (Px t) → Img (Px t) → Rat) :
    ifBinary f a b = f a b := by
  unfold ifBinary
  rw [if_neg (by simp [(isBinary_iff a).mpr ha, (isBinary_iff b).mpr hb])]

theorem sizeT_sub {m n : Nat} (h : n ≤ m) (hm : m < 2 ^ 64) : sizeT ((m : Int) - n) = m - n := by
  unfold sizeT; omega

theorem sizeT_add {m n : Nat} (hm : m + n < 2 ^ 64) : sizeT ((m : Int) + n) = m + n := by
  unfold sizeT; omega

/-- Two binary images of the same size. -/
structure BinPair (a b : Img (Px t)) : Prop where
  alloc1 : a.alloc = true
  alloc2 : b.alloc = true
  size : b.dims = a.dims
  fits : a.dims.count < 2 ^ 64
  two1 : TwoValued a
  two2 : TwoValued b
  pos1 : NonNeg a
  pos2 : NonNeg b

theorem hi_of_two {a : Img (Px t)} (h : TwoValued a) (hn : NonNeg a) : 1 ≤ t.hi := by
  obtain ⟨v, h1, ⟨p, hp⟩, -⟩ := h
  have h2 := hn p v hp
  have h3 := v.le_hi
  have : v.val ≠ 0 := fun h0 => h1 (Px.ext h0)
  omega

theorem BinPair.counts {a b : Img (Px t)} (h : BinPair a b) : Counts a b :=
  counts_of a b h.size (hi_of_two h.two1 h.pos1) h.pos1 h.pos2

/-- **C69** (indices). For two binary images of the same size without negative values, every index is the documented ratio, with one half added to the two counts. -/
theorem C69_indices (E : Env (Px t)) (a b : Img (Px t)) (h : BinPair a b) :
    indexJaccard E a b = (nTP a b + 1 / 2) / (nTP a b + nFP a b + nFN a b + 1 / 2) ∧
    indexPrecision E a b = (nTP a b + 1 / 2) / (nTP a b + nFP a b + 1 / 2) ∧
    indexSensitivity E a b = (nTP a b + 1 / 2) / (nTP a b + nFN a b + 1 / 2) ∧
    indexRecall E a b = indexSensitivity E a b ∧
    indexSpecificity E a b = (nTN a b + 1 / 2) / (nTN a b + nFP a b + 1 / 2) ∧
    indexFallOut E a b = (nFP a b + 1 / 2) / (nTN a b + nFP a b + 1 / 2) ∧
    indexMissRate E a b = (nFN a b + 1 / 2) / (nTP a b + nFN a b + 1 / 2) ∧
    indexOverlap E a b = (nTP a b + 1 / 2) / (min (nTP a b + nFN a b : Rat) (nTP a b + nFP a b) + 1 / 2) := by
  have c := h.counts
  have hf := h.fits
  have hall := c.all
  have ok := fun f => indexOf_ok E h.alloc1 h.alloc2 h.size f
  have bin := fun f => ifBinary_ok h.two1 h.two2 f
  refine ⟨?_, ?_, ?_, ?_, ?_, ?_, ?_, ?_⟩
  · unfold indexJaccard
    rw [ok, if_pos (by simp [(isBinary_iff a).mpr h.two1, (isBinary_iff b).mpr h.two2]), c.land, c.lor]
    unfold dxm; push_cast; rfl
  · unfold indexPrecision
    rw [ok, bin, c.inf, c.second]
    unfold dxm; push_cast; rfl
  · unfold indexSensitivity
    rw [ok, bin, c.inf, c.first]
    unfold dxm; push_cast; rfl
  · unfold indexRecall
    rw [ok]
  · unfold indexSpecificity
    rw [ok, bin, c.sup, c.first, sizeT_sub (by omega) hf, sizeT_sub (by omega) hf]
    have e1 : a.dims.count - (nTP a b + nFP a b + nFN a b) = nTN a b := by omega
    have e2 : a.dims.count - (nTP a b + nFN a b) = nTN a b + nFP a b := by omega
    rw [e1, e2]
    unfold dxm; push_cast; rfl
  · unfold indexFallOut
    rw [ok, bin]
    simp only [c.sup, c.second, c.inf]
    rw [sizeT_sub (by omega) hf, sizeT_sub (m := nTP a b + nFP a b) (by omega) (by omega)]
    have e1 : a.dims.count - (nTP a b + nFP a b + nFN a b) = nTN a b := by omega
    have e2 : nTP a b + nFP a b - nTP a b = nFP a b := by omega
    rw [e1, e2, sizeT_add (by omega)]
    unfold dxm; push_cast; rfl
  · unfold indexMissRate
    rw [ok, bin]
    simp only [c.first, c.inf]
    rw [sizeT_sub (m := nTP a b + nFN a b) (by omega) (by omega)]
    have e2 : nTP a b + nFN a b - nTP a b = nFN a b := by omega
    rw [e2, sizeT_add (by omega)]
    unfold dxm; push_cast; rfl
  · unfold indexOverlap
    rw [ok, bin, c.inf, c.first, c.second]
    unfold dxm; push_cast; rfl

/-- **C69** (F-score). -/
theorem C69_fscore (E : Env (Px t)) (beta : Rat) (a b : Img (Px t)) (h : BinPair a b) :
    indexFScore E beta a b = (1 + beta ^ 2) * (indexPrecision E a b * indexRecall E a b) /
      (beta ^ 2 * indexPrecision E a b + indexRecall E a b) ∧
    indexFScore E 1 a b = 2 * (nTP a b + 1 / 2) / (2 * nTP a b + nFP a b + nFN a b + 1) := by
  have key : ∀ beta : Rat, indexFScore E beta a b = (1 + beta ^ 2) * (indexPrecision E a b * indexRecall E a b) /
      (beta ^ 2 * indexPrecision E a b + indexRecall E a b) := by
    intro beta
    unfold indexFScore
    rw [indexOf_ok E h.alloc1 h.alloc2 h.size, ifBinary_ok h.two1 h.two2]
    simp only [pow_two]
  refine ⟨key beta, ?_⟩
  obtain ⟨-, hp, hs, hr, -⟩ := C69_indices E a b h
  rw [key 1, hr, hp, hs]
  have h1 : (0 : Rat) ≤ nTP a b := Nat.cast_nonneg _
  have h2 : (0 : Rat) ≤ nFP a b := Nat.cast_nonneg _
  have h3 : (0 : Rat) ≤ nFN a b := Nat.cast_nonneg _
  generalize (nTP a b : Rat) = x at *
  generalize (nFP a b : Rat) = y at *
  generalize (nFN a b : Rat) = z at *
  have e1 : x + y + 1 / 2 ≠ 0 := by positivity
  have e2 : x + z + 1 / 2 ≠ 0 := by positivity
  have e3 : x + 1 / 2 ≠ 0 := by positivity
  have e4 : 2 * x + y + z + 1 ≠ 0 := by positivity
  have e5 : (1 : Rat) ^ 2 * ((x + 1 / 2) / (x + y + 1 / 2)) + (x + 1 / 2) / (x + z + 1 / 2) =
      (x + 1 / 2) * (2 * x + y + z + 1) / ((x + y + 1 / 2) * (x + z + 1 / 2)) := by
    field_simp; ring
  rw [e5]
  field_simp
  ring

theorem ratio_range {x y : Nat} (c : Nat) (h : x + c = y) : (0 : Rat) < (x + 1 / 2) / (y + 1 / 2) ∧ ((x : Rat) + 1 / 2) / (y + 1 / 2) ≤ 1 ∧
    (((x : Rat) + 1 / 2) / (y + 1 / 2) = 1 ↔ c = 0) := by
  have hx : (0 : Rat) ≤ x := Nat.cast_nonneg _
  have hy : (0 : Rat) ≤ y := Nat.cast_nonneg _
  have hc : (0 : Rat) ≤ c := Nat.cast_nonneg _
  have e : (x : Rat) + c = y := by exact_mod_cast h
  have hp : (0 : Rat) < y + 1 / 2 := by positivity
  refine ⟨by positivity, (div_le_one hp).mpr (by linarith), ?_⟩
  rw [div_eq_one_iff_eq hp.ne']
  constructor
  · intro h; have : (c : Rat) = 0 := by linarith
    exact_mod_cast this
  · intro h; rw [h] at e; push_cast at e; linarith

/-- **C69** (range). Indices lie in `(0, 1]`, and each is one exactly when its defect count is zero. -/
theorem C69_range (E : Env (Px t)) (a b : Img (Px t)) (h : BinPair a b) :
    (0 < indexJaccard E a b ∧ indexJaccard E a b ≤ 1 ∧ (indexJaccard E a b = 1 ↔ nFP a b = 0 ∧ nFN a b = 0)) ∧
    (0 < indexPrecision E a b ∧ indexPrecision E a b ≤ 1 ∧ (indexPrecision E a b = 1 ↔ nFP a b = 0)) ∧
    (0 < indexRecall E a b ∧ indexRecall E a b ≤ 1 ∧ (indexRecall E a b = 1 ↔ nFN a b = 0)) ∧
    (0 < indexSpecificity E a b ∧ indexSpecificity E a b ≤ 1 ∧ (indexSpecificity E a b = 1 ↔ nFP a b = 0)) ∧
    (0 < indexFallOut E a b ∧ indexFallOut E a b ≤ 1 ∧ (indexFallOut E a b = 1 ↔ nTN a b = 0)) ∧
    (0 < indexMissRate E a b ∧ indexMissRate E a b ≤ 1 ∧ (indexMissRate E a b = 1 ↔ nTP a b = 0)) ∧
    (0 < indexOverlap E a b ∧ indexOverlap E a b ≤ 1 ∧ (indexOverlap E a b = 1 ↔ nFP a b = 0 ∨ nFN a b = 0)) := by
  obtain ⟨h1, h2, h3, h4, h5, h6, h7, h8⟩ := C69_indices E a b h
  rw [h4, h1, h2, h3, h5, h6, h7, h8]
  refine ⟨?_, ?_, ?_, ?_, ?_, ?_, ?_⟩
  · have := ratio_range (x := nTP a b) (y := nTP a b + nFP a b + nFN a b) (nFP a b + nFN a b) (by omega)
    push_cast at this
    refine ⟨this.1, this.2.1, this.2.2.trans (by omega)⟩
  · have := ratio_range (x := nTP a b) (y := nTP a b + nFP a b) (nFP a b) (by omega)
    push_cast at this; exact this
  · have := ratio_range (x := nTP a b) (y := nTP a b + nFN a b) (nFN a b) (by omega)
    push_cast at this; exact this
  · have := ratio_range (x := nTN a b) (y := nTN a b + nFP a b) (nFP a b) (by omega)
    push_cast at this; exact this
  · have := ratio_range (x := nFP a b) (y := nTN a b + nFP a b) (nTN a b) (by omega)
    push_cast at this; exact this
  · have := ratio_range (x := nFN a b) (y := nTP a b + nFN a b) (nTP a b) (by omega)
    push_cast at this; exact this
  · have := ratio_range (x := nTP a b) (y := min (nTP a b + nFN a b) (nTP a b + nFP a b)) (min (nFN a b) (nFP a b)) (by omega)
    push_cast at this
    refine ⟨this.1, this.2.1, this.2.2.trans (by omega)⟩

/-- **C69** (exception to the documented complements). The documented ratios of sensitivity and miss rate, and of specificity and fall out, have sum one; the computed indices always have a greater
sum. -/
theorem C69_complement_bug (E : Env (Px t)) (a b : Img (Px t)) (h : BinPair a b) :
    indexSensitivity E a b + indexMissRate E a b = 1 + 1 / (2 * (nTP a b + nFN a b) + 1) ∧
    indexSpecificity E a b + indexFallOut E a b = 1 + 1 / (2 * (nTN a b + nFP a b) + 1) := by
  obtain ⟨h1, h2, h3, h4, h5, h6, h7, h8⟩ := C69_indices E a b h
  rw [h3, h7, h5, h6]
  have key : ∀ x y : Nat, ((x : Rat) + 1 / 2) / (x + y + 1 / 2) + (y + 1 / 2) / (x + y + 1 / 2) = 1 + 1 / (2 * (x + y) + 1) := by
    intro x y
    have hx : (0 : Rat) ≤ x := Nat.cast_nonneg _
    have hy : (0 : Rat) ≤ y := Nat.cast_nonneg _
    have e1 : (x : Rat) + y + 1 / 2 ≠ 0 := by positivity
    have e2 : (2 : Rat) * (x + y) + 1 ≠ 0 := by positivity
    field_simp
    ring
  exact ⟨key _ _, key _ _⟩

/-- **C69** (symmetry). Exchanging the images exchanges precision and recall and leaves the others. -/
theorem C69_symm (E : Env (Px t)) (a b : Img (Px t)) (h : BinPair a b) (h' : BinPair b a) :
    indexJaccard E a b = indexJaccard E b a ∧ indexPrecision E a b = indexRecall E b a ∧ indexOverlap E a b = indexOverlap E b a ∧
    indexFScore E 1 a b = indexFScore E 1 b a := by
  have e1 : nTP a b = nTP b a := by
    unfold nTP; rw [pixCount_swap]; congr 1; funext u v; exact propext and_comm
  have e2 : nFP a b = nFN b a := by
    unfold nFP nFN; rw [pixCount_swap]; congr 1; funext u v; exact propext and_comm
  have e3 : nFN a b = nFP b a := by
    unfold nFP nFN; rw [pixCount_swap]; congr 1; funext u v; exact propext and_comm
  obtain ⟨h1, h2, h3, h4, h5, h6, h7, h8⟩ := C69_indices E a b h
  obtain ⟨k1, k2, k3, k4, k5, k6, k7, k8⟩ := C69_indices E b a h'
  rw [h1, k1, h2, k4, k3, h8, k8, (C69_fscore E 1 a b h).2, (C69_fscore E 1 b a h').2, e1, e2, e3]
  refine ⟨by congr 1; ring, rfl, by rw [min_comm], by congr 1; ring⟩

/-- **C69** (`indexRuzicka`). The ratio of the sums of minima and maxima, one half being added to each; for two images that are not both binary `indexJaccard` is this. -/
theorem C69_ruzicka (E : Env (Px t)) (a b : Img (Px t)) (ha : a.alloc = true) (hb : b.alloc = true) (h : b.dims = a.dims) :
    indexRuzicka E a b = (pixSum a b min + 1 / 2) / (pixSum a b max + 1 / 2) ∧
    (¬ (TwoValued a ∧ TwoValued b) → indexJaccard E a b = indexRuzicka E a b) := by
  constructor
  · unfold indexRuzicka
    rw [indexOf_ok E ha hb h, vol_zip a b kInf min ?_, vol_zip a b kSup max ?_]
    · rfl
    · intro u v
      unfold kSup
      by_cases hlt : u > v
      · rw [if_pos hlt, max_eq_left (Px.lt_iff.mp hlt).le]
      · rw [if_neg hlt, max_eq_right (Px.le_iff.mp (not_lt.mp hlt))]
    · intro u v
      unfold kInf
      by_cases hlt : u < v
      · rw [if_pos hlt, min_eq_left (Px.lt_iff.mp hlt).le]
      · rw [if_neg hlt, min_eq_right (Px.le_iff.mp (not_lt.mp hlt))]
  · intro hn
    unfold indexJaccard
    rw [indexOf_ok E ha hb h, if_neg]
    rw [Bool.and_eq_true, isBinary_iff, isBinary_iff]
    exact hn

/-- **C69** (`distanceHamming`). The number of points with different values. -/
theorem C69_hamming (E : Env (Px t)) (a b : Img (Px t)) (ha : a.alloc = true) (hb : b.alloc = true) (h : b.dims = a.dims) (hh : 1 ≤ t.hi) :
    distanceHamming E a b = pixCount a b fun u v => u ≠ v := by
  unfold distanceHamming cmpCheck
  rw [if_neg (by simp [ha, hb]), if_pos h]
  refine area_zip a b kDiff _ h fun i _ => ?_
  unfold kDiff
  by_cases he : a.buf i = b.buf i
  · rw [if_pos he, he]; simp [Px.zero]
  · rw [if_neg he, Px.top_val]
    have : (a.buf i).val ≠ (b.buf i).val := fun hc => he (Px.ext hc)
    constructor
    · exact fun _ => this
    · intro _; omega

/-- **C69** (Hamming). It is a distance: zero for the same images only, symmetric, with the triangle inequality. -/
theorem C69_hamming_metric (E : Env (Px t)) (a b c : Img (Px t)) (ha : a.alloc = true) (hb : b.alloc = true) (hc : c.alloc = true)
    (hab : b.dims = a.dims) (hac : c.dims = a.dims) (hh : 1 ≤ t.hi) :
    (distanceHamming E a b = 0 ↔ Img.Same a b) ∧ distanceHamming E a b = distanceHamming E b a ∧
    distanceHamming E a c ≤ distanceHamming E a b + distanceHamming E b c := by
  classical
  rw [C69_hamming E a b ha hb hab hh, C69_hamming E b a hb ha hab.symm hh, C69_hamming E a c ha hc hac hh,
    C69_hamming E b c hb hc (hac.trans hab.symm) hh]
  refine ⟨?_, ?_, ?_⟩
  · rw [pixCount_eq a b _ hab, Finset.card_eq_zero, Finset.filter_eq_empty_iff]
    constructor
    · intro h0
      refine ⟨hab.symm, fun p => ?_⟩
      by_cases hp : Img.In a.dims p
      · have := h0 (Finset.mem_range.mpr (offOf_lt hp))
        rw [Img.buf_offOf a p hp, Img.buf_offOf b p (by rw [hab]; exact hp), hab]
        congr 1
        exact Px.ext (not_not.mp this)
      · rw [Img.at?_none a p hp, Img.at?_none b p (by rw [hab]; exact hp)]
    · intro hs i hi
      have h2 := hs.2 (coordPt a.dims i)
      rw [at_coord a rfl (Finset.mem_range.mp hi), at_coord b hab (Finset.mem_range.mp hi)] at h2
      rw [not_not, Option.some.inj h2]
  · rw [pixCount_swap]
    congr 1; funext u v; exact propext ne_comm
  · rw [pixCount_eq a c _ hac, pixCount_eq a b _ hab, pixCount_eq b c _ (hac.trans hab.symm), hab]
    refine le_trans (Finset.card_le_card ?_) (Finset.card_union_le _ _)
    intro i hi
    rw [Finset.mem_filter] at hi
    rw [Finset.mem_union, Finset.mem_filter, Finset.mem_filter]
    by_cases h1 : (a.buf i).val = (b.buf i).val
    · exact Or.inr ⟨hi.1, by rw [← h1]; exact hi.2⟩
    · exact Or.inl ⟨hi.1, h1⟩

/-- **C69** (`indexAccuracy`). For binary images the ratio of equal values, which is the documented accuracy if the nonzero values of the two images are the same; for other images of an unsigned type, the ratio of
the values that differ by no more than the threshold. -/
theorem C69_accuracy_partial (E : Env (Px t)) (thr : Px t) (a b : Img (Px t)) (ha : a.alloc = true) (hb : b.alloc = true) (h : b.dims = a.dims)
    (hh : 1 ≤ t.hi) :
    (TwoValued a → TwoValued b → indexAccuracy E thr a b = some ((pixCount a b (fun u v => u = v) : Rat) / (a.dims.count : Rat)) ∧
      ((∀ p q u v, a.at? p = some u → b.at? q = some v → u.val ≠ 0 → v.val ≠ 0 → u = v) →
        indexAccuracy E thr a b = some ((nTP a b + nTN a b : Rat) / (nTP a b + nTN a b + nFP a b + nFN a b)))) ∧
    (t.signed = false → ¬ (TwoValued a ∧ TwoValued b) →
      indexAccuracy E thr a b = some ((pixCount a b (fun u v => |u - v| ≤ thr.val) : Rat) / (a.dims.count : Rat))) := by
  refine ⟨fun h1 h2 => ?_, fun hs hn => ?_⟩
  · have e : indexAccuracy E thr a b = some ((pixCount a b (fun u v => u = v) : Rat) / (a.dims.count : Rat)) := by
      unfold indexAccuracy cmpCheck
      rw [if_neg (by simp [ha, hb]), if_pos h]
      simp only
      rw [if_pos (by simp [(isBinary_iff a).mpr h1, (isBinary_iff b).mpr h2]), area_zip a b kEqu _ h fun i _ => ?_]
      unfold kEqu
      by_cases he : a.buf i = b.buf i
      · rw [if_pos he, Px.top_val, he]
        constructor
        · exact fun _ => rfl
        · intro _; omega
      · rw [if_neg he]
        constructor
        · intro h0; exact absurd rfl h0
        · intro h0; exact absurd (Px.ext h0) he
    refine ⟨e, fun hv => ?_⟩
    rw [e]
    congr 1
    have c1 : pixCount a b (fun u v => u = v) = nTP a b + nTN a b := by
      classical
      have : pixCount a b (fun u v => u = v) = pixCount a b fun u v => (u ≠ 0 ∧ v ≠ 0) ∨ (u = 0 ∧ v = 0) := by
        unfold pixCount
        congr 1
        ext p
        constructor
        · rintro ⟨u, v, h1, h2, h3⟩; exact ⟨u, v, h1, h2, by omega⟩
        · rintro ⟨u, v, h1, h2, h3⟩
          refine ⟨u, v, h1, h2, ?_⟩
          rcases h3 with ⟨k1, k2⟩ | ⟨k1, k2⟩
          · rw [hv p p u v h1 h2 k1 k2]
          · omega
      rw [this]
      exact pixCount_add a b _ _ _ h (by intro u v; tauto) (by intro u v; tauto)
    have c2 : a.dims.count = nTP a b + nTN a b + nFP a b + nFN a b := by
      rw [← pixCount_all a b h, pixCount_add a b (fun u v => u ≠ 0 ∨ v ≠ 0) (fun u v => u = 0 ∧ v = 0) _ h (by intro u v; tauto) (by intro u v; tauto),
        (counts_any a b h).2.2]
      unfold nTN; omega
    rw [c1, c2]
    push_cast
    rfl
  · unfold indexAccuracy cmpCheck
    rw [if_neg (by simp [ha, hb]), if_pos h]
    simp only
    rw [if_neg (by rw [Bool.and_eq_true, isBinary_iff, isBinary_iff]; exact hn)]
    obtain ⟨d, hd⟩ := Img.zipK_total kAbsDiff a b h fun p u v _ _ => by
      obtain ⟨r, hr, -⟩ := C09_absDiff hs u v
      rw [hr]; rfl
    obtain ⟨dd, dv⟩ := Img.zipK_some kAbsDiff a b d h hd
    let k : Px t → Px t := fun v => kTest (kGrt v thr) (t.wrap 0) (t.wrap 1)
    have hk : (fun v : Px t => kCompare ">" v thr (t.wrap 0) (t.wrap 1)) = fun v => some (k v) := rfl
    obtain ⟨o, ho⟩ := Img.mapK_total (fun v => some (k v)) d fun p u _ => rfl
    obtain ⟨od, ov⟩ := Img.mapK_some (fun v => some (k v)) d o ho
    rw [hd, Option.bind_some, hk, ho, Option.map_some, area_card, pixCount_eq a b _ h]
    congr 4
    rw [od, dd]
    refine Finset.filter_congr fun i hi => ?_
    have hi := Finset.mem_range.mp hi
    obtain ⟨w, hw1, hw2⟩ := dv _ _ _ (at_coord a rfl hi) (at_coord b h hi)
    obtain ⟨w', hw1', hw2'⟩ := ov _ _ hw2
    rw [at_coord o (od.trans dd) hi] at hw2'
    have e : o.buf i = k w := (Option.some.inj hw2').trans (Option.some.inj hw1').symm
    obtain ⟨r, hr, hr2, -⟩ := C09_absDiff hs (a.buf i) (b.buf i)
    rw [hw1] at hr
    cases Option.some.inj hr
    rw [e, ← hr2]
    have hlt : w > thr ↔ thr.val < w.val := Px.lt_iff
    have hz : (Px.zero : Px t).truthy = false := by simp [Px.truthy, Px.zero]
    have ht : (⊤ : Px t).truthy = true := by rw [truthy_val, Px.top_val]; omega
    by_cases hc : w > thr
    · have ek : k w = t.wrap 0 := by
        show kTest (kGrt w thr) _ _ = _
        have : kGrt w thr = ⊤ := if_pos hc
        rw [this]
        exact if_pos ht
      rw [ek, t.wrap_of_mem t.lo_nonpos t.hi_nonneg]
      have := hlt.mp hc
      constructor
      · intro h0; exact absurd rfl h0
      · intro h0; omega
    · have ek : k w = t.wrap 1 := by
        show kTest (kGrt w thr) _ _ = _
        have : kGrt w thr = Px.zero := if_neg hc
        rw [this]
        exact if_neg (by rw [hz]; simp)
      rw [ek, t.wrap_of_mem (by have := t.lo_nonpos; omega) hh]
      constructor
      · intro _; exact not_lt.mp fun hx => hc (hlt.mpr hx)
      · intro _; simp

end Smil
