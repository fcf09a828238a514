import Verif.EntropyLemmas
import Verif.PropsHistogram
import Verif.PropsBlobMeasures
import Verif.PropsBuild

/-!
# Entropy (C86)
-/

namespace Smil
section
variable {t : PT} {κ : Type} [LinearOrder κ]

theorem entFn_fold (l : List (Px t)) (s : List (Int × Nat)) :
    l.foldl (fun h v => mapIncr v.val h) s = (l.map Px.val).foldl (fun h v => mapIncr v h) s := by
  rw [List.foldl_map]

/-- **C86**. The entropy of an image is Shannon's entropy, in bits, of the frequencies of its values. -/
theorem C86_entropy (im : Img (Px t)) (h : im.dims.count ≠ 0) : measEntropy im = shannon (im.vals.map Px.val) := by
  unfold measEntropy
  rw [measRun_eq (entFn (t := t)) nzPx (fun h v => mapIncr v.val h) (fun s l _ => rfl) false im h, sel_nz, considered_false]
  change entFin (List.map Prod.snd (im.vals.foldl (fun h v => mapIncr v.val h) [])) = _
  rw [entFn_fold]
  exact (foldl_count _).entropy

/-- **C86**, bounds: between zero, exactly for the images with a single value, and the logarithm of the number of different values. -/
theorem C86_bounds (im : Img (Px t)) (h : im.dims.count ≠ 0) :
    0 ≤ measEntropy im ∧ (measEntropy im = 0 ↔ ∀ p q v w, im.at? p = some v → im.at? q = some w → v = w) ∧
      ∀ vs : Finset (Px t), (∀ v, v ∈ vs ↔ ∃ p, im.at? p = some v) → measEntropy im ≤ Real.logb 2 vs.card := by
  rw [C86_entropy im h]
  refine ⟨shannon_nonneg _, ?_, ?_⟩
  · rw [shannon_eq_zero]
    constructor
    · intro H p q v w hp hq
      exact Px.ext (H _ (List.mem_map_of_mem ((im.mem_vals v).mpr ⟨p, hp⟩)) _ (List.mem_map_of_mem ((im.mem_vals w).mpr ⟨q, hq⟩)))
    · intro H v hv w hw
      rw [List.mem_map] at hv hw
      obtain ⟨v, hv, rfl⟩ := hv
      obtain ⟨w, hw, rfl⟩ := hw
      obtain ⟨p, hp⟩ := (im.mem_vals v).mp hv
      obtain ⟨q, hq⟩ := (im.mem_vals w).mp hw
      rw [H p q v w hp hq]
  · intro vs hvs
    have hne : im.vals.map Px.val ≠ [] := by
      rw [im.vals_eq]
      simp [h]
    refine le_trans (shannon_le _ hne) ?_
    have hcard : (im.vals.map Px.val).toFinset.card = vs.card := by
      symm
      apply Finset.card_bij (fun v _ => v.val)
      · intro v hv
        rw [List.mem_toFinset]
        exact List.mem_map_of_mem ((im.mem_vals v).mpr ((hvs v).mp hv))
      · intro a _ b _ hab
        exact Px.ext hab
      · intro z hz
        rw [List.mem_toFinset, List.mem_map] at hz
        obtain ⟨v, hv, rfl⟩ := hz
        exact ⟨v, (hvs v).mpr ((im.mem_vals v).mp hv), rfl⟩
    rw [hcard]

/-- **C86**, invariance: an operation that maps pixels one by one and keeps different values different keeps the entropy (inversion, for instance). -/
theorem C86_relabel {u : PT} (im : Img (Px t)) (out : Img (Px u)) (h : im.dims.count ≠ 0) (hd : out.dims = im.dims) (f : Px t → Px u)
    (hf : ∀ p v, im.at? p = some v → out.at? p = some (f v))
    (hinj : ∀ p q v w, im.at? p = some v → im.at? q = some w → f v = f w → v = w) : measEntropy out = measEntropy im := by
  rw [C86_entropy im h, C86_entropy out (by rw [hd]; exact h)]
  have hvals : out.vals = im.vals.map f := by
    rw [out.vals_eq, im.vals_eq, hd, List.map_map]
    apply List.map_congr_left
    intro i hi
    rw [List.mem_range] at hi
    obtain ⟨p, h1, h4⟩ := Img.buf_at? im i hi
    have h2 := hf _ _ h1
    have h3 := Img.at?_some out p (by rw [hd]; exact Img.at?_eq_some_in im p _ h1)
    rw [h2, Option.some.injEq] at h3
    unfold Img.px at h3
    rw [hd, h4] at h3
    exact h3.symm
  rw [hvals, List.map_map]
  have hg : ∀ v ∈ im.vals, (Px.val ∘ f) v = (fun z : Int => (f (t.wrap z)).val) v.val := by
    intro v _
    simp
  rw [show im.vals.map (Px.val ∘ f) = (im.vals.map Px.val).map (fun z : Int => (f (t.wrap z)).val) by
    rw [List.map_map]; exact List.map_congr_left hg, shannon_map]
  intro a ha b hb hab
  rw [List.mem_map] at ha hb
  obtain ⟨v, hv, rfl⟩ := ha
  obtain ⟨w, hw, rfl⟩ := hb
  rw [PT.wrap_val, PT.wrap_val] at hab
  obtain ⟨p, hp⟩ := (im.mem_vals v).mp hv
  obtain ⟨q, hq⟩ := (im.mem_vals w).mp hw
  rw [hinj p q v w hp hq (Px.ext hab)]

/-- **C86**, with a mask: the entropy of the values where the mask is not zero. Missing for the full claim: images of 32 bits with pixels far apart
(`C86_wide_bug`). -/
theorem C86_mask_partial (auto : Bool) (raw : Nat → Px t) (im mask : Img (Px t)) (hd : mask.dims = im.dims) (h : im.dims.count ≠ 0)
    (hc : im.dims.count < 2 ^ 32) (hs : SpanOk im) : measEntropyMask auto raw im mask = some (shannon ((maskedVals im mask).map Px.val)) := by
  unfold measEntropyMask
  rw [if_neg (by rw [hd]; tauto), if_pos hd]
  obtain ⟨⟨m, h1, h2, h3, h4⟩, -⟩ := C15_mask_partial im mask hd h hc hs
  rw [h1, Option.map_some, Option.some.injEq]
  have hcount : ∀ v : Px t, ((maskedVals im mask).map Px.val).count v.val = (maskedVals im mask).count v := by
    intro v
    rw [List.count_eq_countP, List.count_eq_countP, List.countP_map]
    apply List.countP_congr
    intro w _
    simp only [Function.comp_apply, beq_iff_eq]
    exact ⟨fun h => Px.ext h, fun h => by rw [h]⟩
  have e : m.map Prod.snd = ((m.map Prod.fst).map Px.val).map fun v => ((maskedVals im mask).map Px.val).count v := by
    rw [List.map_map, List.map_map]
    apply List.map_congr_left
    rintro ⟨k, n⟩ hk
    simp only [Function.comp_apply]
    rw [hcount]
    exact ((h3 k n).mp hk).2
  rw [e, entFin_shannon]
  · rw [List.Nodup, List.pairwise_map, List.pairwise_map]
    refine h2.imp fun hab h => ?_
    have := Px.lt_iff.mp hab
    omega
  · intro z hz
    rw [List.mem_map] at hz
    obtain ⟨v, hv, rfl⟩ := hz
    refine List.mem_map_of_mem (List.mem_map.mpr ⟨(v, (maskedVals im mask).count v), (h3 _ _).mpr ⟨?_, rfl⟩, rfl⟩)
    have hvi : v ∈ im.vals := by
      unfold maskedVals at hv
      rw [List.mem_map] at hv
      obtain ⟨e, he, rfl⟩ := hv
      exact List.mem_map_of_mem (List.mem_of_mem_filter he)
    exact ⟨⟨v, hvi, le_rfl⟩, ⟨v, hvi, le_rfl⟩⟩

/-- **C86**, blobs: for each label the entropy of the values on its pixels. -/
theorem C86_blobs (zero : κ) (onlyNZ : Bool) (lab : Img κ) (im : Img (Px t)) (hd : im.dims = lab.dims) :
    ∃ res, blobsEntropy im (computeBlobs zero onlyNZ lab) = some res ∧
      IsPerBlob zero onlyNZ lab (fun k => shannon ((blobVals lab k im).map Px.val)) res := by
  obtain ⟨res, h1, h2⟩ := C19_measure zero onlyNZ lab im hd (entFn (t := t)) (fun h v => mapIncr v.val h) (fun s l _ => rfl)
  refine ⟨_, by unfold blobsEntropy; rw [h1, Option.map_some], ?_, ?_⟩
  · rw [List.pairwise_map]
    exact h2.sorted
  · intro k s
    have hent : ∀ k, entFin ((((blobPts lab k im).map Prod.snd).foldl (fun h v => mapIncr v.val h) (entFn (t := t)).init).map Prod.snd) =
        shannon ((blobVals lab k im).map Px.val) := by
      intro k
      rw [entFn_fold]
      exact (foldl_count _).entropy
    rw [List.mem_map]
    constructor
    · rintro ⟨⟨k', m⟩, hm, he⟩
      rw [Prod.mk.injEq] at he
      obtain ⟨rfl, rfl⟩ := he
      obtain ⟨a, b⟩ := (h2.entries k' m).mp hm
      exact ⟨a, by rw [b]; exact hent k'⟩
    · rintro ⟨a, b⟩
      refine ⟨(k, _), (h2.entries k _).mpr ⟨a, rfl⟩, ?_⟩
      rw [Prod.mk.injEq]
      exact ⟨rfl, by rw [b]; exact hent k⟩

/-! ### Where the code departs from the claim -/

/-- **C86**, images that are not allocated: the error code is returned as if it were an entropy. -/
theorem C86_unallocated_bug (im : Img (Px t)) (h : im.dims.count = 0) : measEntropy im = -99 := by
  unfold measEntropy measRun
  rw [if_pos h]

/-- **C86**, 32 bit images with pixels at both ends of the range: the array of the histogram is too small for the version with a mask, the other one gives
one bit. -/
theorem C86_wide_bug (auto : Bool) (raw : Nat → Px UINT32) :
    measEntropyMask auto raw ⟨⟨2, 1, 1⟩, fun i => if i = 0 then ⊥ else ⊤⟩ ⟨⟨2, 1, 1⟩, fun _ => ⊤⟩ = none ∧
    measEntropy (t := UINT32) ⟨⟨2, 1, 1⟩, fun i => if i = 0 then ⊥ else ⊤⟩ = 1 := by
  constructor
  · unfold measEntropyMask
    rw [if_neg (by decide), if_pos rfl]
    rw [show histMapMask false (⟨⟨2, 1, 1⟩, fun i => if i = 0 then ⊥ else ⊤⟩ : Img (Px UINT32)) ⟨⟨2, 1, 1⟩, fun _ => ⊤⟩ = none by decide +kernel]
    rfl
  · rw [C86_entropy _ (by decide)]
    rw [show (⟨⟨2, 1, 1⟩, fun i => if i = 0 then ⊥ else ⊤⟩ : Img (Px UINT32)).vals.map Px.val = [0, 4294967295] by decide +kernel]
    unfold shannon
    rw [show ([0, 4294967295] : List Int).toFinset = {0, 4294967295} by decide]
    rw [Finset.sum_pair (by decide)]
    rw [show ([0, 4294967295] : List Int).count 0 = 1 by decide, show ([0, 4294967295] : List Int).count 4294967295 = 1 by decide]
    have e : Real.logb 2 (1 / 2 : ℝ) = -1 := by
      rw [one_div, Real.logb_inv, Real.logb_self_eq_one (by norm_num)]
    norm_num [e]

/-- **C86**, a mask of another size with automatic resizing: what the resized mask happens to hold decides. -/
theorem C86_mask_size_bug :
    measEntropyMask true (fun _ => UINT8.wrap 0) (im8 ⟨2, 1, 1⟩ [3, 4]) (im8 ⟨1, 1, 1⟩ [255]) ≠
      measEntropyMask true (fun _ => UINT8.wrap 1) (im8 ⟨2, 1, 1⟩ [3, 4]) (im8 ⟨1, 1, 1⟩ [255]) := by
  unfold measEntropyMask
  rw [if_neg (by decide), if_neg (by decide), if_pos rfl, if_neg (by decide), if_neg (by decide), if_pos rfl]
  rw [show histMapMask false (im8 ⟨2, 1, 1⟩ [3, 4]) ⟨(im8 ⟨2, 1, 1⟩ [3, 4]).dims, fun _ => UINT8.wrap 0⟩ =
    some [(UINT8.wrap 3, 0), (UINT8.wrap 4, 0)] by decide +kernel]
  rw [show histMapMask false (im8 ⟨2, 1, 1⟩ [3, 4]) ⟨(im8 ⟨2, 1, 1⟩ [3, 4]).dims, fun _ => UINT8.wrap 1⟩ =
    some [(UINT8.wrap 3, 1), (UINT8.wrap 4, 1)] by decide +kernel]
  simp only [Option.map_some, List.map_cons, List.map_nil, ne_eq, Option.some.injEq]
  unfold entFin
  rw [entFold, entFold]
  norm_num

/-- The hypotheses are met: four pixels of three values. -/
example : (im8 ⟨2, 2, 1⟩ [1, 1, 7, 3]).dims.count ≠ 0 ∧ (im8 ⟨2, 2, 1⟩ [1, 1, 7, 3]).dims.count < 2 ^ 32 ∧
    (im8 ⟨2, 2, 1⟩ [1, 1, 7, 3]).vals.map Px.val = [1, 1, 7, 3] := by
  refine ⟨by decide, by decide, by decide +kernel⟩

/-- Half of the pixels of one value, a quarter of each of two others: 3/2 bits. -/
example : measEntropy (im8 ⟨2, 2, 1⟩ [1, 1, 7, 3]) = 3 / 2 := by
  rw [C86_entropy _ (by decide), show (im8 ⟨2, 2, 1⟩ [1, 1, 7, 3]).vals.map Px.val = [1, 1, 7, 3] by decide +kernel]
  unfold shannon
  rw [show ([1, 1, 7, 3] : List Int).toFinset = {1, 7, 3} by decide]
  rw [Finset.sum_insert (by decide), Finset.sum_pair (by decide)]
  rw [show ([1, 1, 7, 3] : List Int).count 1 = 2 by decide, show ([1, 1, 7, 3] : List Int).count 7 = 1 by decide,
    show ([1, 1, 7, 3] : List Int).count 3 = 1 by decide]
  have e2 : Real.logb 2 (1 / 2 : ℝ) = -1 := by
    rw [one_div, Real.logb_inv, Real.logb_self_eq_one (by norm_num)]
  have e4 : Real.logb 2 (1 / 4 : ℝ) = -2 := by
    rw [show (1 / 4 : ℝ) = (2 ^ 2)⁻¹ by norm_num, Real.logb_inv, Real.logb_pow, Real.logb_self_eq_one (by norm_num)]
    norm_num
  simp only [List.length_cons, List.length_nil]
  norm_num [e2, e4]

end
end Smil
