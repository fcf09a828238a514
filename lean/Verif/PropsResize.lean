import Verif.ResizeLemmas
import Verif.PropsBuild
import Verif.DrawShapes

/-!
# C78, C79: resizing

The arithmetic is exact here: the theorems are partial in that they say nothing of the rounding errors of `double`.
-/

namespace Smil
variable {t : PT}

/-! ### Lemmas -/

theorem alloc_count {α : Type} {im : Img α} (ha : im.alloc = true) : im.dims.count ≠ 0 := by
  unfold Img.alloc at ha
  simpa using ha

theorem resizeIm_eq {fuel : Nat} {inPl : Bool} {m : RMethod} {sx sy sz : Nat} {im out : Img (Px t)}
    (ha : im.alloc = true) (ho : out.alloc = true) : resizeIm fuel inPl m sx sy sz im out =
      resizeBy fuel ((if inPl then .trilinear else m).resolve im) sx sy sz im := by
  unfold resizeIm
  rw [if_neg (by rw [ha, ho]; simp)]

theorem resizeClosestF_spec (fuel : Nat) (sx sy sz : Nat) (im : Img (Px t)) (ha : im.alloc = true) (hd : im.dims.d = 1)
    (hx : sx ≠ 1) (hy : sy ≠ 1) :
    ∃ o, resizeClosestF (fuel + 1) false sx sy sz im = some o ∧ o.dims = ⟨sx, sy, 1⟩ ∧ IsClosest im o := by
  obtain ⟨o, h1, h2, h3⟩ := rsImg_spec (⟨sx, sy, 1⟩ : Dims) (fun i j _ => closestPx im sx sy i j)
    (fun i j _ v => ∃ q, im.at? q = some v ∧ IsNearest im.dims.w sx i q.x ∧ IsNearest im.dims.h sy j q.y ∧ q.z = 0)
    (fun i j k hi hj _ => closestPx_spec ha hi hj hx hy)
  refine ⟨o, ?_, h2, fun p v hv => ?_⟩
  · unfold resizeClosestF
    simp only
    rw [if_neg (by omega)]
    exact h1
  · have hp := Img.at?_eq_some_in _ _ _ hv
    rw [h2] at hp
    unfold Img.In at hp
    simp only at hp
    obtain ⟨q, q1, q2, q3, q4⟩ := h3 p v hv
    rw [Int.toNat_of_nonneg (by omega)] at q2 q3
    refine ⟨q, q1, ?_, ?_, by omega⟩
    · rw [h2]; exact q2
    · rw [h2]; exact q3

theorem resizeClosestF_none (fuel : Nat) : ∀ (three : Bool) (sx sy sz : Nat) (im : Img (Px t)), 1 < im.dims.d →
    resizeClosestF fuel three sx sy sz im = none := by
  induction fuel with
  | zero => intro three sx sy sz im _; rfl
  | succ n ih =>
    intro three sx sy sz im hd
    unfold resizeClosestF
    cases three
    · simp only
      rw [if_pos hd]
      exact ih _ _ _ _ _ hd
    · simp only
      rw [if_pos hd]
      exact ih _ _ _ _ _ hd

theorem resizeLinear_spec (sx sy sz : Nat) (im : Img (Px t)) (ha : im.alloc = true) (hx : sx ≠ 1) (hy : sy ≠ 1)
    (hz : im.dims.d = 1 ∨ sz ≠ 1) :
    ∃ o, resizeLinear sx sy sz im = some o ∧ o.dims = ⟨sx, sy, if im.dims.d = 1 then 1 else sz⟩ ∧ IsLinear im o := by
  obtain ⟨_, _, hd⟩ := alloc_pos3 ha
  by_cases h1 : im.dims.d = 1
  · obtain ⟨o, e1, e2, e3⟩ := rsImg_spec (⟨sx, sy, 1⟩ : Dims) (fun i j _ => bilinearPx im sx sy i j) (fun i j k v =>
      IsTrunc (hatSum im.dims.w (axisPos im.dims.w sx i) fun x => hatSum im.dims.h (axisPos im.dims.h sy j) fun y =>
        hatSum im.dims.d (axisPos im.dims.d 1 k) fun z => pixQ im x y z) v.val)
      (fun i j k hi hj _ => bilinearPx_spec ha h1 hi hj hx hy k)
    refine ⟨o, ?_, ?_, fun p v hv => ?_⟩
    · unfold resizeLinear
      rw [if_neg (by omega)]
      exact e1
    · rw [if_pos h1]; exact e2
    · have hp := Img.at?_eq_some_in _ _ _ hv
      rw [e2] at hp
      unfold Img.In at hp
      simp only at hp
      have := e3 p v hv
      rw [Int.toNat_of_nonneg (by omega), Int.toNat_of_nonneg (by omega), Int.toNat_of_nonneg (by omega)] at this
      rw [e2]
      exact this
  · obtain ⟨o, e1, e2, e3⟩ := rsImg_spec (⟨sx, sy, sz⟩ : Dims) (fun i j k => trilinearPx im sx sy sz i j k)
      (fun i j k v =>
      IsTrunc (hatSum im.dims.w (axisPos im.dims.w sx i) fun x => hatSum im.dims.h (axisPos im.dims.h sy j) fun y =>
        hatSum im.dims.d (axisPos im.dims.d sz k) fun z => pixQ im x y z) v.val)
      (fun i j k hi hj hk => trilinearPx_spec ha hi hj hk hx hy (by omega))
    refine ⟨o, ?_, ?_, fun p v hv => ?_⟩
    · unfold resizeLinear
      rw [if_pos (by omega)]
      exact e1
    · rw [if_neg h1]; exact e2
    · have hp := Img.at?_eq_some_in _ _ _ hv
      rw [e2] at hp
      unfold Img.In at hp
      simp only at hp
      have := e3 p v hv
      rw [Int.toNat_of_nonneg (by omega), Int.toNat_of_nonneg (by omega), Int.toNat_of_nonneg (by omega)] at this
      rw [e2]
      exact this

theorem resizeLinear_none {sx sy sz : Nat} {im : Img (Px t)} (h : sx = 1 ∨ sy = 1 ∨ (1 < im.dims.d ∧ sz = 1))
    (hx : sx ≠ 0) (hy : sy ≠ 0) (hz : sz ≠ 0) : resizeLinear sx sy sz im = none := by
  unfold resizeLinear
  split
  · refine rsImg_none _ _ (by unfold Dims.count; simp [hx, hy, hz]) ?_
    unfold trilinearPx
    rcases h with h | h | h
    · rw [show rsPos im.dims.w sx 0 = none from if_pos h]; rfl
    · rw [show rsPos im.dims.h sy 0 = none from if_pos h]
      cases rsPos im.dims.w sx 0 <;> rfl
    · rw [show rsPos im.dims.d sz 0 = none from if_pos h.2]
      cases rsPos im.dims.w sx 0 <;> [rfl; cases rsPos im.dims.h sy 0 <;> rfl]
  · rename_i hd
    refine rsImg_none _ _ (by unfold Dims.count; simp [hx, hy]) ?_
    unfold bilinearPx rsPos
    rcases h with h | h | h
    · rw [if_pos h]; rfl
    · rw [if_pos h]
      split <;> rfl
    · exact absurd h.1 hd

theorem IsNearest.grid {n s : Nat} {i c : Int} (hs : 2 ≤ s) (h : i * ((n : Int) - 1) = c * ((s : Int) - 1)) :
    IsNearest n s i c := by
  unfold IsNearest
  rw [h, sub_self]
  omega

/-- Sizes of the images that are not degenerate. -/
theorem in_size {D : Dims} {p : IntPoint} (h : Img.In D p) (hx : D.w ≠ 1) (hy : D.h ≠ 1) : 2 ≤ D.w ∧ 2 ≤ D.h := by
  unfold Img.In at h
  omega

/-! ### C78: the closest method -/

/-- **C78.** For an image with one slice, resized to a width and a height other than 1, the method "closest" takes the
pixel nearest to the corresponding position. -/
theorem C78_closest_partial (fuel sx sy sz : Nat) (im out : Img (Px t)) (ha : im.alloc = true) (ho : out.alloc = true)
    (hd : im.dims.d = 1) (hx : sx ≠ 1) (hy : sy ≠ 1) :
    ∃ o, resizeIm (fuel + 1) false .closest sx sy sz im out = some (.ok o) ∧ o.dims = ⟨sx, sy, 1⟩ ∧ IsClosest im o := by
  obtain ⟨o, h1, h2, h3⟩ := resizeClosestF_spec fuel sx sy sz im ha hd hx hy
  refine ⟨o, ?_, h2, h3⟩
  rw [resizeIm_eq ha ho]
  unfold RMethod.resolve resizeBy
  simp only [Bool.false_eq_true, if_false]
  rw [if_neg (by decide)]
  simp only
  have : decide (im.dims.d > 1) = false := by rw [hd]; rfl
  rw [this, h1]
  rfl

/-- **C78, values.** The values of the result are values of the image: a binary image stays binary. -/
theorem C78_values_partial {α : Type} (im out : Img α) (h : IsClosest im out) (p : IntPoint) (v : α)
    (hv : out.at? p = some v) : ∃ q, im.at? q = some v := by
  obtain ⟨q, hq, _⟩ := h p v hv
  exact ⟨q, hq⟩

/-- **C78, pixels.** The result commutes with every operation on the pixels, thresholds among others: it is the same
geometric map for all images of the same size. -/
theorem C78_map_partial {α β : Type} (f : α → β) (im : Img α) (im' : Img β) (out : Img α) (out' : Img β)
    (h : IsClosest im out) (h' : IsClosest im' out') (hd : im'.dims = im.dims) (hD : out'.dims = out.dims)
    (hx : out.dims.w ≠ 1) (hy : out.dims.h ≠ 1)
    (hm : ∀ p v, im.at? p = some v → im'.at? p = some (f v)) (p : IntPoint) (v : α) (hv : out.at? p = some v) :
    out'.at? p = some (f v) := by
  have hp := Img.at?_eq_some_in _ _ _ hv
  obtain ⟨sw, sh⟩ := in_size hp hx hy
  have e' := Img.buf_offOf out' p (hD ▸ hp)
  obtain ⟨q, q1, q2, q3, q4⟩ := h p v hv
  obtain ⟨r, r1, r2, r3, r4⟩ := h' p _ e'
  rw [hd, hD] at r2 r3
  have : q = r := pt_ext (q2.unique sw r2) (q3.unique sh r3) (by rw [q4, r4])
  rw [e', ← r1, ← this]
  exact hm q v q1

/-- **C78, grid.** A pixel of the result whose position is exactly that of a pixel of the image is that pixel: the
corners are kept and an image resized to its own size is unchanged. -/
theorem C78_grid_partial {α : Type} (im out : Img α) (h : IsClosest im out) (hx : out.dims.w ≠ 1) (hy : out.dims.h ≠ 1)
    (p q : IntPoint) (v : α) (hv : out.at? p = some v) (ex : p.x * ((im.dims.w : Int) - 1) = q.x * ((out.dims.w : Int) - 1))
    (ey : p.y * ((im.dims.h : Int) - 1) = q.y * ((out.dims.h : Int) - 1)) (ez : q.z = p.z) : im.at? q = some v := by
  obtain ⟨sw, sh⟩ := in_size (Img.at?_eq_some_in _ _ _ hv) hx hy
  obtain ⟨r, r1, r2, r3, r4⟩ := h p v hv
  have : r = q := pt_ext (r2.unique sw (IsNearest.grid sw ex)) (r3.unique sh (IsNearest.grid sh ey)) (by rw [r4, ez])
  rw [← this]
  exact r1

/-- **C78 fails** for images with several slices: the functions for 2D and 3D call each other for ever. -/
theorem C78_depth_bug (fuel sx sy sz : Nat) (im out : Img (Px t)) (ha : im.alloc = true) (ho : out.alloc = true)
    (hd : 1 < im.dims.d) : resizeIm fuel false .closest sx sy sz im out = none := by
  rw [resizeIm_eq ha ho]
  unfold RMethod.resolve resizeBy
  simp only [Bool.false_eq_true, if_false]
  rw [if_neg (by decide)]
  simp only
  rw [resizeClosestF_none fuel _ _ _ _ _ hd]
  rfl

/-- **C78 fails** when the new width or the new height is 1, even for an image that already has that size: 0/0 or
infinity times 0 is converted to an integer. -/
theorem C78_one_bug (fuel sx sy sz : Nat) (inPl : Bool) (m : RMethod) (hm : m ≠ .other) (im out : Img (Px t))
    (ha : im.alloc = true) (ho : out.alloc = true) (h : sx = 1 ∨ sy = 1) (hx : sx ≠ 0) (hy : sy ≠ 0) (hz : sz ≠ 0) :
    resizeIm fuel inPl m sx sy sz im out = none := by
  have hl : resizeLinear sx sy sz im = none := resizeLinear_none (by tauto) hx hy hz
  have hc : ∀ b, resizeClosestF fuel b sx sy sz im = none ∨ b = true := by
    intro b
    cases b
    · left
      cases fuel with
      | zero => rfl
      | succ n =>
        unfold resizeClosestF
        simp only
        split
        · rename_i hd
          exact resizeClosestF_none n _ _ _ _ _ hd
        · refine rsImg_none _ _ (by unfold Dims.count; simp [hx, hy]) ?_
          unfold closestPx rsPos
          rcases h with h | h
          · rw [if_pos h]; rfl
          · rw [if_pos h]
            split <;> rfl
    · right; rfl
  have hc' : resizeClosestF fuel (im.dims.d > 1) sx sy sz im = none := by
    rcases hc (im.dims.d > 1) with h | h
    · exact h
    · exact resizeClosestF_none fuel _ _ _ _ _ (by simpa using h)
  rw [resizeIm_eq ha ho]
  have key : ∀ m' : RMethod, m' ≠ .other → m' ≠ .auto → resizeBy fuel m' sx sy sz im = none := by
    intro m' h1 h2
    unfold resizeBy
    cases m' with
    | closest => simp only; rw [hc']; rfl
    | bilinear => simp only; rw [hl]; rfl
    | trilinear => simp only; rw [hl]; rfl
    | auto => exact absurd rfl h2
    | other => exact absurd rfl h1
  refine key _ ?_ ?_
  · unfold RMethod.resolve
    cases inPl <;> cases m <;> simp_all <;> (split <;> (try split) <;> simp)
  · unfold RMethod.resolve
    cases inPl <;> cases m <;> simp_all <;> (split <;> (try split) <;> simp)

/-- **C78 fails** in place: the method is lost, and a binary image gets new values. -/
theorem C78_inplace_bug :
    vals8 (resizeIm 1 false .closest 3 2 1 (im8 ⟨2, 2, 1⟩ [0, 255, 0, 255]) (im8 ⟨1, 1, 1⟩ [])) =
      [0, 255, 255, 0, 255, 255] ∧
    vals8 (resizeIm 1 true .closest 3 2 1 (im8 ⟨2, 2, 1⟩ [0, 255, 0, 255]) (im8 ⟨2, 2, 1⟩ [0, 255, 0, 255])) =
      [0, 127, 255, 0, 127, 255] := by
  constructor <;> decide +kernel

/-- **C78, other cases.** "auto" is "closest" exactly for the binary images; an unknown method is refused, as are images
without pixels. -/
theorem C78_cases (fuel sx sy sz : Nat) (im out : Img (Px t)) (ha : im.alloc = true) (ho : out.alloc = true) :
    resizeIm fuel false .auto sx sy sz im out =
      resizeIm fuel false (if isBinary im then .closest else .trilinear) sx sy sz im out ∧
    resizeIm fuel false .other sx sy sz im out = some (.error errRes) ∧
    (∀ (inPl : Bool) (m : RMethod) (im' : Img (Px t)), im'.alloc = false →
      resizeIm fuel inPl m sx sy sz im' out = some (.error errBadAllocation)) := by
  refine ⟨?_, ?_, fun inPl m im' h => ?_⟩
  · rw [resizeIm_eq ha ho, resizeIm_eq ha ho]
    simp only [Bool.false_eq_true, if_false]
    unfold RMethod.resolve
    cases isBinary im
    · simp only [Bool.false_eq_true, if_false, if_true]
      split <;> rfl
    · rfl
  · rw [resizeIm_eq ha ho]
    rfl
  · unfold resizeIm
    rw [if_pos (Or.inl h)]

/-- C78: the hypotheses are met. -/
example : (im8 ⟨2, 2, 1⟩ [0, 255, 0, 255]).alloc = true ∧ (im8 ⟨1, 1, 1⟩ []).alloc = true ∧
    (im8 ⟨2, 2, 1⟩ [0, 255, 0, 255]).dims.d = 1 := by decide

/-! ### C79: the linear methods and the scale -/

/-- **C79.** Resized to dimensions other than 1 (the depth of an image with one slice stays 1), the methods "bilinear"
and "trilinear" give the integer part of the linear interpolation. -/
theorem C79_linear_partial (fuel sx sy sz : Nat) (inPl : Bool) (m : RMethod) (hm : m = .bilinear ∨ m = .trilinear)
    (im out : Img (Px t)) (ha : im.alloc = true) (ho : out.alloc = true) (hx : sx ≠ 1) (hy : sy ≠ 1)
    (hz : im.dims.d = 1 ∨ sz ≠ 1) :
    ∃ o, resizeIm fuel inPl m sx sy sz im out = some (.ok o) ∧
      o.dims = ⟨sx, sy, if im.dims.d = 1 then 1 else sz⟩ ∧ IsLinear im o := by
  obtain ⟨o, h1, h2, h3⟩ := resizeLinear_spec sx sy sz im ha hx hy hz
  refine ⟨o, ?_, h2, h3⟩
  rw [resizeIm_eq ha ho]
  have : resizeBy fuel ((if inPl then .trilinear else m).resolve im) sx sy sz im = (resizeLinear sx sy sz im).map .ok := by
    unfold RMethod.resolve
    rcases hm with rfl | rfl <;> cases inPl <;> rfl
  rw [this, h1]
  rfl

/-- The positions of the pixels of the result are in the image. -/
theorem axisPos_in {im out : Img (Px t)} (ha : im.alloc = true) (hx : out.dims.w ≠ 1) (hy : out.dims.h ≠ 1)
    (hz : im.dims.d = 1 ∨ out.dims.d ≠ 1) {p : IntPoint} (hp : Img.In out.dims p) :
    (0 ≤ axisPos im.dims.w out.dims.w p.x ∧ axisPos im.dims.w out.dims.w p.x ≤ (im.dims.w : ℚ) - 1) ∧
    (0 ≤ axisPos im.dims.h out.dims.h p.y ∧ axisPos im.dims.h out.dims.h p.y ≤ (im.dims.h : ℚ) - 1) ∧
    (0 ≤ axisPos im.dims.d out.dims.d p.z ∧ axisPos im.dims.d out.dims.d p.z ≤ (im.dims.d : ℚ) - 1) := by
  obtain ⟨a1, a2, a3⟩ := alloc_pos3 ha
  unfold Img.In at hp
  have hx' : ((p.x.toNat : Nat) : Int) = p.x := by omega
  have hy' : ((p.y.toNat : Nat) : Int) = p.y := by omega
  have hz' : ((p.z.toNat : Nat) : Int) = p.z := by omega
  rw [← hx', ← hy', ← hz']
  exact ⟨axisPos_bounds a1 (by omega) (Or.inr hx), axisPos_bounds a2 (by omega) (Or.inr hy),
    axisPos_bounds a3 (by omega) hz⟩

/-- **C79, range.** The values stay between the bounds of the image; a constant image stays constant. -/
theorem C79_range_partial (im out : Img (Px t)) (h : IsLinear im out) (ha : im.alloc = true) (hx : out.dims.w ≠ 1)
    (hy : out.dims.h ≠ 1) (hz : im.dims.d = 1 ∨ out.dims.d ≠ 1) (lo hi : Int)
    (hb : ∀ p v, im.at? p = some v → lo ≤ v.val ∧ v.val ≤ hi) (p : IntPoint) (v : Px t) (hv : out.at? p = some v) :
    lo ≤ v.val ∧ v.val ≤ hi := by
  obtain ⟨b1, b2, b3⟩ := axisPos_in ha hx hy hz (Img.at?_eq_some_in _ _ _ hv)
  obtain ⟨c1, c2⟩ := linear_bounds b1 b2 b3 hb
  exact ⟨(isTrunc_int lo).mono (h p v hv) c1, (h p v hv).mono (isTrunc_int hi) c2⟩

/-- **C79, order.** The interpolation is increasing. -/
theorem C79_increasing_partial (im im' out out' : Img (Px t)) (h : IsLinear im out) (h' : IsLinear im' out')
    (hle : im.Le im') (hd : out.dims = out'.dims) : out.Le out' := by
  refine ⟨hd, fun p u v hu hv => Px.le_iff.mpr ?_⟩
  have e' := h' p v hv
  rw [← hle.1, ← hd] at e'
  refine (h p u hu).mono e' ?_
  refine hatSum_mono _ _ fun x h1 => hatSum_mono _ _ fun y h2 => hatSum_mono _ _ fun z h3 => ?_
  obtain ⟨a, a1, a2⟩ := pixQ_at h1 h2 h3
  obtain ⟨b, b1, b2⟩ := pixQ_at (im := im') (hle.1 ▸ h1) (hle.1 ▸ h2) (hle.1 ▸ h3)
  rw [a2, b2]
  exact_mod_cast Px.le_iff.mp (hle.2 _ a b a1 b1)

theorem axisPos_grid {n s : Nat} {i c : Int} (hs : n = 1 ∨ 2 ≤ s) (hc : 0 ≤ c ∧ c < n)
    (h : i * ((n : Int) - 1) = c * ((s : Int) - 1)) : axisPos n s i = (c.toNat : ℚ) := by
  have hc' : ((c.toNat : Nat) : ℚ) = (c : ℚ) := by
    have : ((c.toNat : Nat) : Int) = c := by omega
    exact_mod_cast this
  unfold axisPos
  split
  · rename_i hn
    have : c = 0 := by omega
    rw [this]
    simp
  · rename_i hn
    have hs2 : 2 ≤ s := by omega
    have h4 : (0 : ℚ) < (s : ℚ) - 1 := by
      have : (2 : ℚ) ≤ s := by exact_mod_cast hs2
      linarith
    rw [hc', div_eq_iff (ne_of_gt h4)]
    exact_mod_cast h

/-- **C79, grid.** A pixel of the result whose position is exactly that of a pixel of the image is that pixel: the
corners are kept and an image resized to its own size is unchanged. -/
theorem C79_grid_partial (im out : Img (Px t)) (h : IsLinear im out) (hx : out.dims.w ≠ 1)
    (hy : out.dims.h ≠ 1) (hz : im.dims.d = 1 ∨ out.dims.d ≠ 1) (p q : IntPoint) (v : Px t) (hv : out.at? p = some v)
    (hq : Img.In im.dims q) (ex : p.x * ((im.dims.w : Int) - 1) = q.x * ((out.dims.w : Int) - 1))
    (ey : p.y * ((im.dims.h : Int) - 1) = q.y * ((out.dims.h : Int) - 1))
    (ez : p.z * ((im.dims.d : Int) - 1) = q.z * ((out.dims.d : Int) - 1)) : im.at? q = some v := by
  have hp := Img.at?_eq_some_in _ _ _ hv
  have hv' := h p v hv
  unfold Img.In at hp hq
  rw [axisPos_grid (Or.inr (by omega)) (by omega) ex, axisPos_grid (Or.inr (by omega)) (by omega) ey,
    axisPos_grid (by omega) (by omega) ez, hatSum_one _ _ _ (by omega), hatSum_one _ _ _ (by omega),
    hatSum_one _ _ _ (by omega)] at hv'
  obtain ⟨u, u1, u2⟩ := pixQ_at (im := im) (x := q.x.toNat) (y := q.y.toNat) (z := q.z.toNat) (by omega) (by omega)
    (by omega)
  have eq : (⟨(q.x.toNat : Nat), (q.y.toNat : Nat), (q.z.toNat : Nat)⟩ : IntPoint) = q :=
    pt_ext (by simp only; omega) (by simp only; omega) (by simp only; omega)
  rw [eq] at u1
  rw [u2] at hv'
  rw [u1]
  congr 1
  refine Px.ext ?_
  have a1 := hv'.mono (isTrunc_int u.val) (le_refl _)
  have a2 := (isTrunc_int u.val).mono hv' (le_refl _)
  omega

/-- The size scaled: at least 1, otherwise the nearest integer. -/
theorem scaleDim_spec {k : ℚ} {n : Nat} (hn : 1 < n) (hk : 0 ≤ k) (hb : k * n < 2 ^ 62) :
    ∃ m : Nat, scaleDim k n = some m ∧ 1 ≤ m ∧ (1 / 2 ≤ k * n → k * n - 1 / 2 < m ∧ (m : ℚ) ≤ k * n + 1 / 2) := by
  have h0 : 0 ≤ k * n := mul_nonneg hk (by positivity)
  have f1 := Int.floor_le (k * n + 1 / 2)
  have f2 := Int.lt_floor_add_one (k * n + 1 / 2)
  unfold scaleDim roundQ
  rw [if_pos hn]
  simp only
  rw [if_pos h0]
  generalize ⌊k * n + 1 / 2⌋ = r at *
  have r0 : 0 ≤ r := by
    have : (-1 : ℚ) < r := by linarith
    have : -1 < r := by exact_mod_cast this
    omega
  have r1 : r < 2 ^ 63 := by
    have : (r : ℚ) < 2 ^ 63 := by norm_num at *; linarith
    exact_mod_cast this
  rw [if_pos ⟨by omega, r1⟩]
  refine ⟨_, rfl, by omega, fun hk2 => ?_⟩
  have r2 : 1 ≤ r := by
    have : (0 : ℚ) < r := by linarith
    have : 0 < r := by exact_mod_cast this
    omega
  have e : (((max 1 r).toNat : Nat) : ℚ) = (r : ℚ) := by
    have : (((max 1 r).toNat : Nat) : Int) = r := by omega
    exact_mod_cast this
  rw [e]
  constructor <;> linarith

/-- **C79, scale.** Scaling by factors that give at least 3/2 pixels along each axis (one slice stays one slice) succeeds,
and every dimension is the nearest integer to its product by the factor. -/
theorem C79_scale_partial (fuel : Nat) (inPl : Bool) (m : RMethod) (hm : m = .bilinear ∨ m = .trilinear) (kx ky kz : ℚ)
    (im out : Img (Px t)) (ha : im.alloc = true) (ho : out.alloc = true) (hw : 1 < im.dims.w) (hh : 1 < im.dims.h)
    (hx : 3 / 2 ≤ kx * im.dims.w ∧ kx * im.dims.w < 2 ^ 62) (hy : 3 / 2 ≤ ky * im.dims.h ∧ ky * im.dims.h < 2 ^ 62)
    (hz : im.dims.d = 1 ∨ (3 / 2 ≤ kz * im.dims.d ∧ kz * im.dims.d < 2 ^ 62)) :
    ∃ o, scaleIm fuel inPl m kx ky kz im out = some (.ok o) ∧ IsLinear im o ∧
      (kx * im.dims.w - 1 / 2 < o.dims.w ∧ (o.dims.w : ℚ) ≤ kx * im.dims.w + 1 / 2) ∧
      (ky * im.dims.h - 1 / 2 < o.dims.h ∧ (o.dims.h : ℚ) ≤ ky * im.dims.h + 1 / 2) ∧
      ((im.dims.d = 1 ∧ o.dims.d = 1) ∨
        (kz * im.dims.d - 1 / 2 < o.dims.d ∧ (o.dims.d : ℚ) ≤ kz * im.dims.d + 1 / 2)) := by
  have kpos : ∀ (k : ℚ) (n : Nat), 3 / 2 ≤ k * n → 0 ≤ k := by
    intro k n h
    by_contra hk
    have : k * n ≤ 0 := mul_nonpos_of_nonpos_of_nonneg (le_of_lt (not_le.mp hk)) (by positivity)
    linarith
  have hne : ∀ (k : ℚ) (n s : Nat), 3 / 2 ≤ k * n → k * n - 1 / 2 < s → s ≠ 1 := by
    intro k n s h1 h2 h3
    rw [h3] at h2
    norm_num at h2
    linarith
  obtain ⟨a, a1, _, a3⟩ := scaleDim_spec hw (kpos _ _ hx.1) hx.2
  obtain ⟨b, b1, _, b3⟩ := scaleDim_spec hh (kpos _ _ hy.1) hy.2
  obtain ⟨a4, a5⟩ := a3 (by linarith [hx.1])
  obtain ⟨b4, b5⟩ := b3 (by linarith [hy.1])
  obtain ⟨_, _, hd⟩ := alloc_pos3 ha
  have hc : ∃ c, scaleDim kz im.dims.d = some c ∧ (im.dims.d = 1 ∨ (1 < im.dims.d ∧ c ≠ 1 ∧
      kz * im.dims.d - 1 / 2 < c ∧ (c : ℚ) ≤ kz * im.dims.d + 1 / 2)) := by
    by_cases h1 : im.dims.d = 1
    · exact ⟨im.dims.d, by unfold scaleDim; rw [if_neg (by omega)], Or.inl h1⟩
    · have hz' := hz.resolve_left h1
      obtain ⟨c, c1, _, c3⟩ := scaleDim_spec (by omega) (kpos _ _ hz'.1) hz'.2
      obtain ⟨c4, c5⟩ := c3 (by linarith [hz'.1])
      exact ⟨c, c1, Or.inr ⟨by omega, hne _ _ _ hz'.1 c4, c4, c5⟩⟩
  obtain ⟨c, c1, c2⟩ := hc
  obtain ⟨o, o1, o2, o3⟩ := C79_linear_partial fuel a b c false (if inPl then .trilinear else m)
    (by cases inPl <;> simp [hm]) im out ha ho (hne _ _ _ hx.1 a4) (hne _ _ _ hy.1 b4)
    (c2.imp id fun h => h.2.1)
  refine ⟨o, ?_, o3, ?_, ?_, ?_⟩
  · unfold scaleIm
    rw [if_neg (by rw [ha, ho]; simp), a1, b1, c1]
    exact o1
  · rw [o2]; exact ⟨a4, a5⟩
  · rw [o2]; exact ⟨b4, b5⟩
  · rw [o2]
    rcases c2 with h | h
    · left; exact ⟨h, by simp [h]⟩
    · right
      rw [if_neg (by omega)]
      exact h.2.2

/-- **C79 fails** for images of width 1 or height 1: whatever the factors, `scale` keeps that dimension and has no
result. -/
theorem C79_scale_one_bug (fuel : Nat) (inPl : Bool) (m : RMethod) (hm : m ≠ .other) (kx ky kz : ℚ)
    (im out : Img (Px t)) (ha : im.alloc = true) (ho : out.alloc = true) (h : im.dims.w = 1 ∨ im.dims.h = 1) :
    scaleIm fuel inPl m kx ky kz im out = none := by
  obtain ⟨w0, h0, d0⟩ := alloc_pos3 ha
  have key : ∀ k n s, 0 < n → scaleDim k n = some s → s ≠ 0 ∧ (n = 1 → s = 1) := by
    intro k n s hn hs
    unfold scaleDim at hs
    split at hs
    · simp only at hs
      split at hs
      · simp only [Option.some.injEq] at hs
        omega
      · cases hs
    · simp only [Option.some.injEq] at hs
      omega
  unfold scaleIm
  rw [if_neg (by rw [ha, ho]; simp)]
  cases hw : scaleDim kx im.dims.w with
  | none => rfl
  | some w =>
    cases hh : scaleDim ky im.dims.h with
    | none => rfl
    | some h' =>
      cases hd : scaleDim kz im.dims.d with
      | none => rfl
      | some d =>
        simp only [Option.bind_some]
        obtain ⟨a1, a2⟩ := key _ _ _ w0 hw
        obtain ⟨b1, b2⟩ := key _ _ _ h0 hh
        obtain ⟨c1, _⟩ := key _ _ _ d0 hd
        exact C78_one_bug fuel w h' d false _ (by cases inPl <;> simp [hm]) im out ha ho
          (h.imp a2 b2) a1 b1 c1

/-- **C79 fails** for the 2D call on an image with several slices: the depth is that of the output, and an output with
one slice has no result. -/
theorem C79_depth_bug (fuel sx sy : Nat) (inPl : Bool) (im out : Img (Px t)) (ha : im.alloc = true)
    (ho : out.alloc = true) (hd : 1 < im.dims.d) (hx : sx ≠ 0) (hy : sy ≠ 0) (h1 : out.dims.d = 1) :
    resize2D fuel inPl .trilinear sx sy im out = none := by
  unfold resize2D
  rw [resizeIm_eq ha ho]
  have : resizeBy fuel ((if inPl then .trilinear else .trilinear : RMethod).resolve im) sx sy out.dims.d im =
      (resizeLinear sx sy out.dims.d im).map .ok := by
    unfold RMethod.resolve
    cases inPl <;> rfl
  rw [this, resizeLinear_none (Or.inr (Or.inr ⟨hd, h1⟩)) hx hy (by omega)]
  rfl

/-- C79: the hypotheses are met and the result is not trivial. -/
example : (im8 ⟨2, 2, 1⟩ [0, 100, 60, 40]).alloc = true ∧
    vals8 (resizeIm 0 false .bilinear 3 3 1 (im8 ⟨2, 2, 1⟩ [0, 100, 60, 40]) (im8 ⟨1, 1, 1⟩ [])) =
      [0, 50, 100, 30, 50, 70, 60, 50, 40] ∧
    vals8 (scaleIm 0 false .trilinear (3/2) 1 1 (im8 ⟨2, 2, 1⟩ [0, 100, 60, 40]) (im8 ⟨1, 1, 1⟩ [])) =
      [0, 50, 100, 60, 50, 40] := by
  refine ⟨by decide, by decide +kernel, by decide +kernel⟩

end Smil
