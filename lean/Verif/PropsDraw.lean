import Verif.DrawShapes
import Mathlib.Algebra.Order.Ring.Abs

/-!
# C67: drawing

The points of `bresenhamPoints` are a digital segment; `drawLine` paints exactly these points inside of the image, `profile` reads them;
rectangles and boxes that lie in the image, discs and spheres are exact; a circle is a closed curve of eight symmetric
octants that stays within one pixel of the true circle. The exceptions are in `PropsDrawBugs`.
-/

namespace Smil
variable {α : Type}

/-- **C67** (points of a line). Without range, `bresenhamPoints` lists a digital segment: every point is in single steps, at most half a pixel
away from the true line, and the list runs from the first end to the second, except for the lines that go straight up or straight left, where it runs
backwards. -/
theorem C67_points (x1 y1 x2 y2 : Int) :
    (¬ ((x1 = x2 ∧ y2 < y1) ∨ (y1 = y2 ∧ x2 < x1)) → IsSegment ⟨x1, y1, 0⟩ ⟨x2, y2, 0⟩ (bresenhamPoints x1 y1 x2 y2 0 0)) ∧
    ((x1 = x2 ∧ y2 < y1) ∨ (y1 = y2 ∧ x2 < x1) → IsSegment ⟨x2, y2, 0⟩ ⟨x1, y1, 0⟩ (bresenhamPoints x1 y1 x2 y2 0 0)) := by
  have := bresenhamPoints_segment x1 y1 x2 y2
  constructor
  · intro h; rwa [if_neg h] at this
  · intro h; rwa [if_pos h] at this

example : bresenhamPoints 0 0 5 2 0 0 = [⟨0, 0, 0⟩, ⟨1, 0, 0⟩, ⟨2, 1, 0⟩, ⟨3, 1, 0⟩, ⟨4, 2, 0⟩, ⟨5, 2, 0⟩] := by decide
example : bresenhamPoints 1 5 (-1) 0 0 0 = [⟨1, 5, 0⟩, ⟨1, 4, 0⟩, ⟨0, 3, 0⟩, ⟨0, 2, 0⟩, ⟨-1, 1, 0⟩, ⟨-1, 0, 0⟩] := by decide

/-- **C67** (points of a line in a range). For an oblique line the range keeps exactly the points of the segment with
`0 ≤ x < xMax` and `0 ≤ y < yMax`, in order. -/
theorem C67_points_range {x1 y1 x2 y2 xMax yMax : Int} (hx : x1 ≠ x2) (hy : y1 ≠ y2) (hm : xMax ≠ 0) :
    ∃ l, IsSegment ⟨x1, y1, 0⟩ ⟨x2, y2, 0⟩ l ∧ bresenhamPoints x1 y1 x2 y2 xMax yMax =
      l.filter fun p => decide (0 ≤ p.x ∧ p.x < xMax ∧ 0 ≤ p.y ∧ p.y < yMax) := by
  refine ⟨_, (C67_points x1 y1 x2 y2).1 (by omega), ?_⟩
  rw [bresenhamPoints_oblique hx hy]
  apply List.filter_congr
  intro p _
  unfold bresIn
  simp [hm]

example : bresenhamPoints (-2) (-1) 6 3 3 3 = [⟨0, 0, 0⟩, ⟨1, 0, 0⟩, ⟨2, 1, 0⟩] := by decide

/-- **C67** (`drawLine`, partial). If the line is not a vertical one that starts or ends above or below the image, nor a horizontal one that
starts or ends on the left or on the right of it, `drawLine` paints exactly the points of the digital segment which are in the image. Missing: these straight lines
(`C67_drawLine_ub`, `C67_drawLine_wrap_bug`). -/
theorem C67_drawLine_partial (im : Img α) (x0 y0 x1 y1 : Int) (v : α) (ha : im.alloc = true)
    (hv : x0 = x1 → 0 ≤ x0 → x0 < im.dims.w → (0 ≤ y0 ∧ y0 < im.dims.h) ∧ 0 ≤ y1 ∧ y1 < im.dims.h)
    (hh : y0 = y1 → 0 ≤ y0 → y0 < im.dims.h → (0 ≤ x0 ∧ x0 < im.dims.w) ∧ 0 ≤ x1 ∧ x1 < im.dims.w) (hd : 0 < im.dims.d) :
    ∃ l r, (IsSegment ⟨x0, y0, 0⟩ ⟨x1, y1, 0⟩ l ∨ IsSegment ⟨x1, y1, 0⟩ ⟨x0, y0, 0⟩ l) ∧
      drawLine im x0 y0 x1 y1 v = some (.ok r) ∧ IsPainted im v (· ∈ l) r := by
  have hseg : IsSegment ⟨x0, y0, 0⟩ ⟨x1, y1, 0⟩ (bresenhamPoints x0 y0 x1 y1 0 0) ∨
      IsSegment ⟨x1, y1, 0⟩ ⟨x0, y0, 0⟩ (bresenhamPoints x0 y0 x1 y1 0 0) := by
    by_cases hc : (x0 = x1 ∧ y1 < y0) ∨ (y0 = y1 ∧ x1 < x0)
    · exact Or.inr ((C67_points x0 y0 x1 y1).2 hc)
    · exact Or.inl ((C67_points x0 y0 x1 y1).1 hc)
  have hbox := bresenhamPoints_box x0 y0 x1 y1
  have key : (∀ p ∈ segPts im.dims x0 y0 x1 y1, Img.In im.dims p) ∧
      ∀ p, Img.In im.dims p → (p ∈ segPts im.dims x0 y0 x1 y1 ↔ p ∈ bresenhamPoints x0 y0 x1 y1 0 0) := by
    unfold segPts
    by_cases hout : x0 < 0 ∨ im.dims.w ≤ x0 ∨ y0 < 0 ∨ im.dims.h ≤ y0 ∨ x1 < 0 ∨ im.dims.w ≤ x1 ∨ y1 < 0 ∨ im.dims.h ≤ y1
    · rw [if_pos hout]
      by_cases hx : x0 = x1
      · subst hx
        rw [bresenhamPoints_vertical]
        by_cases hc : (im.dims.w : Int) = 0 ∨ (0 ≤ x0 ∧ x0 < im.dims.w)
        · rcases hc with hc | hc
          · rw [if_pos (Or.inl hc)]
            exfalso
            have : im.dims.w = 0 := by omega
            unfold Img.alloc at ha
            simp [Dims.count, this] at ha
          · have := hv rfl hc.1 hc.2
            omega
        · rw [if_neg hc]
          refine ⟨by simp, fun p hp => ?_⟩
          simp only [List.not_mem_nil, false_iff]
          intro hm
          have := hbox p hm
          unfold Img.In at hp
          omega
      · by_cases hy : y0 = y1
        · subst hy
          rw [bresenhamPoints_horizontal hx]
          by_cases hc : (im.dims.h : Int) = 0 ∨ (0 ≤ y0 ∧ y0 < im.dims.h)
          · rcases hc with hc | hc
            · exfalso
              have : im.dims.h = 0 := by omega
              unfold Img.alloc at ha
              simp [Dims.count, this] at ha
            · have := hh rfl hc.1 hc.2
              omega
          · rw [if_neg hc]
            refine ⟨by simp, fun p hp => ?_⟩
            simp only [List.not_mem_nil, false_iff]
            intro hm
            have := hbox p hm
            unfold Img.In at hp
            omega
        · rw [bresenhamPoints_oblique hx hy]
          have hw : (im.dims.w : Int) ≠ 0 := by
            intro h
            have : im.dims.w = 0 := by omega
            unfold Img.alloc at ha
            simp [Dims.count, this] at ha
          constructor
          · intro p hp
            obtain ⟨h1, h2⟩ := List.mem_filter.mp hp
            have := hbox p h1
            unfold bresIn at h2
            have h2 := of_decide_eq_true h2
            unfold Img.In
            omega
          · intro p hp
            rw [List.mem_filter]
            refine and_iff_left ?_
            unfold bresIn
            unfold Img.In at hp
            exact decide_eq_true (by omega)
    · rw [if_neg hout]
      refine ⟨fun p hp => ?_, fun p _ => Iff.rfl⟩
      have := hbox p hp
      unfold Img.In
      omega
  obtain ⟨r, hr, hp⟩ := storePts_painted v _ im key.1
  refine ⟨_, r, hseg, ?_, hp.congr key.2⟩
  unfold drawLine
  rw [if_neg (by rw [ha]; simp), hr]; rfl

example : (((drawLine (⟨⟨4, 3, 1⟩, fun _ => 0⟩ : Img Nat) (-1) 0 4 2 7).map fun e => e.toOption.map Img.toRows)) =
    some (some [[[7, 0, 0, 0], [0, 7, 7, 0], [0, 0, 0, 7]]]) := by decide

/-- **C67** (`drawLine`, ends inside). A line between two points of the image. -/
theorem C67_drawLine_inside (im : Img α) (x0 y0 x1 y1 : Int) (v : α) (h0 : Img.In im.dims ⟨x0, y0, 0⟩) (h1 : Img.In im.dims ⟨x1, y1, 0⟩) :
    ∃ l r, (IsSegment ⟨x0, y0, 0⟩ ⟨x1, y1, 0⟩ l ∨ IsSegment ⟨x1, y1, 0⟩ ⟨x0, y0, 0⟩ l) ∧
      drawLine im x0 y0 x1 y1 v = some (.ok r) ∧ IsPainted im v (· ∈ l) r := by
  unfold Img.In at h0 h1
  dsimp only at h0 h1
  refine C67_drawLine_partial im x0 y0 x1 y1 v ?_ (by omega) (by omega) (by omega)
  unfold Img.alloc
  have : 0 < im.dims.count := by
    unfold Dims.count
    have a : 0 < im.dims.w := by omega
    have b : 0 < im.dims.h := by omega
    have c : 0 < im.dims.d := by omega
    positivity
  exact decide_eq_true (by omega)

theorem mapM_loads (im : Img α) (z : Nat) : ∀ l : List IntPoint, (∀ p ∈ l, Img.In im.dims ⟨p.x, p.y, z⟩) →
    ∃ vs, l.mapM (fun p => loadPx im ⟨p.x, p.y, z⟩) = some vs ∧ vs.map some = l.map fun p => im.at? ⟨p.x, p.y, z⟩
  | [], _ => ⟨[], rfl, rfl⟩
  | p :: l, h => by
    obtain ⟨vs, h1, h2⟩ := mapM_loads im z l fun q hq => h q (by simp [hq])
    have hp := h p (by simp)
    refine ⟨im.buf (offOf im.dims ⟨p.x, p.y, z⟩) :: vs, ?_, ?_⟩
    · rw [List.mapM_cons, loadPx_in im hp, at?_buf im hp, h1]; rfl
    · rw [List.map_cons, List.map_cons, h2, at?_buf im hp]

/-- **C67** (`profile`). Between two points of a slice, the values along the digital segment; from the first point to the second except
for the lines that go straight up or straight left (`C67_profile_order_bug`). -/
theorem C67_profile (im : Img α) (x0 y0 x1 y1 z : Nat) (h0 : Img.In im.dims ⟨x0, y0, z⟩) (h1 : Img.In im.dims ⟨x1, y1, z⟩) :
    ∃ l vs, profile im x0 y0 x1 y1 z = some vs ∧ (vs.map some = l.map fun p => im.at? ⟨p.x, p.y, z⟩) ∧
      (¬ ((x0 = x1 ∧ y1 < y0) ∨ (y0 = y1 ∧ x1 < x0)) → IsSegment ⟨x0, y0, 0⟩ ⟨x1, y1, 0⟩ l) ∧
      ((x0 = x1 ∧ y1 < y0) ∨ (y0 = y1 ∧ x1 < x0) → IsSegment ⟨x1, y1, 0⟩ ⟨x0, y0, 0⟩ l) := by
  unfold Img.In at h0 h1
  dsimp only at h0 h1
  obtain ⟨vs, hvs, hv⟩ := mapM_loads im z (bresenhamPoints x0 y0 x1 y1 0 0) (by
    intro p hp
    have := bresenhamPoints_box _ _ _ _ p hp
    unfold Img.In
    dsimp only
    omega)
  refine ⟨_, vs, ?_, hv, ?_, ?_⟩
  · unfold profile segPts
    rw [if_neg (show ¬ ((x0 : Int) < 0 ∨ (im.dims.w : Int) ≤ x0 ∨ (y0 : Int) < 0 ∨ (im.dims.h : Int) ≤ y0 ∨ (x1 : Int) < 0 ∨
      (im.dims.w : Int) ≤ x1 ∨ (y1 : Int) < 0 ∨ (im.dims.h : Int) ≤ y1) by omega), hvs]
    refine if_neg ?_
    unfold Img.alloc
    have : 0 < im.dims.count := by
      unfold Dims.count
      have a : 0 < im.dims.w := by omega
      have b : 0 < im.dims.h := by omega
      have c : 0 < im.dims.d := by omega
      positivity
    simp; omega
  · intro h
    exact (C67_points x0 y0 x1 y1).1 (by omega)
  · intro h
    exact (C67_points x0 y0 x1 y1).2 (by omega)

example : profile (⟨⟨4, 3, 1⟩, id⟩ : Img Nat) 0 0 3 2 0 = some [0, 5, 6, 11] := by decide

/-- **C67** (`drawRectangle`, partial). A rectangle that lies in the image: all of its pixels if `fill`, its sides otherwise, in the given slice. Missing: the rectangles that
leave the image (`C67_rectangle_clip_bug`, `C67_rectangle_ub`) and the empty ones (`C67_rectangle_empty_bug`). -/
theorem C67_rectangle_partial (im : Img α) (x0 y0 width height : Nat) (v : α) (fill : Bool) (z : Nat) (ha : im.alloc = true)
    (hz : z < im.dims.d) (hw : 0 < width) (hh : 0 < height) (hx : x0 + width ≤ im.dims.w) (hy : y0 + height ≤ im.dims.h)
    (h64 : im.dims.w < 2 ^ 64 ∧ im.dims.h < 2 ^ 64) :
    ∃ r, drawRectangle im x0 y0 width height v fill z = some (.ok r) ∧
      IsPainted im v (fun q => InBox x0 y0 z width height 1 q ∧ (fill = true ∨ OnSides x0 y0 width height q)) r :=
  drawRectangle_painted im x0 y0 width height v fill z ha hz hw hh hx hy h64

example : (((drawRectangle (⟨⟨4, 3, 1⟩, fun _ => 0⟩ : Img Nat) 1 0 3 3 7 false 0).map fun e => e.toOption.map Img.toRows)) =
    some (some [[[0, 7, 7, 7], [0, 7, 0, 7], [0, 7, 7, 7]]]) := by decide

/-- **C67** (`drawRectangle` of corners, partial). The rectangle with the corners `(a, b)` and `(c, d)`, both included, for `UINT` coordinates of the image; and `RES_ERR` for any other
number of coordinates. -/
theorem C67_corners_partial (im : Img α) (a b c d : Nat) (v : α) (fill : Bool) (ha : im.alloc = true) (hd : 0 < im.dims.d)
    (hac : a ≤ c) (hbd : b ≤ d) (hx : c < im.dims.w) (hy : d < im.dims.h) (h32 : im.dims.w < 2 ^ 32 ∧ im.dims.h < 2 ^ 32) :
    ∃ r, drawRectCoords im [a, b, c, d] v fill = some (.ok r) ∧
      IsPainted im v (fun q => ((a : Int) ≤ q.x ∧ q.x ≤ c ∧ (b : Int) ≤ q.y ∧ q.y ≤ d ∧ q.z = 0) ∧
        (fill = true ∨ q.x = a ∨ q.x = c ∨ q.y = b ∨ q.y = d)) r := by
  have e1 : (((c : Int) - a + 1) % 2 ^ 32).toNat = c - a + 1 := by omega
  have e2 : (((d : Int) - b + 1) % 2 ^ 32).toNat = d - b + 1 := by omega
  obtain ⟨r, hr, hp⟩ := drawRectangle_painted im a b (c - a + 1) (d - b + 1) v fill 0 ha hd (by omega) (by omega) (by omega) (by omega)
    (by omega)
  refine ⟨r, ?_, hp.congr fun q _ => ?_⟩
  · unfold drawRectCoords
    dsimp only
    rw [e1, e2, hr]
  · unfold InBox OnSides
    refine and_congr (by omega) (or_congr_right (by omega))

theorem C67_corners_error (im : Img α) (c : List Nat) (v : α) (fill : Bool) (h : c.length ≠ 4) :
    drawRectCoords im c v fill = some (.error errRes) := by
  unfold drawRectCoords
  match c, h with
  | [], _ => rfl
  | [_], _ => rfl
  | [_, _], _ => rfl
  | [_, _, _], _ => rfl
  | [_, _, _, _], h => exact absurd rfl h
  | _ :: _ :: _ :: _ :: _ :: _, _ => rfl

example : (((drawRectCoords (⟨⟨4, 3, 1⟩, fun _ => 0⟩ : Img Nat) [1, 1, 2, 2] 7 true).map fun e => e.toOption.map Img.toRows)) =
    some (some [[[0, 0, 0, 0], [0, 7, 7, 0], [0, 7, 7, 0]]]) := by decide

/-- The inner slices of a box. -/
theorem innerSlices_painted (x0 y0 width height : Nat) (v : α) (fill : Bool) (D : Dims) (ha : D.count ≠ 0)
    (hw : 0 < width) (hh : 0 < height) (hx : x0 + width ≤ D.w) (hy : y0 + height ≤ D.h) (h64 : D.w < 2 ^ 64 ∧ D.h < 2 ^ 64) :
    ∀ (n z : Nat) (b : Img α), b.dims = D → z + n ≤ D.d →
      ∃ r, (List.range' z n).foldl (fun r z => seqRes r fun b => orRes (drawRectangle b x0 y0 width height v fill z)) (some (.ok b)) =
        some (.ok r) ∧ IsPainted b v (fun q => InBox x0 y0 z width height n q ∧ (fill = true ∨ OnSides x0 y0 width height q)) r
  | 0, z, b, hb, hz => ⟨b, rfl, (IsPainted.nil b v).congr fun q _ => by unfold InBox; constructor; exact False.elim; omega⟩
  | n + 1, z, b, hb, hz => by
    obtain ⟨r, hr, hp⟩ := drawRectangle_painted b x0 y0 width height v fill z
      (by unfold Img.alloc; rw [hb]; exact decide_eq_true ha) (by rw [hb]; omega) hw hh
      (by rw [hb]; exact hx) (by rw [hb]; exact hy) (by rw [hb]; exact h64)
    obtain ⟨r', hr', hp'⟩ := innerSlices_painted x0 y0 width height v fill D ha hw hh hx hy h64 n (z + 1) r (hp.1.trans hb) (by omega)
    refine ⟨r', ?_, (hp.trans hp').congr fun q _ => ?_⟩
    · rw [List.range'_succ, List.foldl_cons]
      have : seqRes (some (.ok b)) (fun b => orRes (drawRectangle b x0 y0 width height v fill z)) = some (.ok r) := by
        unfold seqRes orRes
        simp only [Option.bind_some, hr, Option.map_some]
      rw [this]; exact hr'
    · unfold InBox
      constructor
      · rintro (⟨h, h'⟩ | ⟨h, h'⟩)
        · exact ⟨by omega, h'⟩
        · exact ⟨by push_cast at h; omega, h'⟩
      · rintro ⟨h, h'⟩
        by_cases c : q.z = z
        · exact Or.inl ⟨by omega, h'⟩
        · exact Or.inr ⟨by push_cast; omega, h'⟩

/-- **C67** (`drawBox`, partial). A box that lies in the image: all of its pixels if `fill`, otherwise its faces. Missing: boxes that leave the image, as for the rectangles. -/
theorem C67_box_partial (im : Img α) (x0 y0 z0 width height depth : Nat) (v : α) (fill : Bool) (ha : im.alloc = true)
    (hw : 0 < width) (hh : 0 < height) (hd : 0 < depth) (hx : x0 + width ≤ im.dims.w) (hy : y0 + height ≤ im.dims.h)
    (hz : z0 + depth ≤ im.dims.d) (h64 : im.dims.w < 2 ^ 64 ∧ im.dims.h < 2 ^ 64 ∧ im.dims.d < 2 ^ 64) :
    ∃ r, drawBox im x0 y0 z0 width height depth v fill = some (.ok r) ∧
      IsPainted im v (fun q => InBox x0 y0 z0 width height depth q ∧
        (fill = true ∨ OnSides x0 y0 width height q ∨ q.z = z0 ∨ q.z = z0 + depth - 1)) r := by
  have e : sizeT ((z0 : Int) + depth - 1) = z0 + depth - 1 := by
    have : ((z0 : Int) + depth - 1) = ((z0 + depth - 1 : Nat) : Int) := by omega
    rw [this, sizeT_nat _ (by omega)]
  have hc : im.dims.count ≠ 0 := by
    unfold Img.alloc at ha
    exact of_decide_eq_true ha
  have hal : ∀ b : Img α, b.dims = im.dims → b.alloc = true := fun b hb => by
    unfold Img.alloc; rw [hb]; exact decide_eq_true hc
  obtain ⟨b1, h1, p1⟩ := drawRectangle_painted im x0 y0 width height v true z0 ha (by omega) hw hh hx hy ⟨h64.1, h64.2.1⟩
  obtain ⟨b2, h2, p2⟩ := innerSlices_painted x0 y0 width height v fill im.dims hc hw hh hx hy ⟨h64.1, h64.2.1⟩
    (z0 + depth - 1 - (z0 + 1)) (z0 + 1) b1 p1.1 (by omega)
  obtain ⟨b3, h3, p3⟩ := drawRectangle_painted b2 x0 y0 width height v true (z0 + depth - 1) (hal b2 (p2.1.trans p1.1))
    (by rw [p2.1, p1.1]; omega) hw hh (by rw [p2.1, p1.1]; exact hx) (by rw [p2.1, p1.1]; exact hy)
    (by rw [p2.1, p1.1]; exact ⟨h64.1, h64.2.1⟩)
  refine ⟨b3, ?_, ((p1.trans p2).trans p3).congr fun q _ => ?_⟩
  · unfold drawBox
    rw [if_neg (by rw [ha]; simp), e, h1]
    have : orRes (some (Except.ok b1)) = some (.ok b1) := rfl
    rw [this]
    have s1 : ∀ (b : Img α) f, seqRes (some (.ok b)) f = f b := fun _ _ => rfl
    rw [s1, h2, s1, h3]; rfl
  · unfold InBox
    constructor
    · rintro ((⟨h, -⟩ | ⟨h, h'⟩) | ⟨h, -⟩)
      · exact ⟨by omega, by right; right; left; omega⟩
      · push_cast at h
        exact ⟨by omega, h'.imp_right Or.inl⟩
      · push_cast at h
        exact ⟨by omega, by right; right; right; omega⟩
    · rintro ⟨h, h'⟩
      by_cases c1 : q.z = z0
      · exact Or.inl (Or.inl ⟨by omega, Or.inl rfl⟩)
      · by_cases c2 : q.z = z0 + depth - 1
        · exact Or.inr ⟨by omega, Or.inl rfl⟩
        · refine Or.inl (Or.inr ⟨by omega, ?_⟩)
          rcases h' with h' | h' | h' | h'
          · exact Or.inl h'
          · exact Or.inr h'
          · exact absurd h' c1
          · exact absurd h' c2

example : (((drawBox (⟨⟨3, 3, 3⟩, fun _ => 0⟩ : Img Nat) 0 0 0 3 3 3 7 false).map fun e => e.toOption.map Img.toRows)) =
    some (some [[[7, 7, 7], [7, 7, 7], [7, 7, 7]], [[7, 7, 7], [7, 0, 7], [7, 7, 7]], [[7, 7, 7], [7, 7, 7], [7, 7, 7]]]) := by decide

/-- **C67** (`drawDisc`). The disc is exact: the pixels of the slice at distance at most `radius`; nothing for a negative radius. -/
theorem C67_disc (im : Img α) (x0 y0 : Int) (z : Nat) (radius : Int) (v : α) (ha : im.alloc = true) (hz : z < im.dims.d) :
    ∃ r, drawDisc im x0 y0 z radius v = some (.ok r) ∧
      IsPainted im v (fun q => q.z = z ∧ 0 ≤ radius ∧ (q.x - x0) ^ 2 + (q.y - y0) ^ 2 ≤ radius ^ 2) r := by
  have hmem : ∀ q : IntPoint, q ∈ (((forRange (max (y0 - radius) 0) (min (y0 + radius) (im.dims.h - 1))).flatMap fun y =>
        (forRange (max (x0 - radius) 0) (min (x0 + radius) (im.dims.w - 1))).map fun x => (⟨x, y, z⟩ : IntPoint)).filter fun p =>
      decide ((p.x - x0) * (p.x - x0) + (p.y - y0) * (p.y - y0) ≤ radius * radius)) ↔
      (max (x0 - radius) 0 ≤ q.x ∧ q.x ≤ min (x0 + radius) (im.dims.w - 1) ∧ max (y0 - radius) 0 ≤ q.y ∧
        q.y ≤ min (y0 + radius) (im.dims.h - 1) ∧ q.z = z) ∧
      (q.x - x0) * (q.x - x0) + (q.y - y0) * (q.y - y0) ≤ radius * radius := by
    intro q
    rw [List.mem_filter, List.mem_flatMap, decide_eq_true_iff]
    refine and_congr_left fun _ => ?_
    constructor
    · rintro ⟨y, hy, hq⟩
      obtain ⟨x, hx, rfl⟩ := List.mem_map.mp hq
      rw [mem_forRange] at hx hy
      exact ⟨hx.1, hx.2, hy.1, hy.2, rfl⟩
    · rintro ⟨h1, h2, h3, h4, h5⟩
      exact ⟨q.y, (mem_forRange _ _ _).mpr ⟨h3, h4⟩, List.mem_map.mpr ⟨q.x, (mem_forRange _ _ _).mpr ⟨h1, h2⟩, pt_ext rfl rfl h5.symm⟩⟩
  obtain ⟨r, hr, hp⟩ := storePts_painted v _ im (fun p hp => by
    have := (hmem p).mp hp
    unfold Img.In
    omega)
  refine ⟨r, ?_, hp.congr fun q hq => ?_⟩
  · unfold drawDisc
    rw [if_neg (by rw [ha]; simp), if_neg (by omega)]
    dsimp only
    rw [hr]; rfl
  · rw [hmem]
    unfold Img.In at hq
    rw [pow_two, pow_two, pow_two]
    constructor
    · rintro ⟨h1, h2⟩
      exact ⟨h1.2.2.2.2, by omega, h2⟩
    · rintro ⟨h1, h2, h3⟩
      have a := sq_le_bound h2 (a := q.x - x0) (by nlinarith [mul_self_nonneg (q.y - y0)])
      have b := sq_le_bound h2 (a := q.y - y0) (by nlinarith [mul_self_nonneg (q.x - x0)])
      exact ⟨by omega, h3⟩

example : (((drawDisc (⟨⟨5, 3, 1⟩, fun _ => 0⟩ : Img Nat) 2 0 0 2 7).map fun e => e.toOption.map Img.toRows)) =
    some (some [[[7, 7, 7, 7, 7], [0, 7, 7, 7, 0], [0, 0, 7, 0, 0]]]) := by decide

/-- **C67** (`drawSphere`). The ball is exact. -/
theorem C67_sphere (im : Img α) (x0 y0 z0 radius : Int) (v : α) (ha : im.alloc = true) :
    ∃ r, drawSphere im x0 y0 z0 radius v = some (.ok r) ∧
      IsPainted im v (fun q => 0 ≤ radius ∧ (q.x - x0) ^ 2 + (q.y - y0) ^ 2 + (q.z - z0) ^ 2 ≤ radius ^ 2) r := by
  have hmem : ∀ q : IntPoint, q ∈ (((forRange (max (z0 - radius) 0) (min (z0 + radius) (im.dims.d - 1))).flatMap fun z =>
      (forRange (max (y0 - radius) 0) (min (y0 + radius) (im.dims.h - 1))).flatMap fun y =>
        (forRange (max (x0 - radius) 0) (min (x0 + radius) (im.dims.w - 1))).map fun x => (⟨x, y, z⟩ : IntPoint)).filter fun p =>
      decide ((p.x - x0) * (p.x - x0) + (p.y - y0) * (p.y - y0) + (p.z - z0) * (p.z - z0) ≤ radius * radius)) ↔
      (max (x0 - radius) 0 ≤ q.x ∧ q.x ≤ min (x0 + radius) (im.dims.w - 1) ∧ max (y0 - radius) 0 ≤ q.y ∧
        q.y ≤ min (y0 + radius) (im.dims.h - 1) ∧ max (z0 - radius) 0 ≤ q.z ∧ q.z ≤ min (z0 + radius) (im.dims.d - 1)) ∧
      (q.x - x0) * (q.x - x0) + (q.y - y0) * (q.y - y0) + (q.z - z0) * (q.z - z0) ≤ radius * radius := by
    intro q
    rw [List.mem_filter, List.mem_flatMap, decide_eq_true_iff]
    refine and_congr_left fun _ => ?_
    constructor
    · rintro ⟨z, hz, hq⟩
      obtain ⟨y, hy, hq⟩ := List.mem_flatMap.mp hq
      obtain ⟨x, hx, rfl⟩ := List.mem_map.mp hq
      rw [mem_forRange] at hx hy hz
      exact ⟨hx.1, hx.2, hy.1, hy.2, hz.1, hz.2⟩
    · rintro ⟨h1, h2, h3, h4, h5, h6⟩
      exact ⟨q.z, (mem_forRange _ _ _).mpr ⟨h5, h6⟩, List.mem_flatMap.mpr ⟨q.y, (mem_forRange _ _ _).mpr ⟨h3, h4⟩,
        List.mem_map.mpr ⟨q.x, (mem_forRange _ _ _).mpr ⟨h1, h2⟩, rfl⟩⟩⟩
  obtain ⟨r, hr, hp⟩ := storePts_painted v _ im (fun p hp => by
    have := (hmem p).mp hp
    unfold Img.In
    omega)
  refine ⟨r, ?_, hp.congr fun q hq => ?_⟩
  · unfold drawSphere
    rw [if_neg (by rw [ha]; simp)]
    dsimp only
    rw [hr]; rfl
  · rw [hmem]
    unfold Img.In at hq
    rw [pow_two, pow_two, pow_two, pow_two]
    constructor
    · rintro ⟨h1, h2⟩
      exact ⟨by omega, h2⟩
    · rintro ⟨h2, h3⟩
      have a := sq_le_bound h2 (a := q.x - x0) (by nlinarith [mul_self_nonneg (q.y - y0), mul_self_nonneg (q.z - z0)])
      have b := sq_le_bound h2 (a := q.y - y0) (by nlinarith [mul_self_nonneg (q.x - x0), mul_self_nonneg (q.z - z0)])
      have c := sq_le_bound h2 (a := q.z - z0) (by nlinarith [mul_self_nonneg (q.x - x0), mul_self_nonneg (q.y - y0)])
      exact ⟨by omega, h3⟩

example : (((drawSphere (⟨⟨3, 3, 2⟩, fun _ => 0⟩ : Img Nat) 1 1 0 1 7).map fun e => e.toOption.map Img.toRows)) =
    some (some [[[0, 7, 0], [7, 7, 7], [0, 7, 0]], [[0, 0, 0], [0, 7, 0], [0, 0, 0]]]) := by decide

theorem storeIfIn_painted (v : α) (z : Nat) (im : Img α) (hz : z < im.dims.d) (p : Int × Int) :
    ∃ r, storeIfIn v z im p = some r ∧ IsPainted im v (fun q => q = ⟨p.1, p.2, z⟩) r := by
  unfold storeIfIn
  by_cases h : 0 ≤ p.1 ∧ p.1 ≤ (im.dims.w : Int) - 1 ∧ 0 ≤ p.2 ∧ p.2 ≤ (im.dims.h : Int) - 1
  · rw [if_pos h]
    exact storePx_painted v im (by unfold Img.In; dsimp only; omega)
  · rw [if_neg h]
    refine ⟨im, rfl, (IsPainted.nil im v).congr fun q hq => ?_⟩
    simp only [false_iff]
    rintro rfl
    unfold Img.In at hq
    dsimp only at hq
    omega

theorem abs_iff {a b : Int} (hb : 0 ≤ b) : |a| = b ↔ a = b ∨ a = -b := by
  rw [abs_eq hb]

theorem mem_eightPts {x0 y0 a b : Int} (ha : 0 ≤ a) (hb : 0 ≤ b) (x y : Int) : (x, y) ∈ eightPts x0 y0 (a, b) ↔
    (|x - x0| = a ∧ |y - y0| = b) ∨ (|x - x0| = b ∧ |y - y0| = a) := by
  rw [abs_iff ha, abs_iff hb, abs_iff ha, abs_iff hb]
  unfold eightPts
  simp only [List.mem_cons, Prod.mk.injEq, List.not_mem_nil, or_false]
  omega

/-- **C67** (`drawCircle`). The circle is made of the eight images of an octant, clipped by the image, in the given slice; the octant starts at the top, goes
column by column to the diagonal, and stays close to the circle (`C67_circle_near`). -/
theorem C67_circle (fuel : Nat) (im : Img α) (x0 y0 radius : Int) (v : α) (z : Nat) (ha : im.alloc = true) (hz : z < im.dims.d)
    (hr : 0 ≤ radius) (hf : radius < fuel) :
    ∃ l r, IsOctant radius l ∧ drawCircle fuel im x0 y0 radius v z = some (.ok r) ∧
      IsPainted im v (fun q => q.z = z ∧ EightFold l x0 y0 q) r := by
  obtain ⟨c, hc, hc', hd⟩ : ∃ c : Int, -2 ≤ c ∧ (c ≤ radius - 1 ∨ radius = 0) ∧
      (5 - radius * 4).tdiv 4 = 2 * ((0 + 1) * (0 + 1)) + radius * radius + (radius - 1) * (radius - 1) - 2 * (radius * radius) + c := by
    refine ⟨(5 - radius * 4).tdiv 4 - 3 + 2 * radius, ?_, ?_, by ring⟩
    · by_cases h : radius ≤ 1
      · have : radius = 0 ∨ radius = 1 := by omega
        rcases this with rfl | rfl <;> decide
      · have : (5 - radius * 4).tdiv 4 = -((radius * 4 - 5) / 4) := by
          have e : 5 - radius * 4 = -(radius * 4 - 5) := by ring
          rw [e, Int.neg_tdiv, Int.tdiv_eq_ediv_of_nonneg (by omega)]
        rw [this]; omega
    · by_cases h : radius ≤ 1
      · have : radius = 0 ∨ radius = 1 := by omega
        rcases this with rfl | rfl
        · exact Or.inr rfl
        · left; decide
      · left
        have : (5 - radius * 4).tdiv 4 = -((radius * 4 - 5) / 4) := by
          have e : 5 - radius * 4 = -(radius * 4 - 5) := by ring
          rw [e, Int.neg_tdiv, Int.tdiv_eq_ediv_of_nonneg (by omega)]
        rw [this]; omega
  obtain ⟨l, hl, k0, k1, k2, k3, k4⟩ := octant_spec radius c hc hc' fuel _ 0 radius (le_refl _) hr (le_refl _) (by omega) hd
    (by nlinarith) (by nlinarith)
  obtain ⟨r, hr', hp⟩ := foldlM_painted v (storeIfIn v z) (fun p q => q = ⟨p.1, p.2, z⟩) im.dims (l.flatMap (eightPts x0 y0))
    (fun p _ b hb => storeIfIn_painted v z b (by rw [hb]; exact hz) p) im rfl
  refine ⟨l, r, ⟨k0, k1, k2, k3, k4⟩, ?_, hp.congr fun q _ => ?_⟩
  · unfold drawCircle
    rw [if_neg (by rw [ha]; simp), if_neg (by omega), hl]
    simp only [Option.bind_some]
    rw [hr']; rfl
  · unfold EightFold
    constructor
    · rintro ⟨p, hp, rfl⟩
      obtain ⟨a, ha', hpa⟩ := List.mem_flatMap.mp hp
      obtain ⟨i1, i2, _⟩ := k2 a ha'
      exact ⟨rfl, a, ha', (mem_eightPts i1 (by omega) _ _).mp hpa⟩
    · rintro ⟨hqz, a, ha', h⟩
      obtain ⟨i1, i2, _⟩ := k2 a ha'
      exact ⟨(q.x, q.y), List.mem_flatMap.mpr ⟨a, ha', (mem_eightPts i1 (by omega) _ _).mpr h⟩, pt_ext rfl rfl hqz⟩

/-- **C67** (closeness of the circle). Every point of the eight octants is at less than one pixel from the circle. -/
theorem C67_circle_near {r : Int} {l : List (Int × Int)} (h : IsOctant r l) (hr : 0 < r) (x0 y0 : Int) (q : IntPoint)
    (hq : EightFold l x0 y0 q) :
    (r - 1) ^ 2 ≤ (q.x - x0) ^ 2 + (q.y - y0) ^ 2 ∧ (q.x - x0) ^ 2 + (q.y - y0) ^ 2 < (r + 1) ^ 2 := by
  obtain ⟨a, ha, hc⟩ := hq
  have key : (q.x - x0) ^ 2 + (q.y - y0) ^ 2 = a.1 * a.1 + a.2 * a.2 := by
    rcases hc with ⟨h1, h2⟩ | ⟨h1, h2⟩
    · rw [← sq_abs (q.x - x0), ← sq_abs (q.y - y0), h1, h2]; ring
    · rw [← sq_abs (q.x - x0), ← sq_abs (q.y - y0), h1, h2]; ring
  obtain ⟨h1, h2⟩ := h.near a ha
  rw [key]
  constructor
  · by_cases h3 : r = 1
    · subst h3
      have := mul_self_nonneg a.1
      have := mul_self_nonneg a.2
      nlinarith
    · have : 2 ≤ r := by omega
      nlinarith
  · nlinarith

example : (((drawCircle 10 (⟨⟨7, 4, 1⟩, fun _ => 0⟩ : Img Nat) 3 0 3 7 0).map fun e => e.toOption.map Img.toRows)) =
    some (some [[[7, 0, 0, 0, 0, 0, 7], [7, 0, 0, 0, 0, 0, 7], [0, 7, 0, 0, 0, 7, 0], [0, 0, 7, 7, 7, 0, 0]]]) := by decide

/-- **C67** (error codes). An image without pixels and a slice out of range are refused, and nothing is drawn. -/
theorem C67_errors (im : Img α) (x0 y0 x1 y1 : Int) (w h : Nat) (v : α) (fill : Bool) (z fuel : Nat) :
    (im.alloc = false → drawLine im x0 y0 x1 y1 v = some (.error errBadAllocation) ∧
      drawRectangle im x0 y0 w h v fill z = some (.error errBadAllocation) ∧
      drawDisc im x0 y0 z x1 v = some (.error errBadAllocation) ∧
      drawSphere im x0 y0 y1 x1 v = some (.error errBadAllocation) ∧
      drawCircle fuel im x0 y0 x1 v z = some (.error errBadAllocation)) ∧
    (im.alloc = true → im.dims.d ≤ z → drawRectangle im x0 y0 w h v fill z = some (.error errRes) ∧
      drawDisc im x0 y0 z x1 v = some (.error errRes) ∧ drawCircle fuel im x0 y0 x1 v z = some (.error errRes)) := by
  constructor
  · intro ha
    simp [drawLine, drawRectangle, drawDisc, drawSphere, drawCircle, ha]
  · intro ha hz
    simp [drawRectangle, drawDisc, drawCircle, ha, hz]

end Smil
