import Verif.PropsDraw

/-!
# C67: where drawing fails
-/

namespace Smil
variable {α : Type}

/-- **C67** (exception). A vertical line in a column of the image which starts or ends above the first line reads the table of the lines at a negative
index: `bresenhamPoints` only checks the abscissa of vertical lines, DImageDraw.h:86. -/
theorem C67_drawLine_ub (im : Img α) (x y0 y1 : Int) (v : α) (ha : im.alloc = true) (hx : 0 ≤ x ∧ x < im.dims.w)
    (hy : y0 < 0 ∨ y1 < 0 ∨ (im.dims.h * im.dims.d : Nat) ≤ y0 ∨ (im.dims.h * im.dims.d : Nat) ≤ y1) : drawLine im x y0 x y1 v = none := by
  have hd : 0 < im.dims.d := by
    unfold Img.alloc at ha
    have := of_decide_eq_true ha
    unfold Dims.count at this
    by_contra hc
    have : im.dims.d = 0 := by omega
    simp_all
  have hle : im.dims.h ≤ im.dims.h * im.dims.d := Nat.le_mul_of_pos_right _ hd
  unfold drawLine
  rw [if_neg (by rw [ha]; simp)]
  have e : segPts im.dims x y0 x y1 = bresenhamPoints x y0 x y1 0 0 := by
    unfold segPts
    split_ifs
    · rw [bresenhamPoints_vertical, if_pos (Or.inr hx)]
    · rfl
  rw [e]
  obtain ⟨h0, h1⟩ := bresenhamPoints_ends x y0 x y1
  have : ∃ p ∈ bresenhamPoints x y0 x y1 0 0, lineAt im.dims p.z p.y = none := by
    by_cases hc : y0 < 0 ∨ (im.dims.h * im.dims.d : Nat) ≤ y0
    · exact ⟨_, h0, by unfold lineAt; dsimp only; exact if_neg (by rw [zero_mul]; omega)⟩
    · exact ⟨_, h1, by unfold lineAt; dsimp only; exact if_neg (by rw [zero_mul]; omega)⟩
  obtain ⟨p, hp, hn⟩ := this
  rw [storePts_none v _ im p hp hn]; rfl

example : drawLine (⟨⟨4, 3, 1⟩, fun _ => 0⟩ : Img Nat) 1 (-1) 1 2 7 = none :=
  C67_drawLine_ub _ _ _ _ _ rfl ⟨by decide, by decide⟩ (Or.inl (by decide))

/-- **C67** (exception). A horizontal line that ends on the right of the image continues at the start of the next line: `bresenhamPoints` only checks the
ordinate of horizontal lines, DImageDraw.h:98. -/
theorem C67_drawLine_wrap_bug : ∃ im r : Img Nat, drawLine im 2 0 5 0 7 = some (.ok r) ∧
    ¬ Img.In im.dims ⟨4, 0, 0⟩ ∧ im.at? ⟨0, 1, 0⟩ = some 0 ∧ r.at? ⟨0, 1, 0⟩ = some 7 ∧
    ∀ l, IsSegment ⟨2, 0, 0⟩ ⟨5, 0, 0⟩ l → (⟨0, 1, 0⟩ : IntPoint) ∉ l := by
  refine ⟨⟨⟨4, 3, 1⟩, fun _ => 0⟩, ⟨⟨4, 3, 1⟩, fun i => if 2 ≤ i ∧ i ≤ 5 then 7 else 0⟩, ?_, by decide, by decide, by decide, ?_⟩
  · have : (drawLine (⟨⟨4, 3, 1⟩, fun _ => 0⟩ : Img Nat) 2 0 5 0 7) =
        some (.ok ⟨⟨4, 3, 1⟩, Function.update (Function.update (Function.update (Function.update (fun _ => 0) 2 7) 3 7) 4 7) 5 7⟩) := rfl
    rw [this]
    congr 3
    funext i
    simp only [Function.update_apply]
    split_ifs <;> omega
  · intro l h hm
    have := h.box _ hm
    dsimp only at this
    omega

/-- **C67** (exception). `bresenhamLine` passes the largest coordinates as (excluded) bounds: it never lists the end with the larger abscissa of an oblique
line, and lists nothing at all for a vertical or horizontal line that is not on the axis, DDraw.cpp:34-39. -/
theorem C67_bresenhamLine_bug (x1 y1 x2 y2 : Int) :
    (x1 ≠ x2 → y1 ≠ y2 → 0 < max x1 x2 → ∀ p ∈ bresenhamLine x1 y1 x2 y2, p.x < max x1 x2) ∧
    (0 < x1 → bresenhamLine x1 y1 x1 y2 = []) ∧ (x1 ≠ x2 → 0 < y1 → bresenhamLine x1 y1 x2 y1 = []) := by
  unfold bresenhamLine
  refine ⟨?_, ?_, ?_⟩
  · intro hx hy hm p hp
    rw [bresenhamPoints_oblique hx hy] at hp
    have := (List.mem_filter.mp hp).2
    unfold bresIn at this
    have := of_decide_eq_true this
    omega
  · intro h
    rw [bresenhamPoints_vertical, if_neg (by omega)]
  · intro hx h
    rw [bresenhamPoints_horizontal hx, if_neg (by omega)]

/-- The same as above: the list is never a segment from one end to the other. -/
theorem C67_bresenhamLine_fails {x1 y1 x2 y2 : Int} (hx : 0 < max x1 x2) (hy : 0 < max y1 y2) (hne : x1 ≠ x2 ∨ y1 ≠ y2) :
    ¬ IsSegment ⟨x1, y1, 0⟩ ⟨x2, y2, 0⟩ (bresenhamLine x1 y1 x2 y2) := by
  intro h
  have h0 := List.mem_of_getElem? h.first
  have h1 := List.mem_of_getElem? h.last
  obtain ⟨b1, b2, b3⟩ := C67_bresenhamLine_bug x1 y1 x2 y2
  by_cases c1 : x1 = x2
  · subst c1
    rw [b2 (by omega)] at h0; cases h0
  · by_cases c2 : y1 = y2
    · subst c2
      rw [b3 c1 (by omega)] at h0; cases h0
    · have a := b1 c1 c2 hx _ h0
      have b := b1 c1 c2 hx _ h1
      dsimp only at a b
      omega

example : bresenhamLine 0 0 3 2 = [⟨0, 0, 0⟩, ⟨1, 1, 0⟩, ⟨2, 1, 0⟩] := by decide

/-- **C67** (exception). The profile of a horizontal line read from right to left is given from left to right, although that of a slightly inclined line is given from
right to left. -/
theorem C67_profile_order_bug : ∃ im : Img Nat, profile im 3 0 0 0 0 = some [0, 1, 2, 3] ∧ profile im 3 0 0 1 0 = some [3, 2, 5, 4] :=
  ⟨⟨⟨4, 3, 1⟩, id⟩, by decide, by decide⟩

/-- **C67** (exception). `profile` does not check the slice: out of range it reads outside of the tables. -/
theorem C67_profile_ub (im : Img α) (x0 y0 z : Nat) (h : Img.In im.dims ⟨x0, y0, 0⟩) (hz : im.dims.d ≤ z) :
    profile im x0 y0 x0 y0 z = none := by
  unfold Img.In at h
  dsimp only at h
  unfold profile
  rw [if_neg (by
    unfold Img.alloc
    have : 0 < im.dims.count := by
      unfold Dims.count
      have a : 0 < im.dims.w := by omega
      have b : 0 < im.dims.h := by omega
      have c : 0 < im.dims.d := by omega
      positivity
    simp; omega)]
  have e : segPts im.dims x0 y0 x0 y0 = [⟨x0, y0, 0⟩] := by
    unfold segPts
    rw [if_neg (by omega)]
    unfold bresenhamPoints
    rw [if_neg (lt_irrefl _), bresSorted_vertical, if_pos (Or.inl rfl)]
    simp
  rw [e, List.mapM_cons]
  have : loadPx im ⟨x0, y0, z⟩ = none := by
    unfold loadPx lineAt
    dsimp only
    rw [if_neg]
    · rfl
    · rintro ⟨_, h2⟩
      have : (im.dims.h * im.dims.d : Nat) ≤ z * im.dims.h := by
        rw [mul_comm]; exact Nat.mul_le_mul_right _ hz
      have : ((im.dims.h * im.dims.d : Nat) : Int) ≤ (z : Int) * im.dims.h := by exact_mod_cast this
      omega
  rw [this]; rfl

/-- **C67** (exception). A rectangle that leaves the image on the left is drawn with its full width, so too far to the right; one that leaves it on the right continues on the next
line, DImageDraw.hpp:142-147. -/
theorem C67_rectangle_clip_bug : ∃ im r r' : Img Nat,
    drawRectangle im (-2) 0 3 1 7 true 0 = some (.ok r) ∧ ¬ InBox (-2) 0 0 3 1 1 ⟨2, 0, 0⟩ ∧ r.at? ⟨2, 0, 0⟩ = some 7 ∧
    drawRectangle im 3 0 3 1 7 true 0 = some (.ok r') ∧ ¬ InBox 3 0 0 3 1 1 ⟨0, 1, 0⟩ ∧ r'.at? ⟨0, 1, 0⟩ = some 7 ∧
    im.at? ⟨2, 0, 0⟩ = some 0 ∧ im.at? ⟨0, 1, 0⟩ = some 0 := by
  refine ⟨⟨⟨4, 3, 1⟩, fun _ => 0⟩, ⟨⟨4, 3, 1⟩, Function.update (Function.update (Function.update (fun _ => 0) 0 7) 1 7) 2 7⟩,
    ⟨⟨4, 3, 1⟩, Function.update (Function.update (Function.update (fun _ => 0) 3 7) 4 7) 5 7⟩, rfl, ?_, by decide, rfl, ?_, by decide, by decide, by decide⟩
  · unfold InBox; decide
  · unfold InBox; decide

/-- **C67** (exception). A rectangle that leaves the image at the bottom right writes after the end of the pixels, and one that starts below the image reads the table of the lines
outside of its bounds, even if it is not to be filled. -/
theorem C67_rectangle_ub : ∃ im : Img Nat, drawRectangle im 3 2 2 1 7 true 0 = none ∧ drawRectangle im 0 3 1 1 7 false 0 = none :=
  ⟨⟨⟨4, 3, 1⟩, fun _ => 0⟩, by
    have : (drawRectangle (⟨⟨4, 3, 1⟩, fun _ => 0⟩ : Img Nat) 3 2 2 1 7 true 0).isNone = true := by decide
    exact Option.isNone_iff_eq_none.mp this, by
    have : (drawRectangle (⟨⟨4, 3, 1⟩, fun _ => 0⟩ : Img Nat) 0 3 1 1 7 false 0).isNone = true := by decide
    exact Option.isNone_iff_eq_none.mp this⟩

/-- **C67** (exception). A rectangle of height zero at the top of the image is painted down to the bottom: `y0 + height - 1` wraps around. -/
theorem C67_rectangle_empty_bug : ∃ im r : Img Nat, drawRectangle im 1 0 1 0 7 true 0 = some (.ok r) ∧
    (∀ q, ¬ InBox 1 0 0 1 0 1 q) ∧ r.at? ⟨1, 2, 0⟩ = some 7 ∧ im.at? ⟨1, 2, 0⟩ = some 0 := by
  refine ⟨⟨⟨4, 3, 1⟩, fun _ => 0⟩, ⟨⟨4, 3, 1⟩, Function.update (Function.update (Function.update (fun _ => 0) 1 7) 5 7) 9 7⟩, rfl, ?_, by decide,
    by decide⟩
  intro q
  unfold InBox
  omega

/-- **C67** (exception). The circle is not that of the midpoint algorithm: the decision variable starts from `(5 - 4 r) / 4` with the increments of the version doubled
(`3 - 2 r`), so that the circle is too small. For the radius 6, the point below `(2, 6)` is chosen although `(2, 6)` is closer to the circle. -/
theorem C67_circle_midpoint_bug : ∃ im r : Img Nat, drawCircle 7 im 0 0 6 7 0 = some (.ok r) ∧
    im.at? ⟨2, 6, 0⟩ = some 0 ∧ r.at? ⟨2, 5, 0⟩ = some 7 ∧ r.at? ⟨2, 6, 0⟩ = some 0 ∧
    |(2 : Int) ^ 2 + 6 ^ 2 - 6 ^ 2| < |(2 : Int) ^ 2 + 5 ^ 2 - 6 ^ 2| := by
  have h : ((drawCircle 7 (⟨⟨7, 7, 1⟩, fun _ => 0⟩ : Img Nat) 0 0 6 7 0).map fun e => e.toOption.map fun r =>
      (r.at? ⟨2, 5, 0⟩, r.at? ⟨2, 6, 0⟩)) = some (some (some 7, some 0)) := by decide
  obtain ⟨l, r, -, hr, -⟩ := C67_circle 7 (⟨⟨7, 7, 1⟩, fun _ => 0⟩ : Img Nat) 0 0 6 7 0 rfl (by decide) (by decide) (by decide)
  rw [hr] at h
  simp only [Option.map_some, Except.toOption, Option.some.injEq, Prod.mk.injEq] at h
  exact ⟨_, r, hr, by decide, h.1, h.2, by decide⟩

end Smil
