import Verif.PropsFastLineMore

/-! # C64: the directions that leave pixels aside, and examples -/

namespace Smil

/-- The environment of the examples: fresh images hold 200. -/
def exEnvFL : Env (Px UINT8) := ⟨1, false, fun _ => ⊥, fun _ => UINT8.wrap 200⟩
/-- Arrays of the examples. -/
def exRawFL : Nat → VH (Px UINT8) := fun _ => ⟨fun _ => UINT8.wrap 77, fun _ => UINT8.wrap 78, fun _ => UINT8.wrap 79⟩
/-- Five columns, three lines. -/
def exIm53 : Img (Px UINT8) := im8 ⟨5, 3, 1⟩ [1, 2, 3, 4, 5, 6, 7, 8, 9, 10, 11, 12, 13, 14, 15]
/-- A black image. -/
def exZero53 : Img (Px UINT8) := im8 ⟨5, 3, 1⟩ []

theorem segRel_refl (dx dy : Int) (r : Nat) (p : IntPoint) : segRel dx dy r p p := by
  unfold segRel
  refine ⟨rfl, ?_⟩
  split_ifs
  · exact ⟨⟨by omega, by omega⟩, by simp⟩
  · exact ⟨⟨by omega, by omega⟩, by simp⟩

theorem not_dil_of_lt {α : Type} [LinearOrder α] {N : IntPoint → IntPoint → Prop} {im res : Img α} {p : IntPoint} {u v : α}
    (hN : N p p) (h1 : im.at? p = some u) (h2 : res.at? p = some v) (h : v < u) : ¬ IsDilBy N im res := by
  intro hd
  obtain ⟨w, e, hl⟩ := hd.2 p (Img.at?_eq_some_in _ _ _ h1)
  rw [h2] at e
  cases e
  exact absurd (hl.1 ⟨p, hN, h1⟩) (not_le.2 h)

/-- **C64 fails** for flat slopes with `dx * dy < 0` (angles between 0 and 45 degrees): `ComputeBresenhamLineNX` stops at
the first pixel with `y = 0` (line 164), so that a run of several pixels on the border of the image is cut. With an image
of 5 x 3 pixels and the angle 26 (`dx = 4`, `dy = -2`), the pixel (2, 0) is not written. -/
theorem C64_flat_bug : ∃ (E : Env (Px UINT8)) (raw : Nat → VH (Px UINT8)) (im out : Img (Px UINT8)) (res : Img (Px UINT8)),
    Accepts E im out ∧ im.dims = ⟨5, 3, 1⟩ ∧ lineDilate E false 4 (-2) 1 raw im out = some (.ok res) ∧
      ¬ IsDilBy (segRel 4 (-2) 1) im res := by
  have h : ∃ res, lineDilate exEnvFL false 4 (-2) 1 exRawFL exIm53 exZero53 = some (.ok res) ∧
      res.at? ⟨2, 0, 0⟩ = some (UINT8.wrap 0) := by
    have h1 : ((lineDilate exEnvFL false 4 (-2) 1 exRawFL exIm53 exZero53).elim none
        fun e => match e with | .ok r => r.at? ⟨2, 0, 0⟩ | .error _ => none) = some (UINT8.wrap 0) := by decide +kernel
    cases e : lineDilate exEnvFL false 4 (-2) 1 exRawFL exIm53 exZero53 with
    | none => rw [e] at h1; simp at h1
    | some x =>
      rw [e] at h1
      cases x with
      | error c => simp at h1
      | ok r => exact ⟨r, rfl, h1⟩
  obtain ⟨res, e, h2⟩ := h
  exact ⟨exEnvFL, exRawFL, exIm53, exZero53, res, ⟨by decide, by decide, .inl rfl⟩, rfl, e,
    not_dil_of_lt (p := ⟨2, 0, 0⟩) (u := UINT8.wrap 3) (segRel_refl _ _ _ _) (by decide) h2 (by decide)⟩

/-- The same for steep slopes, `ComputeBresenhamLineNY`, line 234: with `dx = -2` and `dy = 4` the pixel (0, 2) is not
written. -/
theorem C64_steep_bug : ∃ (E : Env (Px UINT8)) (raw : Nat → VH (Px UINT8)) (im out : Img (Px UINT8)) (res : Img (Px UINT8)),
    Accepts E im out ∧ im.dims = ⟨5, 3, 1⟩ ∧ lineDilate E false (-2) 4 1 raw im out = some (.ok res) ∧
      ¬ IsDilBy (segRel (-2) 4 1) im res := by
  have h : ∃ res, lineDilate exEnvFL false (-2) 4 1 exRawFL exIm53 exZero53 = some (.ok res) ∧
      res.at? ⟨0, 2, 0⟩ = some (UINT8.wrap 0) := by
    have h1 : ((lineDilate exEnvFL false (-2) 4 1 exRawFL exIm53 exZero53).elim none
        fun e => match e with | .ok r => r.at? ⟨0, 2, 0⟩ | .error _ => none) = some (UINT8.wrap 0) := by decide +kernel
    cases e : lineDilate exEnvFL false (-2) 4 1 exRawFL exIm53 exZero53 with
    | none => rw [e] at h1; simp at h1
    | some x =>
      rw [e] at h1
      cases x with
      | error c => simp at h1
      | ok r => exact ⟨r, rfl, h1⟩
  obtain ⟨res, e, h2⟩ := h
  exact ⟨exEnvFL, exRawFL, exIm53, exZero53, res, ⟨by decide, by decide, .inl rfl⟩, rfl, e,
    not_dil_of_lt (p := ⟨0, 2, 0⟩) (u := UINT8.wrap 11) (segRel_refl _ _ _ _) (by decide) h2 (by decide)⟩

/-- As a consequence `lineOpen` is not an opening in these directions: a value that the output held before the call stays,
and the opening of a black image is not black. -/
theorem C64_open_bug : ∃ (E : Env (Px UINT8)) (raw : Nat → VH (Px UINT8)) (im out : Img (Px UINT8)) (res : Img (Px UINT8)),
    Accepts E im out ∧ im.dims = ⟨5, 3, 1⟩ ∧ lineOpen E 4 (-2) 1 raw raw im out = some (.ok res) ∧ ¬ Img.Le res im := by
  have h : ∃ res, lineOpen exEnvFL 4 (-2) 1 exRawFL exRawFL exZero53 exIm53 = some (.ok res) ∧
      res.at? ⟨2, 0, 0⟩ = some (UINT8.wrap 3) := by
    have h1 : ((lineOpen exEnvFL 4 (-2) 1 exRawFL exRawFL exZero53 exIm53).elim none
        fun e => match e with | .ok r => r.at? ⟨2, 0, 0⟩ | .error _ => none) = some (UINT8.wrap 3) := by decide +kernel
    cases e : lineOpen exEnvFL 4 (-2) 1 exRawFL exRawFL exZero53 exIm53 with
    | none => rw [e] at h1; simp at h1
    | some x =>
      rw [e] at h1
      cases x with
      | error c => simp at h1
      | ok r => exact ⟨r, rfl, h1⟩
  obtain ⟨res, e, h2⟩ := h
  refine ⟨exEnvFL, exRawFL, exZero53, exIm53, res, ⟨by decide, by decide, .inl rfl⟩, rfl, e, fun hle => ?_⟩
  have := hle.2 ⟨2, 0, 0⟩ _ (UINT8.wrap 0) h2 (by decide)
  exact absurd this (by decide)

/-! ### Examples -/

/-- The hypotheses of `C64_dilate_partial` in four directions. -/
example : LineOk ⟨5, 3, 1⟩ 5 0 1 ∧ LineOk ⟨5, 3, 1⟩ 0 (-5) 3 ∧ LineOk ⟨5, 3, 1⟩ 3 (-3) 2 ∧ LineOk ⟨5, 3, 1⟩ (-4) (-2) 7 := by
  refine ⟨.inl (by decide), .inr (.inl (by decide)), .inr (.inr (.inl (by decide))), .inr (.inr (.inr (by decide)))⟩

example : Accepts exEnvFL exIm53 exZero53 ∧ exIm53.dims.d = 1 ∧ exIm53.dims.w < 2 ^ 31 := ⟨⟨by decide, by decide, .inl rfl⟩, rfl, by decide⟩

example : vals8 (lineDilate exEnvFL false 5 0 1 exRawFL exIm53 exZero53) =
    [2, 3, 4, 5, 5, 7, 8, 9, 10, 10, 12, 13, 14, 15, 15] := by decide +kernel
example : vals8 (lineDilate exEnvFL true 4 2 1 exRawFL exIm53 exIm53) =
    [7, 3, 9, 5, 5, 12, 8, 14, 10, 10, 11, 13, 13, 15, 15] := by decide +kernel
example : vals8 (lineDilate exEnvFL false 4 (-4) 1 exRawFL exIm53 exZero53) =
    [1, 6, 7, 8, 9, 6, 11, 12, 13, 14, 11, 12, 13, 14, 15] := by decide +kernel
/-- The pixel (0, 2) keeps the value 0 (see `C64_posdiag_bug`). -/
example : vals8 (lineDilate exEnvFL false 4 4 1 exRawFL exIm53 exZero53) =
    [7, 8, 9, 10, 5, 12, 13, 14, 15, 10, 0, 12, 13, 14, 15] := by decide +kernel
/-- Lines of five pixels and the radius 2 (see `C64_width_ub`). -/
example : (lineDilate exEnvFL false 5 0 2 exRawFL exIm53 exZero53).isNone = true := by decide +kernel
example : vals8 (squareDilate exEnvFL 2 exRawFL exRawFL (im8 ⟨4, 3, 1⟩ [0, 0, 0, 0, 0, 5, 0, 0, 0, 0, 0, 7])
    (im8 ⟨4, 3, 1⟩ [])) = [5, 7, 7, 7, 5, 7, 7, 7, 5, 7, 7, 7] := by decide +kernel
example : vals8 (lineOpen exEnvFL 5 0 1 exRawFL exRawFL (im8 ⟨5, 1, 1⟩ [0, 5, 5, 6, 1]) (im8 ⟨5, 1, 1⟩ [])) =
    [0, 5, 5, 5, 1] := by decide +kernel
/-- The segment around (2, 1) in the direction (4, 2): (1, 1) and (3, 2). -/
example : segRel 4 2 1 ⟨1, 1, 0⟩ ⟨2, 1, 0⟩ ∧ segRel 4 2 1 ⟨3, 2, 0⟩ ⟨2, 1, 0⟩ ∧ ¬ segRel 4 2 1 ⟨3, 1, 0⟩ ⟨2, 1, 0⟩ := by
  refine ⟨⟨rfl, ?_⟩, ⟨rfl, ?_⟩, fun h => ?_⟩
  · rw [if_pos (by decide)]; decide
  · rw [if_pos (by decide)]; decide
  · unfold segRel at h
    rw [if_pos (by decide)] at h
    exact absurd h.2.2 (by decide)

end Smil
