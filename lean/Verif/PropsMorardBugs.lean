import Verif.PropsMorard
import Verif.PropsFastLineBugs

/-! # C65: slopes for which the opening is wrong, and examples -/

namespace Smil

/-- The arrays of the examples before they are written. -/
def exRawM : MorSt (Px UINT8) := ⟨7, fun _ => ⟨3, true, UINT8.wrap 70⟩, 5, fun _ => 1, fun _ => UINT8.wrap 71⟩

/-- The value of a pixel of the result of `imFastLineOpen`. -/
def morAt (dx dy r : Int) (im out : Img (Px UINT8)) (p : IntPoint) : Option (Px UINT8) :=
  (fastLineOpen exEnvFL false dx dy r exRawM im out).elim none
    fun e => match e with | .ok r => r.at? p | .error _ => none

theorem morAt_some {dx dy r : Int} {im out : Img (Px UINT8)} {p : IntPoint} {v : Px UINT8} (h : morAt dx dy r im out p = some v) :
    ∃ res, fastLineOpen exEnvFL false dx dy r exRawM im out = some (.ok res) ∧ res.at? p = some v := by
  unfold morAt at h
  cases e : fastLineOpen exEnvFL false dx dy r exRawM im out with
  | none => rw [e] at h; simp at h
  | some x =>
    rw [e] at h
    cases x with
    | error c => simp at h
    | ok r => exact ⟨r, rfl, h⟩

/-- Two lines, the first one rising. -/
def exRise : Img (Px UINT8) := im8 ⟨5, 2, 1⟩ [1, 2, 3, 4, 5, 1, 2, 3, 4, 5]
def exOut52 : Img (Px UINT8) := im8 ⟨5, 2, 1⟩ []

/-- **C65 fails** for flat slopes and short runs: the loop `do ... while (nx > 0)` of `LineOpeningDiag` calls
`EndProcess` once more after a line without any pixel (lines 435-440), and this call fills the last line with the lowest
value on the stack. On an image of 5 x 2 pixels, with `dx = 4`, `dy = 1` and runs of three pixels, the pixel (2, 0) is on
the run 3, 4, 5 and becomes 2. -/
theorem C65_stale_bug : ∃ (E : Env (Px UINT8)) (raw : MorSt (Px UINT8)) (im out res : Img (Px UINT8)),
    Accepts E im out ∧ im.dims = ⟨5, 2, 1⟩ ∧ fastLineOpen E false 4 1 1 raw im out = some (.ok res) ∧
      ¬ IsRunOpen 4 1 3 im res := by
  obtain ⟨res, e, h⟩ := morAt_some (show morAt 4 1 1 exRise exOut52 ⟨2, 0, 0⟩ = some (UINT8.wrap 2) by decide +kernel)
  refine ⟨exEnvFL, exRawM, exRise, exOut52, res, ⟨by decide, by decide, .inl rfl⟩, rfl, e, fun hr => ?_⟩
  obtain ⟨v, e1, -, hub⟩ := hr.2 ⟨2, 0, 0⟩ (by decide)
  rw [h] at e1
  cases e1
  refine absurd (hub (a := UINT8.wrap 3) ⟨2, 4, by decide, by decide, .inl (by decide), fun m h1 h2 => ?_⟩) (by decide)
  obtain rfl | rfl | rfl : m = 2 ∨ m = 3 ∨ m = 4 := by omega
  · exact ⟨UINT8.wrap 3, by decide, by decide⟩
  · exact ⟨UINT8.wrap 4, by decide, by decide⟩
  · exact ⟨UINT8.wrap 5, by decide, by decide⟩

/-- **C65 fails** for slopes with `dx * dy < 0` other than the diagonal: as in C64, `ComputeBresenhamLineNX` leaves pixels
of the border aside (line 258). They keep what the output held before: the opening can exceed the image. -/
theorem C65_missed_bug : ∃ (E : Env (Px UINT8)) (raw : MorSt (Px UINT8)) (im out res : Img (Px UINT8)),
    Accepts E im out ∧ im.dims = ⟨5, 3, 1⟩ ∧ fastLineOpen E false 4 (-2) 1 raw im out = some (.ok res) ∧ ¬ Img.Le res im := by
  obtain ⟨res, e, h⟩ := morAt_some (show morAt 4 (-2) 1 exZero53 exIm53 ⟨2, 0, 0⟩ = some (UINT8.wrap 3) by decide +kernel)
  refine ⟨exEnvFL, exRawM, exZero53, exIm53, res, ⟨by decide, by decide, .inl rfl⟩, rfl, e, fun hr => ?_⟩
  exact absurd (hr.2 ⟨2, 0, 0⟩ _ (UINT8.wrap 0) h (by decide)) (by decide)

/-- **C65 fails** on the diagonal `dx = dy` for images of one line too: the first line starts at `y = -1` and has one
pixel, for which `ComputeLinePosDiag` returns 0. One pixel out of the image is written, and nothing else. -/
theorem C65_posdiag_row_bug : ∃ (E : Env (Px UINT8)) (raw : MorSt (Px UINT8)) (im out res : Img (Px UINT8)),
    Accepts E im out ∧ im.dims = ⟨4, 1, 1⟩ ∧ fastLineOpen E false 1 1 1 raw im out = some (.ok res) ∧ ¬ Img.Le res im := by
  obtain ⟨res, e, h⟩ := morAt_some (show morAt 1 1 1 (im8 ⟨4, 1, 1⟩ [1, 2, 3, 4]) (im8 ⟨4, 1, 1⟩ [9, 9, 9, 9]) ⟨2, 0, 0⟩ =
    some (UINT8.wrap 9) by decide +kernel)
  refine ⟨exEnvFL, exRawM, im8 ⟨4, 1, 1⟩ [1, 2, 3, 4], im8 ⟨4, 1, 1⟩ [9, 9, 9, 9], res, ⟨by decide, by decide, .inl rfl⟩, rfl, e, fun hr => ?_⟩
  exact absurd (hr.2 ⟨2, 0, 0⟩ _ (UINT8.wrap 3) h (by decide)) (by decide)

/-- **C65 fails** on volumes: only the first slice is treated. -/
theorem C65_volume_bug : ∃ (E : Env (Px UINT8)) (raw : MorSt (Px UINT8)) (im out res : Img (Px UINT8)),
    Accepts E im out ∧ im.dims = ⟨3, 1, 2⟩ ∧ fastLineOpen E false 1 0 1 raw im out = some (.ok res) ∧ ¬ Img.Le res im := by
  obtain ⟨res, e, h⟩ := morAt_some (show morAt 1 0 1 (im8 ⟨3, 1, 2⟩ [1, 2, 3, 1, 2, 3]) (im8 ⟨3, 1, 2⟩ [9, 9, 9, 9, 9, 9]) ⟨0, 0, 1⟩ =
    some (UINT8.wrap 9) by decide +kernel)
  refine ⟨exEnvFL, exRawM, im8 ⟨3, 1, 2⟩ [1, 2, 3, 1, 2, 3], im8 ⟨3, 1, 2⟩ [9, 9, 9, 9, 9, 9], res, ⟨by decide, by decide, .inl rfl⟩, rfl, e, fun hr => ?_⟩
  exact absurd (hr.2 ⟨0, 0, 1⟩ _ (UINT8.wrap 1) h (by decide)) (by decide)

/-- **C65 fails** to be the opening by the segment of `2 * r + 1` pixels that `open` and `lineOpen` compute: the erosion
of these ignores what is outside of the image, so that two pixels at the end of a line are kept by a segment of three. On
the line 5, 5, 0, 0 the function `lineOpen` gives 5, 5, 0, 0 and `imFastLineOpen` gives 0, 0, 0, 0. -/
theorem C65_border_bug : ∃ (E : Env (Px UINT8)) (raw : MorSt (Px UINT8)) (raw' : Nat → VH (Px UINT8)) (im out r1 r2 : Img (Px UINT8)),
    Accepts E im out ∧ fastLineOpen E false 1 0 1 raw im out = some (.ok r1) ∧
      lineOpen E 1 0 1 raw' raw' im out = some (.ok r2) ∧ r1.at? ⟨0, 0, 0⟩ ≠ r2.at? ⟨0, 0, 0⟩ := by
  obtain ⟨r1, e, h⟩ := morAt_some (show morAt 1 0 1 (im8 ⟨4, 1, 1⟩ [5, 5, 0, 0]) (im8 ⟨4, 1, 1⟩ []) ⟨0, 0, 0⟩ =
    some (UINT8.wrap 0) by decide +kernel)
  have h1 : ((lineOpen exEnvFL 1 0 1 exRawFL exRawFL (im8 ⟨4, 1, 1⟩ [5, 5, 0, 0]) (im8 ⟨4, 1, 1⟩ [])).elim none
        fun e => match e with | .ok r => r.at? ⟨0, 0, 0⟩ | .error _ => none) = some (UINT8.wrap 5) := by decide +kernel
  cases e' : lineOpen exEnvFL 1 0 1 exRawFL exRawFL (im8 ⟨4, 1, 1⟩ [5, 5, 0, 0]) (im8 ⟨4, 1, 1⟩ []) with
  | none => rw [e'] at h1; simp at h1
  | some x =>
    rw [e'] at h1
    cases x with
    | error c => simp at h1
    | ok r2 =>
      refine ⟨exEnvFL, exRawM, exRawFL, im8 ⟨4, 1, 1⟩ [5, 5, 0, 0], im8 ⟨4, 1, 1⟩ [], r1, r2, ⟨by decide, by decide, .inl rfl⟩, e, e', ?_⟩
      have h2 : r2.at? ⟨0, 0, 0⟩ = some (UINT8.wrap 5) := h1
      rw [h, h2]
      decide

/-- A case of `C65_open_partial`: slope 2/4, runs of three pixels. -/
example : Accepts exEnvFL exIm53 exZero53 ∧ exIm53.dims.d = 1 ∧ MorOk 4 2 1 ∧ (exIm53.dims.w ≤ 256 ∧ exIm53.dims.h ≤ 256) ∧
    morAt 4 2 1 exIm53 exZero53 ⟨4, 2, 0⟩ = some (UINT8.wrap 8) :=
  ⟨⟨by decide, by decide, .inl rfl⟩, rfl, by unfold MorOk; decide, by decide, by decide +kernel⟩

/-- A row with two peaks: the narrow one is removed. -/
example : (List.range 7).map (fun x => morAt 1 0 1 (im8 ⟨7, 1, 1⟩ [1, 8, 8, 1, 6, 7, 6]) (im8 ⟨7, 1, 1⟩ []) ⟨x, 0, 0⟩) =
    [1, 1, 1, 1, 6, 6, 6].map fun v => some (UINT8.wrap v) := by decide +kernel

/-- A ramp satisfies the hypotheses of `C65_stack_ub`. -/
example : ∃ im : Img (Px UINT16), im.dims = ⟨300, 1, 1⟩ ∧ ∀ i : Nat, i < 256 → ∀ u v, im.at? ⟨i, 0, 0⟩ = some u →
    im.at? ⟨i + 1, 0, 0⟩ = some v → u < v := by
  have hm : UINT16.hi = 65535 := by decide
  have hv : ∀ i : Nat, i < 300 → (UINT16.wrap (i : Int)).val = i := fun i hi =>
    PT.wrap_of_mem UINT16 (by change (0 : Int) ≤ i; omega) (by rw [hm]; omega)
  obtain ⟨D, hD, hw, hh, hd⟩ : ∃ D : Dims, D = ⟨300, 1, 1⟩ ∧ D.w = 300 ∧ D.h = 1 ∧ D.d = 1 := ⟨_, rfl, rfl, rfl, rfl⟩
  refine ⟨⟨D, fun i => UINT16.wrap i⟩, hD, fun i hi u v h1 h2 => ?_⟩
  have p1 : Img.In D ⟨i, 0, 0⟩ := by unfold Img.In; simp only; omega
  have p2 : Img.In D ⟨i + 1, 0, 0⟩ := by unfold Img.In; simp only; omega
  rw [Img.buf_offOf _ _ p1, (off_flat hd p1).1] at h1
  rw [Img.buf_offOf _ _ p2, (off_flat hd p2).1] at h2
  cases h1
  cases h2
  have e : ((i : Int) + 1).toNat = i + 1 := by omega
  simp only [Int.toNat_natCast, Int.toNat_zero, zero_mul, add_zero, mul_one, e]
  rw [Px.lt_iff, hv i (by omega), hv (i + 1) (by omega)]
  omega

end Smil
