import Verif.Coords

/-!
# C01, C02: offsets, coordinates, cursor
-/

namespace Smil

/-- Specification: linear position of a pixel when the image is listed row by row, slice by
slice. -/
def rasterIndex (w h : Nat) (x y z : Nat) : Nat := x + w * (y + h * z)

theorem rasterIndex_lt {w h d x y z : Nat} (hx : x < w) (hy : y < h) (hz : z < d) :
    rasterIndex w h x y z < d * h * w := by
  unfold rasterIndex
  have h1 : y + h * z < h * d := by
    have : h * z + h ≤ h * d := by
      rw [← Nat.mul_succ]; exact Nat.mul_le_mul_left h hz
    omega
  have h2 : w * (y + h * z) + w ≤ w * (h * d) := by
    rw [← Nat.mul_succ]; exact Nat.mul_le_mul_left w h1
  have h3 : w * (h * d) = d * h * w := by ring
  omega

theorem rasterIndex_div {w h x y z : Nat} (hx : x < w) (hy : y < h) :
    rasterIndex w h x y z % w = x ∧
    (rasterIndex w h x y z % (w * h)) / w = y ∧
    rasterIndex w h x y z / (w * h) = z := by
  unfold rasterIndex
  have hw : 0 < w := by omega
  have hlt : x + w * y < w * h := by
    have : w * y + w ≤ w * h := by
      rw [← Nat.mul_succ]; exact Nat.mul_le_mul_left w hy
    omega
  have e : x + w * (y + h * z) = (x + w * y) + w * h * z := by ring
  refine ⟨?_, ?_, ?_⟩
  · rw [Nat.add_mul_mod_self_left, Nat.mod_eq_of_lt hx]
  · rw [e, Nat.add_mul_mod_self_left, Nat.mod_eq_of_lt hlt, Nat.add_mul_div_left _ _ hw,
      Nat.div_eq_of_lt hx, Nat.zero_add]
  · rw [e, Nat.add_mul_div_left _ _ (by omega), Nat.div_eq_of_lt hlt, Nat.zero_add]

/-- **C01 (forward)**: in-image coordinates get an offset below the pixel count, the raster
index; all other coordinates are rejected. -/
theorem C01_offset (D : Dims) (x y z : Nat) :
    (D.isCoordsInImage x y z = true →
      D.getOffsetFromCoords x y z = some (rasterIndex D.w D.h x y z) ∧
      rasterIndex D.w D.h x y z < D.count) ∧
    (D.isCoordsInImage x y z = false → D.getOffsetFromCoords x y z = none) := by
  unfold Dims.isCoordsInImage Dims.getOffsetFromCoords Dims.count
  constructor
  · intro h
    have hh : x < D.w ∧ y < D.h ∧ z < D.d := by
      by_contra hc
      rw [if_neg (by omega), if_pos (by omega)] at h
      exact absurd h (by simp)
    rw [if_neg (by omega), if_neg (by omega), if_neg (by omega)]
    refine ⟨?_, rasterIndex_lt hh.1 hh.2.1 hh.2.2⟩
    congr 1
    unfold rasterIndex
    ring
  · intro h
    have hh : ¬ (x < D.w ∧ y < D.h ∧ z < D.d) := by
      intro hc
      rw [if_neg (by omega), if_neg (by omega)] at h
      exact absurd h (by simp)
    split_ifs <;> first | rfl | omega

/-- **C01 (inverse)**: the coordinates of an offset of an in-image pixel are the pixel. -/
theorem C01_coords_of_offset (D : Dims) (x y z off : Nat)
    (h : D.getOffsetFromCoords x y z = some off) :
    D.getCoordsFromOffset off = some (x, y, z) := by
  unfold Dims.getOffsetFromCoords at h
  split_ifs at h with h1 h2 h3
  have hx : x < D.w := by omega
  have hy : y < D.h := by omega
  obtain rfl := Option.some.inj h
  have e : z * D.w * D.h + y * D.w + x = rasterIndex D.w D.h x y z := by
    unfold rasterIndex; ring
  obtain ⟨r1, r2, r3⟩ := rasterIndex_div (z := z) hx hy
  have hwh : D.w * D.h ≠ 0 := by
    exact Nat.mul_ne_zero (by omega) (by omega)
  unfold Dims.getCoordsFromOffset
  rw [if_neg (by omega), e, r1, r2, r3]

/-- **C01 (surjective)**: every offset below the pixel count is the offset of the in-image
pixel returned by `getCoordsFromOffset`. -/
theorem C01_offset_of_coords (D : Dims) (off : Nat) (h : off < D.count) :
    ∃ x y z, D.getCoordsFromOffset off = some (x, y, z) ∧
      D.isCoordsInImage x y z = true ∧ D.getOffsetFromCoords x y z = some off := by
  unfold Dims.count at h
  have hw : 0 < D.w := Nat.pos_of_ne_zero (by intro e; rw [e] at h; simp at h)
  have hh : 0 < D.h := Nat.pos_of_ne_zero (by intro e; rw [e] at h; simp at h)
  have hwh : 0 < D.w * D.h := Nat.mul_pos hw hh
  have hx : off % D.w < D.w := Nat.mod_lt _ hw
  have hy : (off % (D.w * D.h)) / D.w < D.h := by
    rw [Nat.div_lt_iff_lt_mul hw, mul_comm D.h]
    exact Nat.mod_lt _ hwh
  have hz : off / (D.w * D.h) < D.d := by
    rw [Nat.div_lt_iff_lt_mul hwh]
    have : D.d * (D.w * D.h) = D.d * D.h * D.w := by ring
    omega
  refine ⟨off % D.w, off % (D.w * D.h) / D.w, off / (D.w * D.h), ?_, ?_, ?_⟩
  · unfold Dims.getCoordsFromOffset
    rw [if_neg (by omega)]
  · generalize off % D.w = a at *
    generalize off % (D.w * D.h) / D.w = b at *
    generalize off / (D.w * D.h) = c at *
    unfold Dims.isCoordsInImage
    rw [if_neg (by omega), if_neg (by omega)]
  · unfold Dims.getOffsetFromCoords
    rw [if_neg (by omega), if_neg (by omega), if_neg (by omega)]
    congr 1
    have e1 := Nat.div_add_mod off (D.w * D.h)
    have e2 := Nat.div_add_mod (off % (D.w * D.h)) D.w
    have e3 : off % (D.w * D.h) % D.w = off % D.w := Nat.mod_mul_right_mod _ _ _
    rw [e3] at e2
    have e4 : off / (D.w * D.h) * D.w * D.h = D.w * D.h * (off / (D.w * D.h)) := by ring
    have e5 : off % (D.w * D.h) / D.w * D.w = D.w * (off % (D.w * D.h) / D.w) := by ring
    omega

/-- **C01 (injective)**: distinct pixels have distinct offsets. -/
theorem C01_injective (D : Dims) (x y z x' y' z' off : Nat)
    (h : D.getOffsetFromCoords x y z = some off) (h' : D.getOffsetFromCoords x' y' z' = some off) :
    x = x' ∧ y = y' ∧ z = z' := by
  have h1 := C01_coords_of_offset D _ _ _ _ h
  have h2 := C01_coords_of_offset D _ _ _ _ h'
  rw [h1] at h2
  simpa using h2

/-- `isOffsetInImage` accepts one offset too many: the pixel count itself. -/
theorem C01_isOffsetInImage_bug (D : Dims) :
    D.isOffsetInImage D.count = true ∧
    ∀ x y z, D.getOffsetFromCoords x y z ≠ some D.count := by
  refine ⟨by simp [Dims.isOffsetInImage], fun x y z h => ?_⟩
  by_cases hc : D.isCoordsInImage x y z = true
  · obtain ⟨h1, h2⟩ := (C01_offset D x y z).1 hc
    rw [h1] at h
    have := Option.some.inj h
    omega
  · rw [(C01_offset D x y z).2 (by simpa using hc)] at h
    exact absurd h (by simp)

/-- `isOffsetInImage` is right for every other offset. -/
theorem C01_isOffsetInImage_partial (D : Dims) (off : Int) (h : off ≠ D.count) :
    D.isOffsetInImage off = true ↔ ∃ x y z n, D.getOffsetFromCoords x y z = some n ∧ off = n := by
  unfold Dims.isOffsetInImage
  constructor
  · intro hh
    have h1 : 0 ≤ off ∧ off < D.count := by
      split_ifs at hh
      omega
    obtain ⟨x, y, z, -, -, ho⟩ := C01_offset_of_coords D off.toNat (by omega)
    exact ⟨x, y, z, off.toNat, ho, by omega⟩
  · rintro ⟨x, y, z, n, ho, rfl⟩
    have hc : D.isCoordsInImage x y z = true := by
      by_contra hc
      rw [(C01_offset D x y z).2 (by simpa using hc)] at ho
      exact absurd ho (by simp)
    obtain ⟨h1, h2⟩ := (C01_offset D x y z).1 hc
    rw [h1] at ho
    have := Option.some.inj ho
    rw [if_neg (by omega), if_neg (by omega)]

/-- With the default third argument a 2D image has no valid coordinates at all. -/
theorem C01_default_depth_bug (D : Dims) (h : D.d = 1) (x y : Nat) :
    D.getOffsetFromCoords x y = none := by
  unfold Dims.getOffsetFromCoords
  split_ifs <;> first | rfl | omega

example : (Dims.mk 5 3 2).getOffsetFromCoords 4 2 1 = some 29 ∧
    (Dims.mk 5 3 2).getCoordsFromOffset 29 = some (4, 2, 1) := by decide

/-! ## C02 -/

/-- Cursor invariant: the reported offset is the raster offset of the reported point. -/
def CursorOK (b : ImageBox) : Prop :=
  b.reference = b.pt.x + b.width * (b.pt.y + b.height * b.pt.z)

/-- The calls that compute the offset with the right strides. -/
def Move.Sound : Move → Prop
  | .setXYZ _ _ _ => True
  | .setOff _ => True
  | .shiftPt _ => True
  | .setPt _ => False
  | .shiftXYZ _ _ _ => False

theorem C02_step (b b' : ImageBox) (m : Move) (hm : m.Sound) (hb : b.move m = some b')
    : CursorOK b' ∧ b'.width = b.width ∧ b'.height = b.height ∧ b'.depth = b.depth := by
  cases m with
  | setXYZ x y z =>
      simp only [ImageBox.move, Option.some.injEq] at hb
      subst hb
      refine ⟨?_, rfl, rfl, rfl⟩
      simp only [CursorOK, ImageBox.setReferenceXYZ]; ring
  | setPt p => exact absurd hm (by simp [Move.Sound])
  | setOff o =>
      simp only [ImageBox.move, ImageBox.setReferenceOff] at hb
      split_ifs at hb with h0
      simp only [Option.some.injEq] at hb
      subst hb
      refine ⟨?_, rfl, rfl, rfl⟩
      simp only [CursorOK]
      have h1 := Int.mul_tdiv_add_tmod o b.width
      have h2 : (o - o.tmod b.width).tdiv b.width = o.tdiv b.width := by
        have : o - o.tmod b.width = b.width * o.tdiv b.width := by omega
        rw [this, Int.mul_tdiv_cancel_left _ (by omega)]
      rw [h2]
      have h3 := Int.mul_tdiv_add_tmod (o.tdiv b.width) b.height
      have h4 : (o.tdiv b.width - (o.tdiv b.width).tmod b.height).tdiv b.height
          = (o.tdiv b.width).tdiv b.height := by
        have : o.tdiv b.width - (o.tdiv b.width).tmod b.height
            = b.height * (o.tdiv b.width).tdiv b.height := by omega
        rw [this, Int.mul_tdiv_cancel_left _ (by omega)]
      rw [h4]
      have h5 : (o.tdiv b.width).tmod b.height + b.height * (o.tdiv b.width).tdiv b.height
          = o.tdiv b.width := by omega
      rw [h5]; omega
  | shiftXYZ x y z => exact absurd hm (by simp [Move.Sound])
  | shiftPt p =>
      simp only [ImageBox.move, Option.some.injEq] at hb
      subst hb
      refine ⟨?_, rfl, rfl, rfl⟩
      simp only [CursorOK, ImageBox.shiftPt]; ring

/-- **C02, partial**: after any sequence of `setReference(x,y,z)`, `setReference(offset)` and
`shift(IntPoint)` calls the offset is that of the point.  Missing: the overloads
`setReference(IntPoint)` and `shift(dx,dy,dz)`, whose strides are wrong (see below). -/
theorem C02_cursor_partial (w h d : Int) (ms : List Move) (hms : ∀ m ∈ ms, m.Sound)
    (b : ImageBox) (hb : (ImageBox.mk' w h d).moves ms = some b) :
    CursorOK b ∧ b.width = w ∧ b.height = h ∧ b.depth = d := by
  have key : ∀ (ms : List Move) (b0 b : ImageBox), (∀ m ∈ ms, m.Sound) → CursorOK b0 →
      b0.moves ms = some b →
      CursorOK b ∧ b.width = b0.width ∧ b.height = b0.height ∧ b.depth = b0.depth := by
    intro ms
    induction ms with
    | nil =>
        intro b0 b _ h0 hb
        simp only [ImageBox.moves, Option.some.injEq] at hb
        subst hb
        exact ⟨h0, rfl, rfl, rfl⟩
    | cons m ms ih =>
        intro b0 b hs h0 hb
        simp only [ImageBox.moves] at hb
        cases hm : b0.move m with
        | none => rw [hm] at hb; exact absurd hb (by simp)
        | some b1 =>
            rw [hm, Option.bind_some] at hb
            obtain ⟨c1, c2, c3, c4⟩ := C02_step b0 b1 m (hs m (by simp)) hm
            obtain ⟨e1, e2, e3, e4⟩ := ih b1 b (fun m' hm' => hs m' (by simp [hm'])) c1 hb
            exact ⟨e1, e2.trans c2, e3.trans c3, e4.trans c4⟩
  have := key ms (ImageBox.mk' w h d) b hms (by simp [CursorOK, ImageBox.mk']) hb
  simpa [ImageBox.mk'] using this

/-- On a 5x3 image `setReference(IntPoint(0,1,0))` reports offset 3 instead of 5. -/
theorem C02_setReferencePt_bug :
    ((ImageBox.mk' 5 3 1).setReferencePt ⟨0, 1, 0⟩).reference = 3 ∧
    (ImageBox.mk' 5 3 1).getOffset ⟨0, 1, 0⟩ = 5 := by decide

/-- On a 5x3 image `shift(0,1,0)` from the origin reports offset 25 instead of 5. -/
theorem C02_shiftXYZ_bug :
    ((ImageBox.mk' 5 3 1).shiftXYZ 0 1 0).reference = 25 ∧
    (ImageBox.mk' 5 3 1).getOffset ⟨0, 1, 0⟩ = 5 := by decide

/-- `setReference(IntPoint)` is right exactly when `y*height + z*w*h = y*width + z*w*h`, i.e.
on the first row of each slice or on square images. -/
theorem C02_setReferencePt_iff (b : ImageBox) (p : IntPoint) :
    CursorOK (b.setReferencePt p) ↔ p.y = 0 ∨ b.width = b.height := by
  simp only [CursorOK, ImageBox.setReferencePt]
  constructor
  · intro h
    have : p.y * (b.width - b.height) = 0 := by linarith
    rcases mul_eq_zero.mp this with h | h
    · exact Or.inl h
    · exact Or.inr (by omega)
  · rintro (h | h)
    · rw [h]; ring
    · rw [h]; ring

/-- `getCoords` inverts `getOffset` on in-image points. -/
theorem C02_getCoords_getOffset (b : ImageBox) (p : IntPoint) (hp : b.inImage p = true) :
    b.getCoords (b.getOffset p) = some p := by
  simp only [ImageBox.inImage, decide_eq_true_eq] at hp
  obtain ⟨h1, h2, h3, h4, h5, h6⟩ := hp
  have hw : b.width ≠ 0 := by omega
  have hh : b.height ≠ 0 := by omega
  have hyz : 0 ≤ p.y + p.z * b.height := by
    have : 0 ≤ p.z * b.height := mul_nonneg (by omega) (by omega)
    omega
  have hpos : 0 ≤ b.getOffset p := by
    unfold ImageBox.getOffset
    have : 0 ≤ b.width * (p.y + p.z * b.height) := mul_nonneg (by omega) hyz
    omega
  unfold ImageBox.getCoords
  rw [if_neg (by omega)]
  have e1 : (b.getOffset p).tmod b.width = p.x := by
    rw [Int.tmod_eq_emod_of_nonneg hpos]
    unfold ImageBox.getOffset
    rw [Int.add_mul_emod_self_left, Int.emod_eq_of_lt h1 h2]
  have e2 : (b.getOffset p - p.x).tdiv b.width = p.y + p.z * b.height := by
    have : b.getOffset p - p.x = b.width * (p.y + p.z * b.height) := by
      unfold ImageBox.getOffset; ring
    rw [this, Int.mul_tdiv_cancel_left _ hw]
  have e3 : (p.y + p.z * b.height).tmod b.height = p.y := by
    rw [Int.tmod_eq_emod_of_nonneg hyz, Int.add_mul_emod_self_right, Int.emod_eq_of_lt h3 h4]
  have e4 : (p.y + p.z * b.height - p.y).tdiv b.height = p.z := by
    have : p.y + p.z * b.height - p.y = p.z * b.height := by ring
    rw [this, Int.mul_tdiv_cancel _ hh]
  simp only [e1, e2, e3, e4]

example : ((ImageBox.mk' 5 3 4).moves
    [.setXYZ 1 2 3, .shiftPt ⟨1, -1, -2⟩, .setOff 29, .shiftPt ⟨-1, -1, 0⟩]).map
      (fun b => (b.pt, b.reference)) = some (⟨3, 1, 1⟩, 23) := by decide

end Smil
