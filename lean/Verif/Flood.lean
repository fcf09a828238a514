import Verif.HierarQLemmas
import Verif.ImgOps

/-!
# Neighbours of an offset

The way the queue based algorithms walk through the structuring element
(DMorphoGeodesic.hpp:286-325, DMorphoWatershed.hpp:185-214).
-/

namespace Smil

/-- `off % w`, `(off % (w*h)) / w`, `off / (w*h)`: `getCoordsFromOffset`, DBaseImage.h:257-263,
DMorphoWatershed.hpp:84-90, as a point. -/
def coordPt (D : Dims) (off : Nat) : IntPoint :=
  ⟨(off % D.w : Nat), ((off % (D.w * D.h)) / D.w : Nat), (off / (D.w * D.h) : Nat)⟩

/-- The correction of odd lines, `(y + 1) % 2 != 0` where `%` truncates. -/
def oddCorr (se : StrElt) (y0 y : Int) : Int :=
  if (se.odd = true ∧ y0 % 2 = 1) ∧ Int.tmod (y + 1) 2 ≠ 0 then 1 else 0

/-- The offset reached from `cur` by the point `b` of the element; `none` when the target is outside
of the image or `b` is the origin. DMorphoGeodesic.hpp:294-313, DMorphoWatershed.hpp:196-213. The
offsets are kept as exact integers: the code stores them in `int` and adds them in `size_t`, which
is the same for images of fewer than 2^31 pixels. -/
def nbOffset (D : Dims) (se : StrElt) (cur : Nat) (b : IntPoint) : Option Nat :=
  if b.x ≠ 0 ∨ b.y ≠ 0 ∨ b.z ≠ 0 then
    let c := coordPt D cur
    let y := c.y + b.y
    let z := c.z + b.z
    let x := c.x + b.x + oddCorr se c.y y
    if Img.In D ⟨x, y, z⟩ then
      some (cur + (b.x + b.y * D.w + b.z * D.w * D.h) + oddCorr se c.y y : Int).toNat
    else none
  else none

/-- The offsets visited from `cur`, in the order of the points of the element. -/
def nbOffsets (D : Dims) (se : StrElt) (cur : Nat) : List Nat := se.points.filterMap (nbOffset D se cur)

/-- Raster index of a point. -/
def offOf (D : Dims) (p : IntPoint) : Nat := rasterIndex D.w D.h p.x.toNat p.y.toNat p.z.toNat

theorem offOf_lt {D : Dims} {p : IntPoint} (h : Img.In D p) : offOf D p < D.count := by
  unfold Img.In at h
  exact rasterIndex_lt (by omega) (by omega) (by omega)

theorem coordPt_offOf {D : Dims} {p : IntPoint} (h : Img.In D p) : coordPt D (offOf D p) = p := by
  unfold Img.In at h
  obtain ⟨h1, h2, h3⟩ := rasterIndex_div (w := D.w) (h := D.h) (x := p.x.toNat) (y := p.y.toNat)
    (z := p.z.toNat) (by omega) (by omega)
  unfold coordPt offOf
  rw [h1, h2, h3]
  obtain ⟨x, y, z⟩ := p
  simp only at h
  simp only [IntPoint.mk.injEq]
  omega

theorem offOf_inj {D : Dims} {p q : IntPoint} (h : Img.In D p) (h' : Img.In D q)
    (e : offOf D p = offOf D q) : p = q := by
  rw [← coordPt_offOf h, e, coordPt_offOf h']

theorem coordPt_in {D : Dims} {i : Nat} (h : i < D.count) :
    Img.In D (coordPt D i) ∧ offOf D (coordPt D i) = i := by
  unfold Dims.count at h
  have hw : 0 < D.w := by
    rcases Nat.eq_zero_or_pos D.w with h' | h'
    · rw [h'] at h; simp at h
    · exact h'
  have hh : 0 < D.h := by
    rcases Nat.eq_zero_or_pos D.h with h' | h'
    · rw [h'] at h; simp at h
    · exact h'
  have hy : i % (D.w * D.h) / D.w < D.h := by
    rw [Nat.div_lt_iff_lt_mul hw, Nat.mul_comm D.h]
    exact Nat.mod_lt _ (Nat.mul_pos hw hh)
  have hz : i / (D.w * D.h) < D.d := by
    rw [Nat.div_lt_iff_lt_mul (Nat.mul_pos hw hh), Nat.mul_comm D.w, ← Nat.mul_assoc]
    exact h
  have hx : i % D.w < D.w := Nat.mod_lt _ hw
  refine ⟨?_, ?_⟩
  · unfold Img.In coordPt
    generalize i % (D.w * D.h) / D.w = a at *
    generalize i / (D.w * D.h) = b at *
    generalize i % D.w = c at *
    simp only; omega
  · unfold offOf coordPt rasterIndex
    simp only [Int.toNat_natCast]
    rw [Nat.mod_mul_right_div_self, ← Nat.div_div_eq_div_mul]
    have h1 := Nat.mod_add_div i D.w
    have h2 := Nat.mod_add_div (i / D.w) D.h
    rw [h2, h1]

theorem offOf_int {D : Dims} {p : IntPoint} (h : Img.In D p) :
    (offOf D p : Int) = p.x + p.y * D.w + p.z * D.w * D.h := by
  unfold Img.In at h
  unfold offOf rasterIndex
  push_cast
  rw [Int.toNat_of_nonneg h.1, Int.toNat_of_nonneg h.2.2.1, Int.toNat_of_nonneg h.2.2.2.2.1]
  ring

theorem Img.buf_offOf {α : Type} (im : Img α) (p : IntPoint) (h : Img.In im.dims p) :
    im.at? p = some (im.buf (offOf im.dims p)) := by
  rw [Img.at?_some im p h]; rfl

/-- The point reached geometrically. -/
def reachPt (se : StrElt) (q b : IntPoint) : IntPoint :=
  ⟨q.x + b.x + oddCorr se q.y (q.y + b.y), q.y + b.y, q.z + b.z⟩

/-- On lines of non-negative ordinate the correction is the geometric one. -/
theorem phys_reachPt (se : StrElt) (q b : IntPoint) (hy : 0 ≤ q.y + b.y) :
    phys se.odd q + phys se.odd b = phys se.odd (reachPt se q b) := by
  have htm : Int.tmod (q.y + b.y + 1) 2 = (q.y + b.y + 1) % 2 :=
    Int.tmod_eq_emod_of_nonneg (by omega)
  cases ho : se.odd
  · simp only [phys, reachPt, oddCorr, ho, Prod.mk_add_mk, Prod.mk.injEq, and_true]
    simp; ring
  · simp only [phys, reachPt, oddCorr, ho, Prod.mk_add_mk, Prod.mk.injEq, and_true, true_and, htm]
    split_ifs <;> omega

theorem nbOffset_eq {D : Dims} {se : StrElt} {q b : IntPoint} (hq : Img.In D q) (n : Nat) :
    nbOffset D se (offOf D q) b = some n ↔
      b ≠ ⟨0, 0, 0⟩ ∧ Img.In D (reachPt se q b) ∧ offOf D (reachPt se q b) = n := by
  unfold nbOffset
  have hb : (b.x ≠ 0 ∨ b.y ≠ 0 ∨ b.z ≠ 0) ↔ b ≠ ⟨0, 0, 0⟩ := by
    obtain ⟨x, y, z⟩ := b
    simp only [ne_eq, IntPoint.mk.injEq]
    omega
  by_cases h0 : b ≠ ⟨0, 0, 0⟩
  · rw [if_pos (hb.mpr h0)]
    simp only [coordPt_offOf hq]
    change (if Img.In D (reachPt se q b) then _ else _) = _ ↔ _
    by_cases hin : Img.In D (reachPt se q b)
    · rw [if_pos hin]
      have e : (offOf D q + (b.x + b.y * D.w + b.z * D.w * D.h) + oddCorr se q.y (q.y + b.y) : Int) =
          offOf D (reachPt se q b) := by
        rw [offOf_int hin, offOf_int hq]
        simp only [reachPt]; ring
      rw [e]
      simp [h0, hin]
    · rw [if_neg hin]; simp [hin]
  · rw [if_neg (fun h => h0 (hb.mp h))]; simp [h0]

/-- The neighbours of an offset are the pixels reached geometrically by the other points of the
element, and they are in the image. -/
theorem mem_nbOffsets {D : Dims} {se : StrElt} {q : IntPoint} (hq : Img.In D q) (n : Nat) :
    n ∈ nbOffsets D se (offOf D q) ↔ ∃ p, Img.In D p ∧ offOf D p = n ∧
      ∃ b ∈ se.points, b ≠ ⟨0, 0, 0⟩ ∧ phys se.odd q + phys se.odd b = phys se.odd p := by
  unfold nbOffsets
  rw [List.mem_filterMap]
  constructor
  · rintro ⟨b, hb, h⟩
    rw [nbOffset_eq hq] at h
    refine ⟨_, h.2.1, h.2.2, b, hb, h.1, ?_⟩
    have := h.2.1
    unfold Img.In reachPt at this
    simp only at this
    exact phys_reachPt se q b this.2.2.1
  · rintro ⟨p, hp, hn, b, hb, h0, h⟩
    refine ⟨b, hb, ?_⟩
    rw [nbOffset_eq hq]
    have hy : q.y + b.y = p.y := by
      have := congrArg (fun t => t.2.1) h
      simpa [phys] using this
    have hyp : 0 ≤ q.y + b.y := by rw [hy]; unfold Img.In at hp; omega
    have e := phys_inj _ _ _ ((phys_reachPt se q b hyp).symm.trans h)
    rw [e]
    exact ⟨h0, hp, hn⟩

theorem nbOffsets_lt {D : Dims} {se : StrElt} {i n : Nat} (hi : i < D.count)
    (h : n ∈ nbOffsets D se i) : n < D.count := by
  obtain ⟨h1, h2⟩ := coordPt_in hi
  rw [← h2, mem_nbOffsets h1] at h
  obtain ⟨p, hp, rfl, _⟩ := h
  exact offOf_lt hp

/-- Steps of a relation between pixels, apart from staying in place, are the neighbour lists. -/
theorem seRel_nb {D : Dims} {se : StrElt} {q p : IntPoint} (hq : Img.In D q) (hp : Img.In D p)
    (hne : q ≠ p) : seRel se q p ↔ offOf D p ∈ nbOffsets D se (offOf D q) := by
  rw [mem_nbOffsets hq]
  constructor
  · rintro ⟨b, hb, h⟩
    refine ⟨p, hp, rfl, b, hb, ?_, h⟩
    rintro rfl
    apply hne
    apply phys_inj se.odd
    rw [← h]; simp [phys]
  · rintro ⟨p', hp', e, b, hb, _, h⟩
    rw [offOf_inj hp' hp e] at h
    exact ⟨b, hb, h⟩

end Smil
