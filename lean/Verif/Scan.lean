import Verif.Flood
import Mathlib.Data.List.Perm.Basic
import Mathlib.Data.List.Nodup
import Mathlib.Data.List.Range

/-!
# The pixels of an image in raster order

A specification of "all the pixels of an image" used to state what is counted or summed: the points of
the image, each once, with their values.
-/

namespace Smil

/-- The points of an image of dimensions `D`, slice by slice and line by line. -/
def scanPts (D : Dims) : List IntPoint :=
  (List.range D.d).flatMap fun z : Nat => (List.range D.h).flatMap fun y : Nat =>
    (List.range D.w).map fun x : Nat => ⟨(x : Int), (y : Int), (z : Int)⟩

/-- The points with their values. -/
def Img.scan {α : Type} (im : Img α) : List (IntPoint × α) :=
  (scanPts im.dims).filterMap fun p => (im.at? p).map fun v => (p, v)

/-- The values, in the order of the points. -/
def Img.vals {α : Type} (im : Img α) : List α := im.scan.map Prod.snd

theorem mem_scanPts (D : Dims) (p : IntPoint) : p ∈ scanPts D ↔ Img.In D p := by
  unfold scanPts Img.In
  simp only [List.mem_flatMap, List.mem_range, List.mem_map]
  constructor
  · rintro ⟨z, hz, y, hy, x, hx, rfl⟩
    simp only
    omega
  · rintro ⟨h1, h2, h3, h4, h5, h6⟩
    refine ⟨p.z.toNat, by omega, p.y.toNat, by omega, p.x.toNat, by omega, ?_⟩
    cases p
    simp only at *
    congr 1 <;> omega

theorem range_mul_map {β : Type} (a b : Nat) (f : Nat → β) :
    (List.range (a * b)).map f = (List.range a).flatMap fun i => (List.range b).map fun j =>
      f (i * b + j) := by
  induction a with
  | zero => simp
  | succ a ih =>
    rw [Nat.add_mul, Nat.one_mul, List.range_add, List.map_append, ih, List.range_succ,
      List.flatMap_append]
    simp [Function.comp_def]

/-- The points in raster order are the points of the offsets in increasing order. -/
theorem scanPts_eq (D : Dims) : scanPts D = (List.range D.count).map (coordPt D) := by
  unfold Dims.count
  rw [Nat.mul_assoc, range_mul_map]
  unfold scanPts
  apply List.flatMap_congr
  intro z _
  have := range_mul_map D.h D.w (fun j => coordPt D (z * (D.h * D.w) + j))
  rw [this]
  apply List.flatMap_congr
  intro y hy
  apply List.map_congr_left
  intro x hx
  rw [List.mem_range] at hx hy
  obtain ⟨h1, h2, h3⟩ := rasterIndex_div (w := D.w) (h := D.h) (x := x) (y := y) (z := z) hx hy
  have e : z * (D.h * D.w) + (y * D.w + x) = rasterIndex D.w D.h x y z := by
    unfold rasterIndex; ring
  unfold coordPt
  rw [e, h1, h2, h3]

theorem nodup_scanPts (D : Dims) : (scanPts D).Nodup := by
  rw [scanPts_eq]
  refine List.Nodup.map_on ?_ List.nodup_range
  intro i hi j hj h
  rw [List.mem_range] at hi hj
  rw [← (coordPt_in hi).2, h, (coordPt_in hj).2]

section
variable {α : Type}

theorem Img.scan_eq (im : Img α) :
    im.scan = (List.range im.dims.count).map fun i => (coordPt im.dims i, im.buf i) := by
  unfold Img.scan
  rw [scanPts_eq, List.filterMap_map, ← List.filterMap_eq_map]
  apply List.filterMap_congr
  intro i hi
  rw [List.mem_range] at hi
  obtain ⟨h1, h2⟩ := coordPt_in hi
  simp only [Function.comp_apply]
  rw [Img.buf_offOf im _ h1, h2]
  rfl

theorem Img.vals_eq (im : Img α) : im.vals = (List.range im.dims.count).map im.buf := by
  unfold Img.vals
  rw [im.scan_eq, List.map_map]
  rfl

theorem Img.mem_scan (im : Img α) (p : IntPoint) (v : α) :
    (p, v) ∈ im.scan ↔ im.at? p = some v := by
  unfold Img.scan
  simp only [List.mem_filterMap, Option.map_eq_some_iff, Prod.mk.injEq]
  constructor
  · rintro ⟨q, -, w, h, rfl, rfl⟩; exact h
  · intro h
    exact ⟨p, (mem_scanPts _ _).mpr (im.at?_eq_some_in p v h), v, h, rfl, rfl⟩

theorem Img.mem_vals (im : Img α) (v : α) : v ∈ im.vals ↔ ∃ p, im.at? p = some v := by
  unfold Img.vals
  simp only [List.mem_map, Prod.exists, im.mem_scan]
  constructor
  · rintro ⟨p, w, h, rfl⟩; exact ⟨p, h⟩
  · rintro ⟨p, h⟩; exact ⟨p, v, h, rfl⟩

theorem Img.vals_length (im : Img α) : im.vals.length = im.dims.count := by
  rw [im.vals_eq]; simp

end

end Smil
