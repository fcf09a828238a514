import Verif.Label
import Verif.Transform
import Verif.LabelWith

/-!
# The Kuwahara filter

Addons/Filters/include/private/filterKuwahara/filterKuwahara.hpp:7-103. The sums, means and variances are rationals instead of `double`; the arrays `mean`
and `variance` are functions of their two indices; `W + offset` and the sizes of the arrays do not overflow. `radius` is not negative.
-/

namespace Smil
section
variable {t : PT}

/-- The pixels visited by the loops of lines 53-61 from the corner `(x1, y1)`. -/
def kuwPts (D : Dims) (size2 : Nat) (x1 y1 : Int) : List (Int × Int) :=
  (List.range size2).flatMap fun i : Nat =>
    if 0 ≤ x1 + (i : Int) ∧ x1 + (i : Int) < D.w then
      ((List.range size2).filter fun j : Nat => decide (0 ≤ y1 + (j : Int) ∧ y1 + (j : Int) < D.h)).map fun j : Nat => (x1 + (i : Int), y1 + (j : Int))
    else []

/-- `bufferIn[x2 + y2 * W]`. -/
def kuwRead (im : Img (Px t)) (q : Int × Int) : Int := (im.buf (q.1 + q.2 * im.dims.w).toNat).val

/-- `mean` and `variance` of the square with corner `(x1, y1)`, lines 50-68; `none`: the product `v * v` overflows. -/
def kuwStat (im : Img (Px t)) (size2 : Nat) (x1 y1 : Int) : Option (ℚ × ℚ) :=
  let l := (kuwPts im.dims size2 x1 y1).map (kuwRead im)
  (l.mapM fun v => t.cpp (v * v)).map fun sq =>
    let n : ℚ := l.length
    let mean : ℚ := (l.map fun v : Int => (v : ℚ)).sum / n
    (mean, (sq.map fun v : Int => (v : ℚ)).sum / n - mean * mean)

/-- One of the four tests of lines 79-102; the state is `Min` and `(xbase2, ybase2)`. -/
def kuwTest (var : Nat × Nat → ℚ) (s : ℚ × (Nat × Nat)) (b : Nat × Nat) : ℚ × (Nat × Nat) :=
  if var b < s.1 then (var b, b) else s

/-- The choice at the pixel `(x, y)`, lines 75-102, with the `(xbase2, ybase2)` left by the previous pixel. -/
def kuwPick (var : Nat × Nat → ℚ) (offset x y : Nat) (prev : Nat × Nat) : Nat × Nat :=
  ([(x, y), (x + offset, y), (x + offset, y + offset), (x, y + offset)].foldl (kuwTest var) (9999999, prev)).2

/-- `(xbase2, ybase2)` after the pixel of index `i`; they are zero at the start (line 71). -/
def kuwBase (var : Nat × Nat → ℚ) (offset w : Nat) : Nat → Nat × Nat
  | 0 => kuwPick var offset 0 0 (0, 0)
  | i + 1 => kuwPick var offset ((i + 1) % w) ((i + 1) / w) (kuwBase var offset w i)

/-- `kuwaharaFilter`; `none`: undefined behaviour. `size2 = radius + 1` and `offset = radius` (lines 33-35). -/
def kuwahara (auto : Bool) (im : Img (Px t)) (radius : Nat) (dout : Dims) : Option (Except Int (Img (Px t))) :=
  match checkDims auto im.dims dout with
  | .error c => some (.error c)
  | .ok _ =>
    if im.dims.d > 1 then some (.error errRes)
    else
      let diameter := radius * 2 + 1
      let size2 := (diameter + 1) / 2
      let offset := (diameter - 1) / 2
      let stat := fun b : Nat × Nat => kuwStat im size2 ((b.1 : Int) - offset) ((b.2 : Int) - offset)
      if (List.range (im.dims.w + offset)).all fun i => (List.range (im.dims.h + offset)).all fun j => (stat (i, j)).isSome then
        let mean := fun b => ((stat b).getD (0, 0)).1
        let var := fun b => ((stat b).getD (0, 0)).2
        let val := fun i => truncPx t (mean (kuwBase var offset im.dims.w i))
        if (List.range im.dims.count).all fun i => (val i).isSome then
          some (.ok ⟨im.dims, fun i => (val i).getD Px.zero⟩)
        else none
      else none

end
end Smil
