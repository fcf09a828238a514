import Verif.Kuwahara

/-!
# The sigma filter

Addons/Filters/include/private/filterSigma/filterSigma.hpp:6-85. The sums, means and variances are rationals instead of `double`, and `sigma` and
`percentageNbMinPixel` are rationals. `radius` is a `UINT8` in the code; it is not bounded here.
-/

namespace Smil
section
variable {t : PT}

/-- The test `v >= lowerBound && v <= higherBound` of lines 64-65, with bounds `c - Std * sigma` and `c + Std * sigma`, `Std = sqrt(var)`. The square
root is removed: for `sigma >= 0` it is `|v - c| <= sigma * Std`, and for `sigma < 0` the interval is empty unless `Std = 0`. -/
def sigmaNear (sigma var : ℚ) (c v : Int) : Bool :=
  if 0 ≤ sigma then decide (((v : ℚ) - (c : ℚ)) ^ 2 ≤ sigma ^ 2 * var) else decide (var = 0 ∧ v = c)

/-- The value written at `(i, j)`, lines 31-81; `none`: `v * v` overflows or a quotient `0 / 0` is converted to the pixel type. -/
def sigmaPx (im : Img (Px t)) (radius : Nat) (sigma pct : ℚ) (excl : Bool) (i j : Nat) : Option (Px t) :=
  let pts := kuwPts im.dims (2 * radius + 1) ((i : Int) - radius) ((j : Int) - radius)
  match kuwStat im (2 * radius + 1) ((i : Int) - radius) ((j : Int) - radius) with
  | none => none
  | some (mean, var) =>
    let l := pts.map (kuwRead im)
    let c := kuwRead im ((i : Int), (j : Int))
    let near := l.filter (sigmaNear sigma var c)
    if (near.length : ℚ) < l.length * pct then
      if excl then
        if l.length = 1 then none else truncPx t ((mean * l.length - c) / ((l.length : ℚ) - 1))
      else truncPx t mean
    else if near.length = 0 then none
    else truncPx t ((near.map fun v : Int => (v : ℚ)).sum / near.length)

/-- `sigmaFilter` with an output distinct from the input; `none`: undefined behaviour. -/
def sigmaFilter (auto : Bool) (im : Img (Px t)) (radius : Nat) (sigma pct : ℚ) (excl : Bool) (dout : Dims) : Option (Except Int (Img (Px t))) :=
  match checkDims auto im.dims dout with
  | .error c => some (.error c)
  | .ok _ =>
    if im.dims.d > 1 then some (.error errRes)
    else
      let val := fun i : Nat => sigmaPx im radius sigma pct excl (i % im.dims.w) (i / im.dims.w)
      if (List.range im.dims.count).all fun i => (val i).isSome then some (.ok ⟨im.dims, fun i => (val i).getD Px.zero⟩)
      else none

/-- `sigmaFilter(im, ..., im)`: the pixels are read from the image that is being written. -/
def sigmaInPlace (im : Img (Px t)) (radius : Nat) (sigma pct : ℚ) (excl : Bool) : Option (Img (Px t)) :=
  (List.range im.dims.count).foldlM (fun cur i =>
    (sigmaPx cur radius sigma pct excl (i % im.dims.w) (i / im.dims.w)).map fun v => ⟨cur.dims, fun k => if k = i then v else cur.buf k⟩) im

end
end Smil
