import Verif.Convolve
import Verif.Build
import Verif.Transform

/-!
# Resizing

Model of `resize` and `scale` (Base/include/private/DImageTransform.hpp:829-1314). The arithmetic of `double` is exact
here. A division 0/0, infinity times 0 and the conversion of the result to an integer have no result.
-/

namespace Smil
variable {α : Type} {t : PT}

/-- The methods, lines 862-883; `other` is any other string, "linear" included. -/
inductive RMethod
  | closest | bilinear | trilinear | auto | other
  deriving DecidableEq

/-- `cx * i` where `cx = (double)(n - 1) / (s - 1)`, lines 953-966, 1050-1063: not a number when `s = 1` (then `i = 0`,
and `cx` is infinite or not a number). -/
def rsPos (n s i : Nat) : Option ℚ :=
  if s = 1 then none else some (((n : ℚ) - 1) / ((s : ℚ) - 1) * i)

/-- `round`: to the nearest integer, halves away from zero. -/
def roundQ (q : ℚ) : Int := if 0 ≤ q then ⌊q + 1 / 2⌋ else ⌈q - 1 / 2⌉

/-- A read of the buffer. -/
def rdOff (im : Img α) (o : Int) : Option α := if 0 ≤ o ∧ o < im.dims.count then some (im.buf o.toNat) else none

/-- The image of size `D` with the pixels computed by `f`, if all of them have a value (the loops of lines 959-974,
1056-1082, 1110-1147; the pixels are written once each, in any order). -/
def rsImg (D : Dims) (f : Nat → Nat → Nat → Option α) [Inhabited α] : Option (Img α) :=
  if ∀ o, o < D.count → (f (coordPt D o).x.toNat (coordPt D o).y.toNat (coordPt D o).z.toNat).isSome then
    some ⟨D, fun o => (f (coordPt D o).x.toNat (coordPt D o).y.toNat (coordPt D o).z.toNat).getD default⟩
  else none

/-- One pixel, lines 965-972. -/
def closestPx (im : Img α) (sx sy i j : Nat) : Option α :=
  (rsPos im.dims.w sx i).bind fun qx => (rsPos im.dims.h sy j).bind fun qy =>
  let xo := min (roundQ qx) ((im.dims.w : Int) - 1)
  let yo := min (roundQ qy) ((im.dims.h : Int) - 1)
  rdOff im (yo * im.dims.w + xo)

/-- One pixel, lines 1010-1019, with `depth` in the place of `height` in the offset. -/
def closestPx3 (im : Img α) (sx sy sz i j k : Nat) : Option α :=
  (rsPos im.dims.w sx i).bind fun qx => (rsPos im.dims.h sy j).bind fun qy => (rsPos im.dims.d sz k).bind fun qz =>
  let xo := min (roundQ qx) ((im.dims.w : Int) - 1)
  let yo := min (roundQ qy) ((im.dims.h : Int) - 1)
  let zo := min (roundQ qz) ((im.dims.d : Int) - 1)
  rdOff im ((zo * im.dims.d + yo) * im.dims.w + xo)

/-- `resize2DClosest` (lines 940-977, `three = false`) and `resize3DClosest` (lines 982-1024, `three = true`), which
call each other; `fuel` bounds the depth of the calls, no result when it is exhausted. -/
def resizeClosestF [Inhabited α] (fuel : Nat) (three : Bool) (sx sy sz : Nat) (im : Img α) : Option (Img α) :=
  match fuel with
  | 0 => none
  | fuel + 1 =>
    match three with
    | false =>
      if im.dims.d > 1 then resizeClosestF fuel true sx sy im.dims.d im
      else rsImg ⟨sx, sy, 1⟩ fun i j _ => closestPx im sx sy i j
    | true =>
      if im.dims.d > 1 then resizeClosestF fuel false sx sy 1 im
      else rsImg ⟨sx, sy, sz⟩ fun i j k => closestPx3 im sx sy sz i j k

/-- The two positions and the two coefficients on an axis, lines 1065-1073: `(l, h, cl, ch)`. -/
def linPos (n : Nat) (q : ℚ) : Int × Int × ℚ × ℚ :=
  let l := ⌊q⌋
  let h := if l + 1 < n then l + 1 else l
  let cl : ℚ := if h > l then q - l else 1
  (l, h, cl, 1 - cl)

/-- One pixel, lines 1062-1080. -/
def bilinearPx (im : Img (Px t)) (sx sy i j : Nat) : Option (Px t) :=
  (rsPos im.dims.w sx i).bind fun qx => (rsPos im.dims.h sy j).bind fun qy =>
  let (xl, xh, cxl, cxh) := linPos im.dims.w qx
  let (yl, yh, cyl, cyh) := linPos im.dims.h qy
  let dy : Int := im.dims.w
  (rdOff im (yl * dy + xl)).bind fun a => (rdOff im (yl * dy + xh)).bind fun b =>
  (rdOff im (yh * dy + xl)).bind fun c => (rdOff im (yh * dy + xh)).bind fun d =>
  convToPx t ((a.val : ℚ) * cxh * cyh + b.val * cxl * cyh + c.val * cxh * cyl + d.val * cxl * cyl)

/-- One pixel, lines 1118-1144. -/
def trilinearPx (im : Img (Px t)) (sx sy sz i j k : Nat) : Option (Px t) :=
  (rsPos im.dims.w sx i).bind fun qx => (rsPos im.dims.h sy j).bind fun qy => (rsPos im.dims.d sz k).bind fun qz =>
  let (xl, xh, cxl, cxh) := linPos im.dims.w qx
  let (yl, yh, cyl, cyh) := linPos im.dims.h qy
  let (zl, zh, czl, czh) := linPos im.dims.d qz
  let dy : Int := im.dims.w
  let dz : Int := im.dims.w * im.dims.h
  (rdOff im (zl * dz + yl * dy + xl)).bind fun a => (rdOff im (zl * dz + yl * dy + xh)).bind fun b =>
  (rdOff im (zl * dz + yh * dy + xl)).bind fun c => (rdOff im (zl * dz + yh * dy + xh)).bind fun d =>
  (rdOff im (zh * dz + yl * dy + xl)).bind fun e => (rdOff im (zh * dz + yl * dy + xh)).bind fun f =>
  (rdOff im (zh * dz + yh * dy + xl)).bind fun g => (rdOff im (zh * dz + yh * dy + xh)).bind fun h =>
  convToPx t ((a.val : ℚ) * cxh * cyh * czh + b.val * cxl * cyh * czh + c.val * cxh * cyl * czh +
    d.val * cxl * cyl * czh + e.val * cxh * cyh * czl + f.val * cxl * cyh * czl + g.val * cxh * cyl * czl +
    h.val * cxl * cyl * czl)

/-- `resizeBilinear` (lines 1037-1084) for images of depth 1, `resizeTrilinear` (lines 1089-1149) for the others: each
calls the other one in the other case. -/
def resizeLinear (sx sy sz : Nat) (im : Img (Px t)) : Option (Img (Px t)) :=
  if im.dims.d > 1 then rsImg ⟨sx, sy, sz⟩ fun i j k => trilinearPx im sx sy sz i j k
  else rsImg ⟨sx, sy, 1⟩ fun i j _ => bilinearPx im sx sy i j

/-- The method chosen for "auto", lines 862-867. -/
def RMethod.resolve (m : RMethod) (im : Img (Px t)) : RMethod :=
  if m = .auto then (if isBinary im then .closest else if im.dims.d > 1 then .trilinear else .bilinear) else m

/-- The choice of the algorithm, lines 869-883. The calls of the method "closest" are bounded by `fuel`. -/
def resizeBy (fuel : Nat) (m : RMethod) (sx sy sz : Nat) (im : Img (Px t)) : Option (Except Int (Img (Px t))) :=
  match m with
  | .closest => (resizeClosestF fuel (im.dims.d > 1) sx sy sz im).map .ok
  | .bilinear => (resizeLinear sx sy sz im).map .ok
  | .trilinear => (resizeLinear sx sy sz im).map .ok
  | _ => some (.error errRes)

/-- `ImageResizeFunc::resize`, lines 852-884, and `resize`, lines 1179-1186. `inPl`: the input is the output; it is
then cloned and resized by the default method, "trilinear". `setSize` is taken to succeed. -/
def resizeIm (fuel : Nat) (inPl : Bool) (m : RMethod) (sx sy sz : Nat) (im out : Img (Px t)) :
    Option (Except Int (Img (Px t))) :=
  if im.alloc = false ∨ out.alloc = false then some (.error errBadAllocation)
  else resizeBy fuel ((if inPl then .trilinear else m).resolve im) sx sy sz im

/-- `resize(imIn, sx, sy, imOut, method)`, lines 1201-1210: the depth is that of the output. -/
def resize2D (fuel : Nat) (inPl : Bool) (m : RMethod) (sx sy : Nat) (im out : Img (Px t)) :
    Option (Except Int (Img (Px t))) := resizeIm fuel inPl m sx sy out.dims.d im out

/-- `resize(imIn, imOut, method)`, lines 1226-1237. -/
def resizeLike (fuel : Nat) (inPl : Bool) (m : RMethod) (im out : Img (Px t)) : Option (Except Int (Img (Px t))) :=
  resizeIm fuel inPl m out.dims.w out.dims.h out.dims.d im out

/-- A dimension scaled, lines 912-917; the result of `lround` does not fit a `long`: no result. -/
def scaleDim (k : ℚ) (n : Nat) : Option Nat :=
  if n > 1 then
    let r := roundQ (k * n)
    if -(2 ^ 63) ≤ r ∧ r < 2 ^ 63 then some (max 1 r).toNat else none
  else some n

/-- `scale`, lines 898-920 and 1264-1271. In place, the method is lost as well. -/
def scaleIm (fuel : Nat) (inPl : Bool) (m : RMethod) (kx ky kz : ℚ) (im out : Img (Px t)) :
    Option (Except Int (Img (Px t))) :=
  if im.alloc = false ∨ out.alloc = false then some (.error errBadAllocation)
  else (scaleDim kx im.dims.w).bind fun w => (scaleDim ky im.dims.h).bind fun h => (scaleDim kz im.dims.d).bind fun d =>
    resizeIm fuel false (if inPl then .trilinear else m) w h d im out

end Smil
