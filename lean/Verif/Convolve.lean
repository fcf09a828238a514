import Verif.MorphoTop
import Verif.Flood
import Mathlib.Algebra.Order.Ring.Rat
import Mathlib.Data.Rat.Floor
import Mathlib.Logic.Function.Basic

/-!
# Convolutions

Model of `horizConvolve`, `vertConvolve`, `convolve` and `gaussianFilter`
(Base/include/private/DImageConvolution.hpp). The arithmetic of `double` is exact here: weights and sums are
rationals. Quotients by zero and conversions out of the range of the pixel type have no result.
-/

namespace Smil
variable {t : PT}

/-! ### Lines along the axes -/

/-- The direction of a convolution. -/
inductive Axis
  | x | y | z
  deriving DecidableEq

/-- The position of a pixel on the axis. -/
def Axis.get : Axis → IntPoint → Int
  | .x, p => p.x
  | .y, p => p.y
  | .z, p => p.z

/-- The pixel at position `v` on the line through `p`. -/
def Axis.set : Axis → IntPoint → Int → IntPoint
  | .x, p, v => ⟨v, p.y, p.z⟩
  | .y, p, v => ⟨p.x, v, p.z⟩
  | .z, p, v => ⟨p.x, p.y, v⟩

/-- The length of the lines. -/
def Axis.len : Axis → Dims → Nat
  | .x, D => D.w
  | .y, D => D.h
  | .z, D => D.d

/-- The pixels of the line through `p`, from position 0. -/
def Axis.fiber {α : Type} (a : Axis) (im : Img α) (p : IntPoint) (k : Nat) : α :=
  im.buf (offOf im.dims (a.set p k))

/-- Every line along the axis replaced by its image under `f`; the lines are independent of each other, the
order of the loops and the number of threads do not matter (lines 306-345, 391-430, 119-212). -/
def axisPass (a : Axis) (f : (Nat → Px t) → Option (Nat → Px t)) (im : Img (Px t)) : Option (Img (Px t)) :=
  if ∀ i, i < im.dims.count → (f (a.fiber im (coordPt im.dims i))).isSome then
    some ⟨im.dims, fun i => ((f (a.fiber im (coordPt im.dims i))).getD fun _ => default)
      (a.get (coordPt im.dims i)).toNat⟩
  else none

/-! ### Arithmetic -/

/-- The conversion `T(q)`: towards zero, undefined out of the range of the type. -/
def convToPx (t : PT) (q : ℚ) : Option (Px t) :=
  let n : Int := if 0 ≤ q then ⌊q⌋ else ⌈q⌉
  if h : t.lo ≤ n ∧ n ≤ t.hi then some ⟨n, h.1, h.2⟩ else none

/-- `kernelRadius`, lines 291 and 377; an empty kernel is refused before (see `horizConvolve`). -/
def kerRadius (ker : List ℚ) : Nat := (ker.length - 1) / 2

/-- `partialKernWeights[i]`, lines 294-301 and 379-386. -/
def partialWeight (ker : List ℚ) (i : Nat) : ℚ :=
  (ker.take (kerRadius ker)).sum + ((ker.drop (kerRadius ker)).take (i + 1)).sum

/-- The loop on `i` from `lo`, `n` times: `sum += kernel[i + kernelRadius] * lIn[x + i]`. A position out of the
line has no value. In the three loops `-kernelRadius ≤ i ≤ kernelRadius`, so that `i + kernelRadius` is an index of
the kernel. -/
def tapSum (ker : List ℚ) (N : Nat) (l : Nat → Px t) (x lo : Int) (n : Nat) : Option ℚ :=
  (intRange lo n).foldlM (fun s i =>
    if 0 ≤ x + i ∧ x + i < N then
      some (s + ker.getD (i + kerRadius ker).toNat 0 * ((l (x + i).toNat).val : ℚ))
    else none) 0

/-- One pixel: the sum over `n` positions from `lo`, the division by `w`, the store at `x`. `inPl`: the line
read is the line written. -/
def convStep (ker : List ℚ) (N : Nat) (inPl : Bool) (l : Nat → Px t) (cur : Nat → Px t) (x lo : Int) (n : Nat)
    (w : ℚ) : Option (Nat → Px t) :=
  (tapSum ker N (if inPl then cur else l) x lo n).bind fun s =>
  if w = 0 then none else
  (convToPx t (s / w)).bind fun v =>
  if 0 ≤ x ∧ x < N then some (Function.update cur x.toNat v) else none

/-- The three loops on a line of `N` pixels, lines 321-343 and 405-427. Every position is written when
`2 * kernelRadius ≤ N`, so that the former contents of the output do not matter. -/
def convRun (ker : List ℚ) (N : Nat) (inPl : Bool) (l : Nat → Px t) : Option (Nat → Px t) :=
  let r := kerRadius ker
  ((intRange 0 r).foldlM (fun cur x =>
    convStep ker N inPl l cur x (-x) (x.toNat + r + 1) (partialWeight ker x.toNat)) l).bind fun c1 =>
  ((intRange r (N - 2 * r)).foldlM (fun cur x => convStep ker N inPl l cur x (-r) (2 * r + 1) 1) c1).bind fun c2 =>
  (intRange (N - r) r).foldlM (fun cur x =>
    convStep ker N inPl l cur x (-r) (N - x + r).toNat (partialWeight ker (N - 1 - x).toNat)) c2

/-! ### Images -/

/-- The output after `CHECK_SAME_SIZE`, DBaseImage.h:434-436, whose answer the convolutions ignore. -/
def convOut (E : Env (Px t)) (im out : Img (Px t)) : Img (Px t) :=
  if E.auto ∧ out.dims ≠ im.dims then ⟨im.dims, E.raw⟩ else out

/-- Lines 281-347 and 365-432. The checks have no effect: images without pixels are accepted, images of different
sizes are processed; the latter has no result here (the code writes out of the output or in a part of it). Neither has
an empty kernel (its radius is -1 and the allocation throws). -/
def axisConvolve (a : Axis) (inPl : Bool) (E : Env (Px t)) (ker : List ℚ) (im out : Img (Px t)) :
    Option (Except Int (Img (Px t))) :=
  let o := convOut E im out
  if im.dims.count = 0 then some (.ok o)
  else if o.dims ≠ im.dims then none
  else if ker = [] then none
  else (axisPass a (convRun ker (a.len im.dims) inPl) im).map .ok

/-- `horizConvolve`, DImageConvolution.hpp:277-348. Each line is copied first, so that the input may be the output. -/
def horizConvolve (E : Env (Px t)) (ker : List ℚ) (im out : Img (Px t)) : Option (Except Int (Img (Px t))) :=
  axisConvolve .x false E ker im out

/-- `vertConvolve`, DImageConvolution.hpp:361-433; `inPl`: the input is the output. -/
def vertConvolve (E : Env (Px t)) (inPl : Bool) (ker : List ℚ) (im out : Img (Px t)) :
    Option (Except Int (Img (Px t))) :=
  axisConvolve .y inPl E ker im out

/-- `convolve`, DImageConvolution.hpp:447-465. If the input is the output, it is cloned first. -/
def convolve (E : Env (Px t)) (ker : List ℚ) (im out : Img (Px t)) : Option (Except Int (Img (Px t))) :=
  andThen (vertConvolve E false ker im out) fun m => horizConvolve E ker m m

/-! ### Gaussian filter -/

/-- One pixel of a pass, lines 133-144, 166-177 and 197-208: the weights `w i`, `-r ≤ i ≤ r`, of the positions inside the line. -/
def gaussPx (w : Int → ℚ) (r N : Nat) (l : Nat → Px t) (x : Nat) : Option (Px t) :=
  let is := (intRange (-r) (2 * r + 1)).filter fun i : Int => 0 ≤ (x : Int) + i ∧ (x : Int) + i < N
  let sumV := (is.map fun i => ((l ((x : Int) + i).toNat).val : ℚ) * w i).sum
  let sumK := (is.map w).sum
  if sumK = 0 then none else convToPx t (sumV / sumK)

/-- One pass on a line. -/
def gaussLine (w : Int → ℚ) (r N : Nat) (l : Nat → Px t) : Option (Nat → Px t) :=
  if ∀ x, x < N → (gaussPx w r N l x).isSome then some fun x => (gaussPx w r N l x).getD default else none

/-- `gaussianFilter`, DImageConvolution.hpp:235-250, with `Convolve`, lines 95-214. `w` gives the weights computed by
`setupKernel` (lines 57-69), any numbers here. If the input is the output, it is cloned first. A null radius gives
weights that are not numbers, a negative one throws: no result. -/
def gaussianFilter (E : Env (Px t)) (w : Int → ℚ) (radius : Int) (im out : Img (Px t)) :
    Option (Except Int (Img (Px t))) :=
  match checkSize E im out with
  | .error c => some (.error c)
  | .ok _ =>
    if radius ≤ 0 then none else
    (axisPass .x (gaussLine w radius.toNat im.dims.w) im).bind fun m =>
    (axisPass .y (gaussLine w radius.toNat im.dims.h) m).bind fun m' =>
    (axisPass .z (gaussLine w radius.toNat im.dims.d) m').map .ok

end Smil
