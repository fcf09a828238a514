import Verif.Arrow
import Verif.Flood

/-!
# Regional extrema from arrow images

`fastMinima` and `fastMaxima`, Morpho/include/private/DMorphoExtrema.hpp:246-375, with the functor
`arrowPropagate` of Morpho/include/private/DMorphoArrow.hpp:241-330. A pixel of an integer type of `n` bits is
the bit vector of its representation, `sg` tells whether the type is signed. The threads are not modelled (in
the code each of them computes the whole arrow images and writes the same values); the images are supposed to
have fewer than 2^63 pixels, so that the `size_t` coordinates of a neighbour outside of the image fail the
bounds test whatever side it is on.
-/

namespace Smil
variable {n : Nat}

/-- The integer that a pixel stands for. -/
def bvVal (sg : Bool) (v : BitVec n) : Int := if sg then v.toInt else v.toNat

/-- `numeric_limits<T>::max()`. -/
def bvMax (sg : Bool) : BitVec n := if sg then BitVec.intMax n else BitVec.allOnes n

/-- `numeric_limits<T>::min()`. -/
def bvMin (sg : Bool) : BitVec n := if sg then BitVec.intMin n else 0

/-- `v >> 1` in the type of the pixels, Base/include/private/DLineArith.hpp:563-568. -/
def bvShr (sg : Bool) (v : BitVec n) : BitVec n := if sg then v.sshiftRight 1 else v >>> 1

/-- The neighbours that the arrows of pixel `o` point to, DMorphoArrow.hpp:301-310: point `p` is followed when
`arrowP[o] & T(1UL << p)` is not zero and its target is in the image. -/
def arrowNb (D : Dims) (se : StrElt) (a : BitVec n) (o : Nat) : List Nat :=
  se.points.zipIdx.filterMap fun bk => if a.getLsbD bk.2 then nbOffset D se o bk.1 else none

/-- `testAndAssign` on the neighbours of one pixel, DMorphoArrow.hpp:248-256 and 301-314: the pixels which do
not have the value yet receive it and go to the back of the queue. -/
def arrowVisit {β : Type} [DecidableEq β] (v : β) : List Nat → List Nat × (Nat → β) → List Nat × (Nat → β)
  | [], st => st
  | j :: l, (q, f) =>
    if f j ≠ v then arrowVisit v l (q ++ [j], fun i => if i = j then v else f i)
    else arrowVisit v l (q, f)

/-- The loop on the queue, DMorphoArrow.hpp:292-316; `none` when it is not over after the given number of
turns. -/
def arrowQueue {β : Type} [DecidableEq β] (nb : Nat → List Nat) (v : β) :
    Nat → List Nat → (Nat → β) → Option (Nat → β)
  | _, [], f => some f
  | 0, _ :: _, _ => none
  | k + 1, o :: q, f =>
    let st := arrowVisit v (nb o) (q, f)
    arrowQueue nb v k st.1 st.2

/-- `arrowPropagate::_exec`, DMorphoArrow.hpp:275-318, from pixel `o` with the propagation value `v`. A pixel
enters the queue at most once apart from the first one, hence the number of turns. -/
def arrowPropagate {β : Type} [DecidableEq β] (D : Dims) (se : StrElt) (arrows : Nat → BitVec n) (v : β)
    (o : Nat) (f : Nat → β) : Option (Nat → β) :=
  arrowQueue (fun i => arrowNb D se (arrows i) i) v (D.count + 1) [o] f

/-- One turn of the scan, DMorphoExtrema.hpp:318-324. -/
def fastScanStep (sg : Bool) (D : Dims) (se : StrElt) (arrows : Nat → BitVec n) (f : Nat → BitVec n) (o : Nat) :
    Option (Nat → BitVec n) :=
  if f o = 0 ∧ 0 < bvVal sg (arrows o) then arrowPropagate D se arrows (1 : BitVec n) o f else some f

/-- `fastExtrema`, DMorphoExtrema.hpp:246-345. `raw` are the contents of the new image `arrows`, `inPl` tells
whether the output image is the input image. There is no check of the arguments: an output of another size (or
which is not allocated) is accessed out of bounds, `none` (an output larger than the input is accessed in bounds
but with the lines of the wrong length; it is left out as well). An input which is not allocated has no line.
The rhombicuboctahedron has a path of its own in the computation of the arrows, which is left out. -/
def fastExtrema (sg : Bool) (raw : Nat → BitVec n) (cmp : Int → Int → Bool) (border : BitVec n) (se : StrElt)
    (inPl : Bool) (im out : Img (BitVec n)) : Option (Img (BitVec n)) :=
  let cpSe := se.noCenter
  let zero : Img (BitVec n) := ⟨out.dims, fun _ => 0⟩
  if cpSe.points = [] then some zero
  else if out.dims ≠ im.dims ∨ se.seT = .rhombicuboctahedron then none
  else
    let src := if inPl then zero else im
    (arrowExecSame (fun a b => cmp (bvVal sg a) (bvVal sg b)) border raw false cpSe src ⟨im.dims, raw⟩).bind
      fun steep =>
    let out1 : Img (BitVec n) := ⟨im.dims, fun i => if steep.buf i = 0 then bvMax sg else 0⟩
    let src1 := if inPl then out1 else im
    (arrowExecSame (fun a b => decide (bvVal sg a = bvVal sg b)) (bvMin sg) raw false cpSe src1 steep).bind
      fun equ =>
    ((List.range im.dims.count).foldlM (fastScanStep sg im.dims cpSe equ.buf) out1.buf).map fun f =>
    ⟨im.dims, fun i => if bvShr sg (f i) ≠ 0 then bvMax sg else bvShr sg (f i)⟩

/-- `fastMinima`, DMorphoExtrema.hpp:355-360. -/
def fastMinima (sg : Bool) (raw : Nat → BitVec n) (se : StrElt) (inPl : Bool) (im out : Img (BitVec n)) :
    Option (Img (BitVec n)) :=
  fastExtrema sg raw (fun a b => decide (a > b)) (bvMax sg) se inPl im out

/-- `fastMaxima`, DMorphoExtrema.hpp:369-374. -/
def fastMaxima (sg : Bool) (raw : Nat → BitVec n) (se : StrElt) (inPl : Bool) (im out : Img (BitVec n)) :
    Option (Img (BitVec n)) :=
  fastExtrema sg raw (fun a b => decide (a < b)) (bvMin sg) se inPl im out

end Smil
