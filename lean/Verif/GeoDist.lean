import Verif.Build
import Verif.DistGeneric

/-!
# Geodesic distance

Morpho/include/private/DMorphoDistance.hpp:620-808 (`distanceGeodesic`). The queue is a `HierarchicalQueue<T2>` initialised with
`imIn` (line 694), which takes an `Image<T2>`: the function only exists for `T1 = T2`.
-/

namespace Smil
section
variable {t : PT}

/-- Pixels, output and queue. -/
structure GdSt (t : PT) where
  out : Nat → Px t
  q : HQ Nat

/-- What the run depends on: number of pixels, neighbours (the origin of the element left out, lines 660-666), and the tests on the
input and the mask. -/
structure GdCfg where
  n : Nat
  adj : Nat → List Nat
  /-- `pixelsIn[i] > 0 && pixelsMask[i] > 0`, line 696. -/
  obj : Nat → Bool
  /-- `pixelsIn[i] != 0 && pixelsMask[i] > 0`, line 762. -/
  obj' : Nat → Bool
  /-- `pixelsIn[i] == 0 && pixelsMask[i] > 0`, line 715. -/
  bg : Nat → Bool

/-- One turn of the first loop, DMorphoDistance.hpp:694-727. A pixel of the object without a neighbour in the background
keeps the value it had in the output image. -/
def gdSeed (C : GdCfg) (s : GdSt t) (i : Nat) : Option (GdSt t) :=
  if C.obj i then
    if (C.adj i).any C.bg then
      (s.q.push (hqParam t false) (hqLevel (t.wrap 1)) i).map fun q => ⟨Function.update s.out i (t.wrap 1), q⟩
    else some s
  else some { s with out := Function.update s.out i (t.wrap 0) }

/-- The search of the neighbour of least distance, lines 766-791: `none` stands for the largest `float`, where it starts. For
types of at most 16 bits the sum is done in `int` and is exact in `float`. -/
def gdMin (C : GdCfg) (out : Nat → Px t) (p : Nat) : Option Int :=
  (C.adj p).foldl (fun m j =>
    if out j > t.wrap 0 then
      match m with
      | none => some (cInc (out j))
      | some c => if cInc (out j) < c then some (cInc (out j)) else m
    else m) none

/-- A neighbour of the current pixel, DMorphoDistance.hpp:762-803. The level is clipped (lines 794-797), the value
written is not: `none` is the conversion of a number out of the range of the type. -/
def gdVisit (C : GdCfg) (s : GdSt t) (p : Nat) : Option (GdSt t) :=
  if C.obj' p = true ∧ s.out p = t.wrap 0 then
    match gdMin C s.out p with
    | none => none
    | some c =>
      (s.q.push (hqParam t false) (hqLevel (if c > t.hi then (⊤ : Px t) else t.wrap c)) p).bind fun q =>
        if c ≤ t.hi then some ⟨Function.update s.out p (t.wrap c), q⟩ else none
  else some s

/-- The loop, DMorphoDistance.hpp:738-806. `none`: undefined, or more turns than the first argument. -/
def gdLoop (C : GdCfg) : Nat → GdSt t → Option (Nat → Px t)
  | 0, _ => none
  | fuel + 1, s =>
    if s.q.isEmpty then some s.out
    else (s.q.pop (hqParam t false)).bind fun r =>
      ((C.adj r.1).foldlM (gdVisit C) ⟨s.out, r.2⟩).bind (gdLoop C fuel)

/-- Both loops. -/
def gdRun (C : GdCfg) (out : Nat → Px t) : Option (Nat → Px t) :=
  ((List.range C.n).foldlM (gdSeed C) ⟨out, HQ.init (hqParam t false)⟩).bind (gdLoop C (2 * C.n + 1))

/-- The configuration of an image and a mask. -/
def gdCfg (se : StrElt) (im ms : Img (Px t)) : GdCfg where
  n := im.dims.count
  adj := nbOffsets im.dims se
  obj i := decide (im.buf i > t.wrap 0 ∧ ms.buf i > t.wrap 0)
  obj' i := decide (im.buf i ≠ t.wrap 0 ∧ ms.buf i > t.wrap 0)
  bg i := decide (im.buf i = t.wrap 0 ∧ ms.buf i > t.wrap 0)

/-- `distanceGeodesic`, DMorphoDistance.hpp:623-808, for an output that is neither the input nor the mask. The image `tmp` (lines 651-652) is
not used. An output that is resized holds arbitrary values. -/
def distGeodesic (E : Env (Px t)) (se : StrElt) (im ms out : Img (Px t)) : Option (Except Int (Img (Px t))) :=
  match checkSize3 E im ms out with
  | .error c => some (.error c)
  | .ok m =>
    (gdRun (gdCfg se im m) (if out.dims = im.dims then out.buf else E.raw)).map fun o => .ok ⟨im.dims, o⟩

end
end Smil
