import Verif.HitOrMiss
import Verif.Label
import Verif.Coords
import Verif.DistGeneric

/-!
# Skeletons

Morpho/include/private/DSkeleton.hpp.
-/

namespace Smil
variable {t s : PT}
open StrElt

/-- `HMT_hL(nrot)`, Morpho/include/DCompositeSE.h:215-223. -/
def HMT_hL (nrot : Nat) : Option (List CompStrElt) :=
  (ofIndices true [1, 2]).bind fun fg => (ofIndices true [4, 5]).bind fun bg => CompStrElt.addRot [] ⟨fg, bg⟩ nrot

/-- `HMT_hM(nrot)`, DCompositeSE.h:237-245. -/
def HMT_hM (nrot : Nat) : Option (List CompStrElt) :=
  (ofIndices true [1]).bind fun fg => (ofIndices true [3, 4, 5]).bind fun bg => CompStrElt.addRot [] ⟨fg, bg⟩ nrot

/-- `skiz(imIn, imOut)`, DSkeleton.hpp:69-82; `fuel` bounds the iterations of each `fullThin`. The return codes of the three calls are
ignored in the code; as the images have the same size they are `RES_OK`. -/
def skiz (E : Env (Px t)) (fuel : Nat) (im out : Img (Px t)) : Option (Except Int (Img (Px t))) :=
  match checkSize E im out with
  | .error c => some (.error c)
  | .ok o =>
    (HMT_hL 6).bind fun cl => (HMT_hM 6).bind fun cm =>
    andThen (invImg E im o) fun o1 =>
    andThen (fullThin E fuel cl o1 ⟨im.dims, E.raw⟩) fun tmp => fullThin E fuel cm tmp o1

/-- `bool equ(imIn1, imIn2)`, Base/include/private/DImageArith.hpp:412-426, for allocated images of the same size. -/
def equImgs {α : Type} [DecidableEq α] (a b : Img α) : Bool := decide (∀ i, i < a.dims.count → a.buf i = b.buf i)

/-- The loop `do … while (!idempt)` of `skeleton`, DSkeleton.hpp:106-115, with at most `fuel` iterations (`none`: fuel exhausted).
`ero`, `tmp`, `out` are `imEro`, `imTemp`, `imOut`. -/
def skelLoop (E : Env (Px t)) (se : StrElt) : Nat → Img (Px t) → Img (Px t) → Img (Px t) → Option (Except Int (Img (Px t)))
  | 0, _, _, _ => none
  | fuel + 1, ero, tmp, out =>
    andThen (erode E true se ero ero) fun e =>
    andThen (morphOpen E false se e tmp) fun o =>
    andThen (subImg E e o o) fun r =>
    let sup := Img.zipF kSup out r
    if equImgs sup out then some (.ok sup) else skelLoop E se fuel e sup sup

/-- `skeleton(imIn, imOut, se)`, DSkeleton.hpp:91-118. -/
def skeleton (E : Env (Px t)) (se : StrElt) (fuel : Nat) (im out : Img (Px t)) : Option (Except Int (Img (Px t))) :=
  match checkSize E im out with
  | .error c => some (.error c)
  | .ok o => skelLoop E se fuel im ⟨im.dims, E.raw⟩ ⟨o.dims, fun _ => ⊥⟩

/-- The loop of `extinctionValues`, DSkeleton.hpp:143-152: the pixels with a residue get the counter `r`, then `r++`. -/
def extValLoop (E : Env (Px t)) (se : StrElt) : Nat → Img (Px t) → Img (Px t) → Px s → Img (Px s) → Option (Except Int (Img (Px s)))
  | 0, _, _, _, _ => none
  | fuel + 1, ero, tmp, r, out =>
    (erode E true se ero ero).bind fun re => match re with
    | .error c => some (.error c)
    | .ok e => (morphOpen E false se e tmp).bind fun ro => match ro with
      | .error c => some (.error c)
      | .ok o => (subImg E e o o).bind fun rs => match rs with
        | .error c => some (.error c)
        | .ok d =>
          (genNext r).bind fun r' =>
          let out' := Img.zipF (fun (v : Px t) (w : Px s) => kTest v r w) d out
          if equImgs out' out then some (.ok out') else extValLoop E se fuel e d r' out'

/-- `extinctionValues(imIn, imOut, se)`, DSkeleton.hpp:127-155. With `autoResizeImages` an output of another size is resized. -/
def extinctionValues (E : Env (Px t)) (se : StrElt) (fuel : Nat) (im : Img (Px t)) (out : Img (Px s)) :
    Option (Except Int (Img (Px s))) :=
  if im.alloc = false ∨ out.alloc = false then some (.error errBadAllocation)
  else if out.dims ≠ im.dims ∧ E.auto = false then some (.error errBadSize)
  else extValLoop E se fuel im ⟨im.dims, E.raw⟩ (s.wrap 1) ⟨im.dims, fun _ => ⊥⟩

/-- The tests on one neighbour, DSkeleton.hpp:211-224: `(up, down)` after the point `b` of the element, which is added to the coordinates
without regard to the grid of the element. `in[pt] + 1` and `in[pt] - 1` are evaluated in the promoted type. -/
def pruneNb (im : Img (Px t)) (pt : ImageBox) (v : Px t) (ud : Bool × Bool) (b : IntPoint) : Option (Bool × Bool) :=
  let qt := pt.shiftPt b
  if qt.inImage qt.pt then
    let w := im.buf qt.reference.toNat
    if w ≠ ⊤ then
      (t.cpp (v.val + 1)).bind fun inc => (t.cpp (v.val - 1)).bind fun dec =>
        some (ud.1 || decide (w.val ≥ inc), ud.2 || decide (w.val ≤ dec))
    else some ud
  else some ud

/-- One pixel of `pruneSkiz`, DSkeleton.hpp:203-231: the value written at offset `i`, which was zero. -/
def prunePx (se : StrElt) (im : Img (Px t)) (i : Nat) : Option (Px t) :=
  ((ImageBox.mk' im.dims.w im.dims.h im.dims.d).setReferenceOff i).bind fun pt =>
  let v := im.buf pt.reference.toNat
  if v.val > 0 ∧ v ≠ ⊤ then
    (se.points.foldlM (pruneNb im pt v) (false, false)).map fun ud => if !ud.1 || !ud.2 then v else Px.zero
  else some Px.zero

/-- `pruneSkiz(imIn, imOut, se)`, DSkeleton.hpp:177-235; `inPl`: the output is the input, which is then filled with zero first. Every
pixel is written by one thread only, so the parallel loop is a loop over the pixels. -/
def pruneSkiz (E : Env (Px t)) (inPl : Bool) (se : StrElt) (im out : Img (Px t)) : Option (Except Int (Img (Px t))) :=
  match checkSize E im out with
  | .error c => some (.error c)
  | .ok _ =>
    let src : Img (Px t) := if inPl then ⟨im.dims, fun _ => Px.zero⟩ else im
    if ∀ i, i < im.dims.count → (prunePx se src i).isSome then
      some (.ok ⟨im.dims, fun i => (prunePx se src i).getD default⟩)
    else none

end Smil
