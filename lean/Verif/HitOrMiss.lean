import Verif.BuildTop
import Verif.Residues
import Verif.PropsCompositeSE

/-!
# Hit-or-miss, thinning, thickening

Morpho/include/private/DHitOrMiss.hpp. The nested operations are checked by
`ASSERT(... == RES_OK)`; as all the images have the size of the input they cannot fail once the first
checks are passed, so the code they would return is not distinguished.
-/

namespace Smil
variable {t : PT}

/-- `erode(imIn, imOut, se, borderVal)`, Morpho/include/private/DMorphoBase.hpp:111-120, with a
border value. -/
def erodeB (E : Env (Px t)) (inPl : Bool) (border : Px t) (se : StrElt) (im out : Img (Px t)) :
    Option (Except Int (Img (Px t))) :=
  guarded E im out fun o => execMorph E min border inPl se.transpose im o

/-- `hitOrMiss(imIn, foreSE, backSE, imOut, borderVal)`, DHitOrMiss.hpp:70-86. `inPl` says that
`imOut` is `imIn`: the second erosion then reads what the first one has written. -/
def hitOrMiss (E : Env (Px t)) (inPl : Bool) (border : Px t) (fg bg : StrElt) (im out : Img (Px t)) :
    Option (Except Int (Img (Px t))) :=
  match checkSize E im out with
  | .error c => some (.error c)
  | .ok o =>
    andThen (invImg E im ⟨im.dims, E.raw⟩) fun tmp =>
    andThen (erodeB E false border bg tmp o) fun o1 =>
    andThen (erodeB E false border fg (if inPl then o1 else im) tmp) fun tmp1 =>
    some (.ok (Img.zipF kInf tmp1 o1))

/-- The loop of `hitOrMiss(imIn, mhtSE, imOut, borderVal)`, DHitOrMiss.hpp:129-134: the supremum of
the transforms is collected in `o`. -/
def hitOrMissLoop (E : Env (Px t)) (inPl : Bool) (border : Px t) (im : Img (Px t)) :
    List CompStrElt → Img (Px t) → Option (Except Int (Img (Px t)))
  | [], o => some (.ok o)
  | c :: cs, o =>
    andThen (hitOrMiss E false border c.fg c.bg (if inPl then o else im) ⟨im.dims, E.raw⟩) fun tmp =>
    hitOrMissLoop E inPl border im cs (Img.zipF kSup o tmp)

/-- `hitOrMiss(imIn, mhtSE, imOut, borderVal)`, DHitOrMiss.hpp:118-136; the output (the input
itself when `inPl`) is first filled with the minimum. -/
def hitOrMissList (E : Env (Px t)) (inPl : Bool) (border : Px t) (cs : List CompStrElt)
    (im out : Img (Px t)) : Option (Except Int (Img (Px t))) :=
  match checkSize E im out with
  | .error c => some (.error c)
  | .ok _ => hitOrMissLoop E inPl border im cs ⟨im.dims, fun _ => ⊥⟩

/-- `thin(imIn, foreSE, backSE, imOut)`, DHitOrMiss.hpp:151-166. The output is only written by the
last operation, pixel by pixel from the same position of the input, so that the result is the same
when the output is the input. -/
def thin (E : Env (Px t)) (fg bg : StrElt) (im out : Img (Px t)) : Option (Except Int (Img (Px t))) :=
  match checkSize E im out with
  | .error c => some (.error c)
  | .ok _ =>
    andThen (hitOrMiss E false ⊥ fg bg im ⟨im.dims, E.raw⟩) fun tmp =>
    andThen (invImg E tmp tmp) fun tmp1 => some (.ok (Img.zipF kInf im tmp1))

/-- `thick(imIn, foreSE, backSE, imOut)`, DHitOrMiss.hpp:227-241. -/
def thick (E : Env (Px t)) (fg bg : StrElt) (im out : Img (Px t)) : Option (Except Int (Img (Px t))) :=
  match checkSize E im out with
  | .error c => some (.error c)
  | .ok _ =>
    andThen (hitOrMiss E false ⊥ fg bg im ⟨im.dims, E.raw⟩) fun tmp =>
    some (.ok (Img.zipF kSup im tmp))

/-- The loops of lines 205-208 and 281-284: each element in turn, in place. -/
def seqOps (op : CompStrElt → Img (Px t) → Option (Except Int (Img (Px t)))) :
    List CompStrElt → Img (Px t) → Option (Except Int (Img (Px t)))
  | [], a => some (.ok a)
  | c :: cs, a => andThen (op c a) fun a' => seqOps op cs a'

/-- `thin(imIn, mhtSE, imOut)`, DHitOrMiss.hpp:195-212: the elements are applied in turn on a clone
of the input, which is then copied. -/
def thinList (E : Env (Px t)) (cs : List CompStrElt) (im out : Img (Px t)) :
    Option (Except Int (Img (Px t))) :=
  match checkSize E im out with
  | .error c => some (.error c)
  | .ok _ => seqOps (fun c a => thin E c.fg c.bg a a) cs im

/-- `thick(imIn, mhtSE, imOut)`, DHitOrMiss.hpp:270-288. -/
def thickList (E : Env (Px t)) (cs : List CompStrElt) (im out : Img (Px t)) :
    Option (Except Int (Img (Px t))) :=
  match checkSize E im out with
  | .error c => some (.error c)
  | .ok _ => seqOps (fun c a => thick E c.fg c.bg a a) cs im

/-- The loop `while (true)` of lines 314-320 and 381-387, with at most `fuel` iterations (`none`:
fuel exhausted). The volumes are `double` in the code, exact integers here. -/
def untilStable (op : Img (Px t) → Option (Except Int (Img (Px t)))) :
    Nat → Img (Px t) → Option (Except Int (Img (Px t)))
  | 0, _ => none
  | fuel + 1, o => andThen (op o) fun o' =>
    if o'.vol = o.vol then some (.ok o') else untilStable op fuel o'

/-- `fullThin(imIn, mhtSE, imOut)`, DHitOrMiss.hpp:303-323. -/
def fullThin (E : Env (Px t)) (fuel : Nat) (cs : List CompStrElt) (im out : Img (Px t)) :
    Option (Except Int (Img (Px t))) :=
  match checkSize E im out with
  | .error c => some (.error c)
  | .ok o => andThen (thinList E cs im o) fun o1 => untilStable (fun a => thinList E cs a a) fuel o1

/-- `fullThick(imIn, mhtSE, imOut)`, DHitOrMiss.hpp:371-390. -/
def fullThick (E : Env (Px t)) (fuel : Nat) (cs : List CompStrElt) (im out : Img (Px t)) :
    Option (Except Int (Img (Px t))) :=
  match checkSize E im out with
  | .error c => some (.error c)
  | .ok o => andThen (thickList E cs im o) fun o1 => untilStable (fun a => thickList E cs a a) fuel o1

end Smil
