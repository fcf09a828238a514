import Verif.ImgOps
import Verif.LineArith

/-!
# Residues and granulometry

Morpho/include/private/DMorphoResidues.hpp, DMorphoMeasures.hpp.
-/

namespace Smil
variable {t : PT}

/-- `sub(imA, imB, imOut)` (Base/include/private/DImageArith.hpp:160-166) for two images of the
same size; only the output can have another size. -/
def subImg (E : Env (Px t)) (a b out : Img (Px t)) : Option (Except Int (Img (Px t))) :=
  guarded E a out fun _ => Img.zipK kSub a b

/-- `gradient(imIn, imOut, dilSe, eroSe)`, DMorphoResidues.hpp:83-97. The fresh images `dilIm` and
`eroIm` have the size of the input. -/
def gradient (E : Env (Px t)) (dilSe eroSe : StrElt) (im out : Img (Px t)) :
    Option (Except Int (Img (Px t))) :=
  andThen (dilate E false dilSe im ⟨im.dims, E.raw⟩) fun d =>
  andThen (erode E false eroSe im ⟨im.dims, E.raw⟩) fun e => subImg E d e out

/-- `topHat`, DMorphoResidues.hpp:113-123. -/
def topHat (E : Env (Px t)) (se : StrElt) (im out : Img (Px t)) : Option (Except Int (Img (Px t))) :=
  andThen (morphOpen E false se im ⟨im.dims, E.raw⟩) fun o => subImg E im o out

/-- `dualTopHat`, DMorphoResidues.hpp:139-149. -/
def dualTopHat (E : Env (Px t)) (se : StrElt) (im out : Img (Px t)) :
    Option (Except Int (Img (Px t))) :=
  andThen (morphClose E false se im ⟨im.dims, E.raw⟩) fun c => subImg E c im out

/-- `inv(imIn, imOut)`, DImageArith.hpp:70-76. -/
def invImg (E : Env (Px t)) (a out : Img (Px t)) : Option (Except Int (Img (Px t))) :=
  guarded E a out fun _ => Img.mapK kInv a

/-- `vol`, Base/include/private/DMeasures.hpp: sum of the pixels (a `double` in the code, exact
integers here). -/
def Img.vol (im : Img (Px t)) : Int := ((List.range im.dims.count).map fun i => (im.buf i).val).sum

/-- `maxVal`. -/
def Img.maxVal {α : Type} [LinearOrder α] [OrderBot α] (im : Img α) : α :=
  ((List.range im.dims.count).map im.buf).foldl max ⊥

/-- `minVal`. -/
def Img.minVal {α : Type} [LinearOrder α] [OrderTop α] (im : Img α) : α :=
  ((List.range im.dims.count).map im.buf).foldl min ⊤

/-- The variables of the loop of `measGranulometry`. -/
structure GranState (t : PT) where
  imEro : Img (Px t)
  imOpen : Img (Px t)
  seSize : Nat
  v0 : Int
  res : List Int

/-- One iteration of the loop, DMorphoMeasures.hpp:80-87 (without the stop test). -/
def granStep (E : Env (Px t)) (se : StrElt) (stepSize : Nat) (s : GranState t) :
    Option (GranState t) :=
  (erode E true (se.resize stepSize) s.imEro s.imEro).bind fun e =>
  (match e with | .ok a => some a | .error _ => some s.imEro).bind fun ero =>
  (dilate E false (se.resize s.seSize) ero s.imOpen).bind fun d =>
  (match d with | .ok a => some a | .error _ => some s.imOpen).bind fun opn =>
  some ⟨ero, opn, s.seSize + stepSize, opn.vol, s.res ++ [s.v0 - opn.vol]⟩

/-- The `do … while` loop with at most `fuel` further iterations; `none` also when the fuel is
exhausted. -/
def granLoop (E : Env (Px t)) (se : StrElt) (stepSize maxSeSize : Nat) (minv : Px t) :
    Nat → GranState t → Option (GranState t)
  | 0, _ => none
  | fuel + 1, s => (granStep E se stepSize s).bind fun s' =>
    if s'.imEro.maxVal > minv ∧ (maxSeSize = 0 ∨ maxSeSize ≥ s'.seSize) then
      granLoop E se stepSize maxSeSize minv fuel s'
    else some s'

/-- `measGranulometry(imIn, se, stepSize, CDF = false, maxSeSize)`, DMorphoMeasures.hpp:61-98, on
an allocated image. The normalisation of the cumulated version is not modelled. -/
def measGranulometry (E : Env (Px t)) (se : StrElt) (stepSize maxSeSize fuel : Nat) (im : Img (Px t)) :
    Option (List Int) :=
  (granLoop E se stepSize maxSeSize im.minVal fuel
    ⟨im, ⟨im.dims, E.raw⟩, stepSize, im.vol, []⟩).map GranState.res

end Smil
