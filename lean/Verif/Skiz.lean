import Verif.BuildTop
import Verif.Histogram
import Verif.FastLineOps
import Verif.Label
import Verif.Residues

/-!
# Skeleton by influence zones of a label image

Morpho/include/private/DMorphoWatershed.hpp:444-535.
-/

namespace Smil
variable {t : PT}

/-- The checks on three images, DMorphoWatershed.hpp:448-449; with `autoResizeImages` the second and the third image may be
resized, which loses their contents. -/
def skizCheck (E : Env (Px t)) (a b m : Img (Px t)) : Except Int (Img (Px t) × Img (Px t)) :=
  if a.alloc = false ∨ b.alloc = false ∨ m.alloc = false then .error errBadAllocation
  else if b.dims = a.dims ∧ m.dims = a.dims then .ok (b, m)
  else if E.auto then
    .ok (if b.dims = a.dims then b else ⟨a.dims, E.raw⟩, if m.dims = a.dims then m else ⟨a.dims, E.raw⟩)
  else .error errBadSize

/-- The return codes inside of the loop are ignored: after an error the output of the call is what it was. -/
def okOr {α : Type} (tmp : Img α) : Except Int (Img α) → Img α
  | .ok r => r
  | .error _ => tmp

/-- The body of the loop, DMorphoWatershed.hpp:463-472. The outputs of `dilate` are images of the same size; their
contents before the call are arbitrary (`newLike`). -/
def skizStep (E : Env (Px t)) (se : StrElt) (m : Img (Px t)) (s : Img (Px t) × Img (Px t)) :
    Option (Img (Px t) × Img (Px t)) :=
  (dilate E false se s.1 (newLike E s.1)).bind fun r1 =>
  (dilate E false se s.2 (newLike E s.2)).bind fun r2 =>
  (Img.zipK kAddNoSat s.1 s.2).map fun sum =>
    let th := Img.zipF (fun u v => kInf u (kThresh ⊥ (t.wrap (t.hi - 1)) ⊤ ⊥ v)) m sum
    (Img.zipF kSup s.1 (Img.zipF (fun d k => kTest k d Px.zero) (okOr (newLike E s.1) r1) th),
     Img.zipF kSup s.2 (Img.zipF (fun d k => kTest k d Px.zero) (okOr (newLike E s.2) r2) th))

/-- `while (vol1 < vol2)`, DMorphoWatershed.hpp:462-476, with at most `fuel` tests of the condition; the volumes are exact
sums here, `double` in the code. -/
def skizLoop (E : Env (Px t)) (se : StrElt) (m : Img (Px t)) : Nat → Int → Int → Img (Px t) × Img (Px t) →
    Option (Img (Px t) × Img (Px t))
  | 0, _, _, _ => none
  | fuel + 1, vol1, vol2, s =>
    if vol1 < vol2 then (skizStep E se m s).bind fun s' => skizLoop E se m fuel vol2 s'.1.vol s'
    else some s

/-- `lblSkiz`, DMorphoWatershed.hpp:444-478: both label images are modified. -/
def lblSkiz (E : Env (Px t)) (se : StrElt) (fuel : Nat) (l1 l2 m : Img (Px t)) :
    Option (Except Int (Img (Px t) × Img (Px t))) :=
  match skizCheck E l1 l2 m with
  | .error c => some (.error c)
  | .ok (b, m) => (skizLoop E se m fuel (-1) 0 (l1, b)).map .ok

/-- `inflBasins`, DMorphoWatershed.hpp:486-510: the labels of the input (type `s`, output type `t`), their complements,
`lblSkiz` without mask, then an opening of the basins in place with the default element `dflt`, whatever `se` is. The return codes of
`label`, `inv`, `mask` and `open` are ignored, that of `lblSkiz` becomes `RES_ERR` by `ASSERT`. -/
def inflBasins {s : PT} (E : Env (Px t)) (dflt se : StrElt) (fuel : Nat) (im : Img (Px s)) (out : Img (Px t)) :
    Option (Except Int (Img (Px t))) :=
  match checkDims E.auto im.dims out.dims with
  | .error c => some (.error c)
  | .ok _ =>
    (label E.auto t.hi.toNat false dflt se im im.dims).bind fun r => match r with
    | .error c => some (.error c)
    | .ok (_, lab) =>
      let l1 : Img (Px t) := ⟨lab.dims, fun i => t.wrap (lab.buf i)⟩
      (Img.mapK kInv l1).bind fun iv =>
      (lblSkiz E se fuel l1 (Img.zipF (fun v k => kTest k v Px.zero) iv l1) ⟨lab.dims, fun _ => ⊤⟩).bind fun r => match r with
      | .error c => some (.error c)
      | .ok (z, _) => morphOpen E true dflt z z

/-- The element without points, `StrElt()`, DStructuringElement.h:70-74. -/
def emptySE : StrElt := ⟨false, .generic, 1, []⟩

/-- `inflZones`, DMorphoWatershed.hpp:519-535 for an image of type `s`: `UINT16` basins, their gradient (dilation by `se`
minus "erosion" by `StrElt()`), threshold between `min + 1` and the maximum of `s`, conversion back. -/
def inflZones {s : PT} (E : Env (Px UINT16)) (dflt se : StrElt) (fuel : Nat) (im out : Img (Px s)) :
    Option (Except Int (Img (Px s))) :=
  match checkDims E.auto im.dims out.dims with
  | .error c => some (.error c)
  | .ok _ =>
    (inflBasins E dflt se fuel im ⟨im.dims, E.raw⟩).bind fun r => match r with
    | .error c => some (.error c)
    | .ok b =>
      (gradient E se emptySE b b).map fun g =>
        .ok ⟨b.dims, fun i => s.wrap (kThresh (UINT16.wrap (s.lo + 1)) (UINT16.wrap s.hi) (⊤ : Px UINT16) ⊥ ((okOr b g).buf i)).val⟩

end Smil
