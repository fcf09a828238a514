import Verif.Blob
import Mathlib.Algebra.Order.Floor.Ring
import Mathlib.Data.Rat.Floor

/-!
# Labelling with a measure of each component

Morpho/include/private/DMorphoLabel.hpp:674-864: `labelWithArea`, `labelWithVolume`, `labelWithMaxima`, `labelWithMean`. The
measures are kept as rationals instead of `double`.
-/

namespace Smil
section
variable {t l u v : PT}

/-- The conversion of a `double` to an integer type: the fraction is dropped; undefined when the result does not fit. -/
def truncPx (v : PT) (q : ℚ) : Option (Px v) :=
  let z : Int := if 0 ≤ q then ⌊q⌋ else ⌈q⌉
  if v.lo ≤ z ∧ z ≤ v.hi then some (v.wrap z) else none

/-- The loop of `applyLookup`, DImageArith.hpp:1967-1975, with a `map` to `double` (or to the type of the input); the default value is zero. Every key
of the table is the value of some pixel, so every value is converted. -/
def lookPx (v : PT) (m : List (Px u × ℚ)) (lab : Img (Px u)) : Option (Img (Px v)) :=
  if m.all fun e => (truncPx v e.2).isSome then
    some ⟨lab.dims, fun i => match m.find? fun e => e.1 = lab.buf i with
      | some e => (truncPx v e.2).getD (v.wrap 0)
      | none => v.wrap 0⟩
  else none

/-- What the four functions share. `im` is the image that is measured and `imL` the one that is labelled; `imLabel(imIn)` (lines 698, 741, 788, 835) has the
size of the first and arbitrary pixels `raw`; `label` may resize it, and when it refuses its error code is not zero, so that line 700 (743, 790, 837) lets it
pass. `cap` is the maximum of the type `T2` of the labels, with which the greatest measure is compared. The result: what is returned, before the
conversion to `size_t`, and the output if it is written. `label` is called twice (744, 791, 838), with the same effect as once. The comparison of line
1959 of DImageArith.hpp is with the maximum of the output type. -/
def labelWith (v : PT) (auto : Bool) (raw : Nat → Px u) (dflt se : StrElt) (im : Img (Px t)) (imL : Img (Px l)) (dout : Dims)
    (meas : BlobMap (Px u) → Option (List (Px u × ℚ))) : Option (Int × Option (Img (Px v))) :=
  match checkDims auto im.dims dout with
  | .error c => some (c, none)
  | .ok _ =>
    (label auto u.hi.toNat false dflt se imL im.dims).bind fun r =>
      let lab : Img (Px u) := match r with
        | .ok r => ⟨r.2.dims, fun i => u.wrap (r.2.buf i)⟩
        | .error _ => ⟨im.dims, raw⟩
      if labelRet r = 0 then some (-100, none)
      else
        (meas (computeBlobs (u.wrap 0) true lab)).bind fun m =>
          if m = [] then some (-100, none)
          else if m.any fun e => decide ((u.hi : ℚ) ≤ e.2) then some (0, none)
          else
            match checkDims auto lab.dims im.dims with
            | .error _ => some (-100, none)
            | .ok _ =>
              if m.any fun e => decide ((v.hi : ℚ) < e.2) then some (-100, none)
              else (lookPx v m lab).map fun o => (0, some o)

/-- `labelWithArea`, DMorphoLabel.hpp:689-713. -/
def labelWithArea (auto : Bool) (raw : Nat → Px u) (dflt se : StrElt) (im : Img (Px t)) (dout : Dims) : Option (Int × Option (Img (Px u))) :=
  labelWith u auto raw dflt se im im dout fun b => some ((blobsArea b).map fun e => (e.1, (e.2 : ℚ)))

/-- `labelWithVolume`, DMorphoLabel.hpp:732-760. -/
def labelWithVolume (auto : Bool) (raw : Nat → Px u) (dflt se : StrElt) (im : Img (Px t)) (imL : Img (Px u)) (dout : Dims) :
    Option (Int × Option (Img (Px u))) :=
  labelWith u auto raw dflt se im imL dout fun b => (blobMeasure volFn im b).map fun r => r.map fun e => (e.1, (e.2 : ℚ))

/-- `labelWithMaxima`, DMorphoLabel.hpp:779-807. When `T1 = T2` is `UINT8` or `UINT16` the table version of `applyLookup` is chosen; labels stay
below the maximum of the type, so it gives the same image. -/
def labelWithMaxima (auto : Bool) (raw : Nat → Px u) (dflt se : StrElt) (im : Img (Px t)) (imL : Img (Px u)) (dout : Dims) :
    Option (Int × Option (Img (Px u))) :=
  labelWith u auto raw dflt se im imL dout fun b => (blobMeasure maxFn im b).map fun r => r.map fun e => (e.1, (e.2.val : ℚ))

/-- `labelWithMean`, DMorphoLabel.hpp:826-864: the output has the type of the measured image, the comparison is with the maximum of the type of the
labels. -/
def labelWithMean (auto : Bool) (raw : Nat → Px u) (dflt se : StrElt) (im : Img (Px t)) (imL : Img (Px u)) (dout : Dims) :
    Option (Int × Option (Img (Px t))) :=
  labelWith t auto raw dflt se im imL dout fun b =>
    (blobMeasure meanFn im b).map fun r => r.map fun e => (e.1, if e.2.1 = 0 then 0 else (e.2.2.1 : ℚ) / (e.2.1 : ℚ))

end
end Smil
