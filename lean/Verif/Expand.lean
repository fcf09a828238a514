import Verif.Stretch
import Verif.Measures
import Verif.Label
import Mathlib.Analysis.SpecialFunctions.Exp

/-!
# Changing the scale of the values

Base/include/private/DImageArith.hpp:1450-1755: `cast`, `expand`, `sCurve`. `none` stands for undefined behaviour: a signed overflow
or the conversion of a `double` to a type that cannot hold it. Simplification: the computations in `double` are exact computations on
rationals, and on real numbers in `sCurve`.
-/

namespace Smil

section
variable {t t2 : PT}

/-- One turn of the loop of `cast`, DImageArith.hpp:1493: `floor_t2 + T2(coeff * double(pixIn[i] - floor_t1))`. -/
def castPx (num den : Int) (v : Px t) : Option (Px t2) := do
  let d ← t.cpp (v.val - t.lo)
  let r : Px t2 ← convToPx t2 ((num : ℚ) / (den : ℚ) * (d : ℚ))
  let s ← t2.cpp (t2.lo + r.val)
  pure (t2.wrap s)

/-- `cast`, DImageArith.hpp:1463-1497; the checks are those of `stretchHist` (the allocation of the output is not tested). -/
def castImg (auto : Bool) (im : Img (Px t)) (dout : Dims) : Option (Except Int (Img (Px t2))) :=
  match stretchCheck auto im.dims dout with
  | .error c => some (.error c)
  | .ok () => do
    let num ← t2.cpp (t2.hi - t2.lo)
    let den ← t.cpp (t.hi - t.lo)
    let r ← im.mapK (castPx num den)
    pure (.ok r)

/-- The coefficients `k1`, `k2`, `k3` of `expand`, DImageArith.hpp:1546-1554. -/
structure ExpandK where
  k1 : ℚ
  k2 : ℚ
  k3 : ℚ

/-- Lines 1549-1554: each coefficient is only computed under its test. -/
def expandK (inMin inMax : Px t) (outMin outMax : Px t2) : Option ExpandK := do
  let k1 : ℚ := if inMin.val > 0 then (outMin.val : ℚ) / (inMin.val : ℚ) else 0
  let k2 : ℚ ← if inMax.val > inMin.val then do
      let a ← t2.cpp (outMax.val - outMin.val)
      let b ← t.cpp (inMax.val - inMin.val)
      pure ((a : ℚ) / (b : ℚ))
    else pure 0
  let k3 : ℚ ← if t.hi > inMax.val then do
      let a ← t2.cpp (t2.hi - outMax.val)
      let b ← t.cpp (t.hi - inMax.val)
      pure ((a : ℚ) / (b : ℚ))
    else pure 0
  pure ⟨k1, k2, k3⟩

/-- One turn of the loop, DImageArith.hpp:1557-1569. -/
def expandPx3 (K : ExpandK) (inMin inMax : Px t) (outMin outMax : Px t2) (v : Px t) : Option (Px t2) :=
  if v.val < inMin.val then convToPx t2 (K.k1 * (v.val : ℚ))
  else if v.val < inMax.val then do
    let d ← t.cpp (v.val - inMin.val)
    convToPx t2 ((outMin.val : ℚ) + K.k2 * (d : ℚ))
  else do
    let d ← t.cpp (v.val - inMax.val)
    convToPx t2 ((outMax.val : ℚ) + K.k3 * (d : ℚ))

/-- `expand(imIn, inMin, inMax, outMin, outMax, imOut)`, DImageArith.hpp:1518-1571. -/
def expand3 (auto : Bool) (im : Img (Px t)) (inMin inMax : Px t) (outMin outMax : Px t2) (dout : Dims) :
    Option (Except Int (Img (Px t2))) :=
  match checkDims auto im.dims dout with
  | .error c => some (.error c)
  | .ok _ => do
    let d ← t.cpp (inMax.val - inMin.val)
    if d = 0 then pure (.error errRes)
    else
      let K ← expandK inMin inMax outMin outMax
      let r ← im.mapK (expandPx3 K inMin inMax outMin outMax)
      pure (.ok r)

/-- One turn of the loop of the second `expand`, DImageArith.hpp:1626. -/
def expandPx (vMin : Px t) (Min : Px t2) (num den : Int) (v : Px t) : Option (Px t2) := do
  let d ← t.cpp (v.val - vMin.val)
  convToPx t2 ((Min.val : ℚ) + (num : ℚ) / (den : ℚ) * (d : ℚ))

/-- `expand(imIn, Min, Max, imOut, onlyNonZero)`, DImageArith.hpp:1589-1629. -/
def expandTo (auto : Bool) (im : Img (Px t)) (Min Max : Px t2) (onlyNZ : Bool) (dout : Dims) :
    Option (Except Int (Img (Px t2))) :=
  match checkDims auto im.dims dout with
  | .error c => some (.error c)
  | .ok _ => do
    let vMin : Px t := if onlyNZ then minValOf false im else ⊥
    let vMax : Px t := if onlyNZ then maxValOf false im else ⊤
    let den ← t.cpp (vMax.val - vMin.val)
    if den = 0 then pure (.error errRes)
    else
      let num ← t2.cpp (Max.val - Min.val)
      let r ← im.mapK (expandPx vMin Min num den)
      pure (.ok r)

/-- `expand(imIn, imOut, onlyNonZero)`, DImageArith.hpp:1645-1656. -/
def expandFull (auto : Bool) (im : Img (Px t)) (onlyNZ : Bool) (dout : Dims) : Option (Except Int (Img (Px t2))) :=
  expandTo auto im ⊥ ⊤ onlyNZ dout

/-- The pivot used by `sCurve`, DImageArith.hpp:1742-1744, `range` being `vMax - vMin`. -/
def sCentre (pivot vMax : Px t) (range : Int) : Px t :=
  if pivot.val = 0 ∨ vMax < pivot then t.wrap (range / 2) else pivot

/-- The conversion `T(x)` of a real number. -/
noncomputable def convRToPx (t : PT) (x : ℝ) : Option (Px t) :=
  let n : Int := if 0 ≤ x then ⌊x⌋ else ⌈x⌉
  if h : t.lo ≤ n ∧ n ≤ t.hi then some ⟨n, h.1, h.2⟩ else none

/-- One turn of the loop of `sCurve`, DImageArith.hpp:1752. -/
noncomputable def sCurvePx (k : ℝ) (ctr v : Px t) : Option (Px t2) := do
  let d ← t.cpp (v.val - ctr.val)
  convRToPx t2 ((t2.hi : ℝ) / (1 + Real.exp (-k * (d : ℝ))))

/-- `sCurve`, DImageArith.hpp:1715-1755. -/
noncomputable def sCurve (auto : Bool) (im : Img (Px t)) (pivot : Px t) (ratio : ℝ) (dout : Dims) :
    Option (Except Int (Img (Px t2))) :=
  match checkDims auto im.dims dout with
  | .error c => some (.error c)
  | .ok _ => do
    let vMin := minValOf false im
    let vMax := maxValOf false im
    let range ← t.cpp (vMax.val - vMin.val)
    if range = 0 then pure (.error errRes)
    else
      let k : ℝ := 4 * ratio / (range : ℝ)
      let r ← im.mapK (sCurvePx k (sCentre pivot vMax range))
      pure (.ok r)

end

end Smil
