import Verif.Residues
import Mathlib.Algebra.Field.Rat

/-!
# The cumulated granulometry

The part of `measGranulometry` for `CDF = true`, which is the default, Morpho/include/private/DMorphoMeasures.hpp:90-97. Simplified: rationals in place of `double`.
-/

namespace Smil
variable {t : PT}

/-- The loop of lines 95-96: `res[i] = res[i] / aSum + res[i - 1]`; `prev` is `res[i - 1]`. -/
def cdfFrom (aSum : ℚ) : ℚ → List Int → List ℚ
  | _, [] => []
  | prev, x :: l => ((x : ℚ) / aSum + prev) :: cdfFrom aSum ((x : ℚ) / aSum + prev) l

/-- Lines 90-97: the sum (91-93), the first value (94), the other ones. `none`: the sum is zero and each value is the quotient of zeros, which is not a number, or (never reached, since the loop before
pushes a value) the vector is empty and `res[0]` lies outside of it. -/
def granCDF (res : List Int) : Option (List ℚ) :=
  let aSum : ℚ := res.foldl (fun (s : ℚ) (x : Int) => s + (x : ℚ)) 0
  match res with
  | [] => none
  | x :: l => if aSum = 0 then none else some (((x : ℚ) / aSum) :: cdfFrom aSum ((x : ℚ) / aSum) l)

/-- `measGranulometry(imIn, se, stepSize, true, maxSeSize)` on an allocated image. `none`: see `measGranulometry`; `some none`: values that are no numbers. -/
def measGranulometryCDF (E : Env (Px t)) (se : StrElt) (stepSize maxSeSize fuel : Nat) (im : Img (Px t)) : Option (Option (List ℚ)) :=
  (measGranulometry E se stepSize maxSeSize fuel im).map granCDF

end Smil
