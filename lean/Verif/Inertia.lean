import Mathlib.Data.Rat.Defs
import Verif.Blob

/-!
# Barycentre, centred moments and inertia matrices

`measBarycenter`, `centerMoments`, `measMoments`, `blobsBarycenter`, `blobsMoments` and `blobsInertiaMatrix`. The `double` sums of products of pixels and
coordinates are exact integers here, their quotients exact rationals; a division by zero (`NaN` or an infinity in the code) is `none`.
-/

namespace Smil
section
variable {t : PT} {κ : Type} [LinearOrder κ]

/-- The members of `measBarycenterFunc`, DMeasures.hpp:660. -/
structure BarSt where
  xs : Int
  ys : Int
  zs : Int
  ts : Int
deriving DecidableEq

/-- The body of the loop of `measBarycenterFunc::processSequence`, DMeasures.hpp:670-676. -/
def barStep (s : BarSt) (e : IntPoint × Px t) : BarSt :=
  ⟨s.xs + e.2.val * e.1.x, s.ys + e.2.val * e.1.y, s.zs + e.2.val * e.1.z, s.ts + e.2.val⟩

/-- `measBarycenterFunc`, DMeasures.hpp:658-677. -/
def barFn : MeasPos BarSt (Px t) := ⟨⟨0, 0, 0, 0⟩, fun s l x y z => (seqPos l x y z).foldl barStep s⟩

/-- A quotient of two `double`; `none` is what a division by zero gives. -/
def quo (a b : Int) : Option ℚ := if b = 0 then none else some ((a : ℚ) / b)

/-- `measBarycenterFunc::finalize`, DMeasures.hpp:678-684; `getDimension() == 3` is `depth > 1` (DBaseImage.h:102-110). -/
def barFin (im3d : Bool) (s : BarSt) : List (Option ℚ) :=
  if im3d then [quo s.xs s.ts, quo s.ys s.ts, quo s.zs s.ts] else [quo s.xs s.ts, quo s.ys s.ts]

/-- `measBarycenter`, DMeasures.hpp:693-697; empty for an image that is not allocated. -/
def measBarycenter (im : Img (Px t)) : List (Option ℚ) :=
  match posRun barFn nzPx false im with
  | none => []
  | some s => barFin (decide (im.dims.d > 1)) s

/-- `blobsBarycenter(im, blobs)`, DBlobMeasures.hpp:223-228. -/
def blobsBarycenter (im : Img (Px t)) (m : BlobMap κ) : Option (List (κ × List (Option ℚ))) :=
  (posBlobMeasure barFn im m).map fun r => r.map fun e => (e.1, barFin (decide (im.dims.d > 1)) e.2)

/-- `centerMoments`, DMeasures.hpp:844-886. `none`: `moments[0]` of an empty vector is undefined. The vectors that reach it have 0, 6 or 10 entries; the
other sizes, which `measMomentsFunc` never gives, are not modelled. -/
def centerMoments : List ℚ → Option (List ℚ)
  | [m0, m1, m2, m3, m4, m5] =>
    if m0 < 1 / 10 ^ 8 then some (List.replicate 6 0)
    else some [m0, 0, 0, m3 - m2 * m1 / m0, m4 - m1 * m1 / m0, m5 - m2 * m2 / m0]
  | [m0, m1, m2, m3, m4, m5, m6, m7, m8, m9] =>
    if m0 < 1 / 10 ^ 8 then some (List.replicate 10 0)
    else some [m0, 0, 0, 0, m4 - m2 * m1 / m0, m5 - m3 * m1 / m0, m6 - m3 * m2 / m0,
      m7 - m1 * m1 / m0, m8 - m2 * m2 / m0, m9 - m3 * m3 / m0]
  | _ => none

/-- `measMoments(im, onlyNonZero, centered)`, DMeasures.hpp:926-939. -/
def measMomentsC (onlyNZ centered : Bool) (im : Img (Px t)) : Option (List ℚ) :=
  let m := (measMoments onlyNZ im).map fun z : Int => (z : ℚ)
  if centered then centerMoments m else some m

/-- `measMomentsFunc::finalize`, DMeasures.hpp:824-841. -/
def momVec (im3d : Bool) (s : MomSt) : List ℚ :=
  if im3d then [(s.m000 : ℚ), s.m100, s.m010, s.m001, s.m110, s.m101, s.m011, s.m200, s.m020, s.m002]
  else [(s.m000 : ℚ), s.m100, s.m010, s.m110, s.m200, s.m020]

/-- `blobsMoments(im, blobs, central)`, DBlobMeasures.hpp:279-294. -/
def blobsMoments (central : Bool) (im : Img (Px t)) (m : BlobMap κ) : Option (List (κ × List ℚ)) :=
  (posBlobMeasure (momFn (decide (im.dims.d > 1))) im m).bind fun r =>
    let v := r.map fun e => (e.1, momVec (decide (im.dims.d > 1)) e.2)
    if central then v.mapM fun e => (centerMoments e.2).map fun c => (e.1, c) else some v

/-- The matrix of a vector of moments, line by line, DBlobOperations.hpp:160-200; `none` is `Not enough moments...`. -/
def inertiaOf (im3d : Bool) (m : List ℚ) : Option (List ℚ) :=
  if im3d then
    match m with
    | [_, _, _, _, m4, m5, m6, m7, m8, m9] => some [m8 + m9, -m4, -m5, -m4, m7 + m9, -m6, -m5, -m6, m7 + m8]
    | _ => none
  else
    match m with
    | [_, _, _, m3, m4, m5] => some [m4, -m3, -m3, m5]
    | _ => none

/-- `moments[label]` of a `std::map`: an empty vector when there is none. -/
def momAt (r : List (κ × List ℚ)) (k : κ) : List ℚ := ((r.find? fun e => decide (e.1 = k)).map Prod.snd).getD []

/-- `blobsInertiaMatrix(im, blobs, central)`, DBlobOperations.hpp:137-206. -/
def blobsInertiaMatrix (central : Bool) (im : Img (Px t)) (m : BlobMap κ) : Option (List (κ × List ℚ)) :=
  if im.dims.count = 0 then some []
  else (blobsMoments central im m).map fun r =>
    m.filterMap fun b => (inertiaOf (decide (im.dims.d > 1)) (momAt r b.1)).map fun v => (b.1, v)

end
end Smil
