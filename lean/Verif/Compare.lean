import Verif.Build
import Verif.Measures
import Verif.Residues
import Verif.Histogram
import Mathlib.Data.Rat.Defs
import Mathlib.Order.WithBot

/-!
# Similarity of images

Base/include/private/DImageCompare.hpp. Indices are rationals: the code divides two `double`, so that its results are these numbers rounded.
-/

namespace Smil
variable {t : PT}

/-- `DXM`, DImageCompare.hpp:46. -/
def dxm : Rat := 1 / 2

/-- `ASSERT_ALLOCATED` and `ASSERT_SAME_SIZE` on the two inputs, e.g. DImageCompare.hpp:107-108: with `autoResizeImages` the second image is resized, which loses its
contents, although it is a `const` argument. -/
def cmpCheck (E : Env (Px t)) (a b : Img (Px t)) : Except Int (Img (Px t)) :=
  if a.alloc = false ∨ b.alloc = false then .error errBadAllocation
  else if b.dims = a.dims then .ok b
  else if E.auto then .ok ⟨a.dims, E.raw⟩
  else .error errBadSize

/-- The checks and the computation: an error code becomes the returned index. -/
def indexOf (E : Env (Px t)) (a b : Img (Px t)) (f : Img (Px t) → Img (Px t) → Rat) : Rat :=
  match cmpCheck E a b with
  | .error c => c
  | .ok b' => f a b'

/-- A function restricted to binary images, e.g. lines 312-315: the result is 0 for others. -/
def ifBinary (f : Img (Px t) → Img (Px t) → Rat) (a b : Img (Px t)) : Rat :=
  if isBinary a = false ∨ isBinary b = false then 0 else f a b

/-- `indexRuzicka`, DImageCompare.hpp:143-155. -/
def indexRuzicka (E : Env (Px t)) (a b : Img (Px t)) : Rat :=
  indexOf E a b fun a b => (volOf (Img.zipF kInf a b) + dxm) / (volOf (Img.zipF kSup a b) + dxm)

/-- `indexJaccard`, DImageCompare.hpp:104-119. -/
def indexJaccard (E : Env (Px t)) (a b : Img (Px t)) : Rat :=
  indexOf E a b fun a b =>
    if isBinary a && isBinary b then (areaOf (Img.zipF kLogicAnd a b) + dxm) / (areaOf (Img.zipF kLogicOr a b) + dxm)
    else indexRuzicka E a b

/-- `indexAccuracy`, DImageCompare.hpp:261-284. `none`: overflow in `absDiff`. -/
def indexAccuracy (E : Env (Px t)) (thr : Px t) (a b : Img (Px t)) : Option Rat :=
  match cmpCheck E a b with
  | .error c => some c
  | .ok b =>
    if isBinary a && isBinary b then some (areaOf (Img.zipF kEqu a b) / a.dims.count)
    else (Img.zipK kAbsDiff a b).bind fun d =>
      (Img.mapK (fun v => kCompare ">" v thr (t.wrap 0) (t.wrap 1)) d).map fun o => areaOf o / a.dims.count

/-- `indexPrecision`, DImageCompare.hpp:305-320. -/
def indexPrecision (E : Env (Px t)) (a b : Img (Px t)) : Rat :=
  indexOf E a b (ifBinary fun a b => (areaOf (Img.zipF kInf a b) + dxm) / (areaOf b + dxm))

/-- `indexSensitivity`, DImageCompare.hpp:403-418. -/
def indexSensitivity (E : Env (Px t)) (a b : Img (Px t)) : Rat :=
  indexOf E a b (ifBinary fun a b => (areaOf (Img.zipF kInf a b) + dxm) / (areaOf a + dxm))

/-- `indexRecall`, DImageCompare.hpp:341-347. -/
def indexRecall (E : Env (Px t)) (a b : Img (Px t)) : Rat := indexOf E a b fun a b => indexSensitivity E a b

/-- `indexFScore`, DImageCompare.hpp:369-386. -/
def indexFScore (E : Env (Px t)) (beta : Rat) (a b : Img (Px t)) : Rat :=
  indexOf E a b (ifBinary fun a b =>
    let p := indexPrecision E a b
    let r := indexRecall E a b
    (1 + beta * beta) * (p * r) / (beta * beta * p + r))

/-- `indexSpecificity`, DImageCompare.hpp:440-459. -/
def indexSpecificity (E : Env (Px t)) (a b : Img (Px t)) : Rat :=
  indexOf E a b (ifBinary fun a b =>
    (sizeT (a.dims.count - areaOf (Img.zipF kSup a b)) + dxm) / (sizeT (a.dims.count - areaOf a) + dxm))

/-- `indexFallOut`, DImageCompare.hpp:480-502. -/
def indexFallOut (E : Env (Px t)) (a b : Img (Px t)) : Rat :=
  indexOf E a b (ifBinary fun a b =>
    let tn := sizeT (a.dims.count - areaOf (Img.zipF kSup a b))
    let fp := sizeT (areaOf b - areaOf (Img.zipF kInf a b))
    (fp + dxm) / (sizeT (tn + fp) + dxm))

/-- `indexMissRate`, DImageCompare.hpp:522-540. -/
def indexMissRate (E : Env (Px t)) (a b : Img (Px t)) : Rat :=
  indexOf E a b (ifBinary fun a b =>
    let tp := areaOf (Img.zipF kInf a b)
    let fn := sizeT (areaOf a - tp)
    (fn + dxm) / (sizeT (tp + fn) + dxm))

/-- `indexOverlap`, DImageCompare.hpp:560-576. -/
def indexOverlap (E : Env (Px t)) (a b : Img (Px t)) : Rat :=
  indexOf E a b (ifBinary fun a b => (areaOf (Img.zipF kInf a b) + dxm) / ((min (areaOf a) (areaOf b) : Nat) + dxm))

/-- `distanceHamming`, DImageCompare.hpp:591-602: the error codes are converted to `size_t`. -/
def distanceHamming (E : Env (Px t)) (a b : Img (Px t)) : Nat :=
  match cmpCheck E a b with
  | .error c => sizeT c
  | .ok b => areaOf (Img.zipF kDiff a b)

/-- `ImageBox::getCoords`, Core/include/DCommon.h:497-507. -/
def boxCoords (D : Dims) (off : Nat) : IntPoint := ⟨off % D.w, (off / D.w) % D.h, off / D.w / D.h⟩

/-- `ImageBox::getDistance`, DCommon.h:516-522 and 552-555, squared. The square root is increasing: comparing distances compares these numbers. -/
def boxDist2 (D : Dims) (i j : Nat) : Nat :=
  let a := boxCoords D i
  let b := boxCoords D j
  ((a.x - b.x) ^ 2 + (a.y - b.y) ^ 2 + (a.z - b.z) ^ 2).toNat

/-- The points of the boundary as computed by `distanceHausdorff`, lines 628-634. -/
def edgeOffsets (E : Env (Px t)) (a : Img (Px t)) : Option (List Nat) :=
  match gradient E (SquSE 1) (SquSE 1) a ⟨a.dims, E.raw⟩ with
  | some (.ok g) => some (nonZeroOffsets (Img.zipF kInf a g))
  | _ => none

/-- The arrays `distGt` and `distIn`. `⊤` is the greatest `double`. -/
abbrev HausSt := (Nat → WithTop Nat) × (Nat → WithTop Nat)

/-- The inner loop of `distanceHausdorff`, lines 646-652. -/
def hausInner (d : Nat → Nat → Nat) (i m : Nat) (s : HausSt) : HausSt :=
  (List.range m).foldl (fun (s : HausSt) j =>
    (if (d i j : WithTop Nat) < s.1 i then Function.update s.1 i (d i j : WithTop Nat) else s.1,
     if (d i j : WithTop Nat) < s.2 j then Function.update s.2 j (d i j : WithTop Nat) else s.2)) s

/-- The two nested loops of `distanceHausdorff`, lines 645-653. -/
def hausLoops (d : Nat → Nat → Nat) (n m : Nat) : HausSt :=
  (List.range n).foldl (fun s i => hausInner d i m s) (fun _ => ⊤, fun _ => ⊤)

/-- `supGt` and `supIn`, lines 655-662. -/
def hausSup (n : Nat) (f : Nat → WithTop Nat) : WithTop Nat := (List.range n).foldl (fun s i => if f i > s then f i else s) 0

/-- `distanceHausdorff`, DImageCompare.hpp:614-665: the square of the returned distance, `none` when a gradient fails, `0` squared for images that are
not binary; the error codes are not squared here but separate. -/
def distanceHausdorff (E : Env (Px t)) (a b : Img (Px t)) : Except Int (Option (WithTop Nat)) :=
  match cmpCheck E a b with
  | .error c => .error c
  | .ok b => .ok (
    if isBinary a = false ∨ isBinary b = false then some 0
    else (edgeOffsets E a).bind fun pa => (edgeOffsets E b).map fun pb =>
      let s := hausLoops (fun i j => boxDist2 a.dims (pa.getD i 0) (pb.getD j 0)) pa.length pb.length
      max (hausSup pa.length s.1) (hausSup pb.length s.2))

end Smil
