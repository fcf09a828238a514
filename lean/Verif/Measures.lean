import Verif.Scan
import Verif.LineArith

/-!
# Global measures

Base/include/private/DBaseMeasureOperations.hpp and DMeasures.hpp. Quantities the code accumulates in
a `double` (`area`, `vol`, sums of moments) are integers here: the two agree as long as the partial sums
stay below 2^53.
-/

namespace Smil

/-! ### The drivers -/

section
variable {σ α : Type}

/-- `MeasureFunctionBase`: the members of the functor after `initialize`, and `processSequence`. -/
structure MeasFn (σ α : Type) where
  init : σ
  seq : σ → List α → σ

/-- The sequence of `size` pixels at `pixels + start`. -/
def seqOf (buf : Nat → α) (start size : Nat) : List α :=
  (List.range size).map fun j => buf (start + j)

/-- `curStart`, `curSize` and the functor. -/
structure NzSt (σ : Type) where
  start : Nat
  size : Nat
  s : σ

/-- The body of the loop over the pixels, DBaseMeasureOperations.hpp:86-96. -/
def nzStep (F : MeasFn σ α) (nz : α → Bool) (buf : Nat → α) (st : NzSt σ) (i : Nat) : NzSt σ :=
  if nz (buf i) then ⟨if st.size = 0 ∧ st.start = 0 then i else st.start, st.size + 1, st.s⟩
  else if st.size > 0 then ⟨0, 0, F.seq st.s (seqOf buf st.start st.size)⟩
  else st

/-- The last run, lines 97-98. -/
def nzEnd (F : MeasFn σ α) (buf : Nat → α) (st : NzSt σ) : σ :=
  if st.size > 0 then F.seq st.s (seqOf buf st.start st.size) else st.s

/-- `processImage(imIn, onlyNonZero)`, lines 72-102, up to `finalize`. `none`: the image is not
allocated, the functor stays as initialised and `finalize` is not called. -/
def measRun (F : MeasFn σ α) (nz : α → Bool) (onlyNZ : Bool) (im : Img α) : Option σ :=
  if im.dims.count = 0 then none
  else if onlyNZ = false then some (F.seq F.init (seqOf im.buf 0 im.dims.count))
  else some (nzEnd F im.buf
    ((List.range im.dims.count).foldl (nzStep F nz im.buf) ⟨0, 0, F.init⟩))

/-- `MeasureFunctionWithPos`: `processSequence` also receives the coordinates of the first pixel. -/
structure MeasPos (σ α : Type) where
  init : σ
  seq : σ → List α → Nat → Nat → Nat → σ

/-- The body of the loop over the pixels of a line, lines 195-203. -/
def posStep (F : MeasPos σ α) (nz : α → Bool) (ln : Nat → α) (y z : Nat) (st : NzSt σ) (x : Nat) :
    NzSt σ :=
  if nz (ln x) then ⟨if st.size = 0 then x else st.start, st.size + 1, st.s⟩
  else if st.size > 0 then ⟨st.start, 0, F.seq st.s (seqOf ln st.start st.size) st.start y z⟩
  else st

/-- A line, lines 183 and 190-206. -/
def posLine (F : MeasPos σ α) (nz : α → Bool) (onlyNZ : Bool) (ln : Nat → α) (w y z : Nat) (s : σ) :
    σ :=
  if onlyNZ = false then F.seq s (seqOf ln 0 w) 0 y z
  else
    let st := (List.range w).foldl (posStep F nz ln y z) ⟨0, 0, s⟩
    if st.size > 0 then F.seq st.s (seqOf ln st.start st.size) st.start y z else st.s

/-- `processImage`, lines 166-212, up to `finalize`. -/
def posRun (F : MeasPos σ α) (nz : α → Bool) (onlyNZ : Bool) (im : Img α) : Option σ :=
  if im.dims.count = 0 then none
  else some ((List.range im.dims.d).foldl (fun s z =>
    (List.range im.dims.h).foldl (fun s y =>
      posLine F nz onlyNZ (fun x => im.px x y z) im.dims.w y z s) s) F.init)

end

/-! ### The measures -/

section
variable {t : PT}

/-- `pixels[i] != T(0)`. -/
def nzPx (v : Px t) : Bool := v.val ≠ 0

/-- `measAreaFunc`, DMeasures.hpp:56-64. -/
def areaFn : MeasFn Nat (Px t) := ⟨0, fun s l => s + l.length⟩

/-- `area`, DMeasures.hpp:88-92. -/
def areaOf (im : Img (Px t)) : Nat := (measRun areaFn nzPx true im).getD 0

/-- `measVolFunc`, DMeasures.hpp:95-104. -/
def volFn : MeasFn Int (Px t) := ⟨0, fun s l => l.foldl (fun s v => s + v.val) s⟩

/-- `volume` and `vol`, DMeasures.hpp:126-156. -/
def volOf (im : Img (Px t)) : Int := (measRun volFn nzPx false im).getD 0

/-- `measMinValFunc`, DMeasures.hpp:222-234. -/
def minFn : MeasFn (Px t) (Px t) := ⟨⊤, fun s l => l.foldl (fun s v => if v < s then v else s) s⟩

/-- `minVal`, DMeasures.hpp:266-270. -/
def minValOf (onlyNZ : Bool) (im : Img (Px t)) : Px t := (measRun minFn nzPx onlyNZ im).getD ⊤

/-- `measMaxValFunc`, DMeasures.hpp:299-311. -/
def maxFn : MeasFn (Px t) (Px t) := ⟨⊥, fun s l => l.foldl (fun s v => if v > s then v else s) s⟩

/-- `maxVal`, DMeasures.hpp:343-347. -/
def maxValOf (onlyNZ : Bool) (im : Img (Px t)) : Px t := (measRun maxFn nzPx onlyNZ im).getD ⊥

/-- `measMinMaxValFunc`, DMeasures.hpp:376-401: `(minVal, maxVal)`. -/
def minMaxFn : MeasFn (Px t × Px t) (Px t) :=
  ⟨(⊤, ⊥), fun s l => l.foldl (fun s v => (if v < s.1 then v else s.1, if v > s.2 then v else s.2)) s⟩

/-- `rangeVal`, DMeasures.hpp:411-416: `none` is the empty vector of an image that is not allocated. -/
def rangeValOf (onlyNZ : Bool) (im : Img (Px t)) : Option (Px t × Px t) :=
  measRun minMaxFn nzPx onlyNZ im

/-- `std::set::insert` on the increasing list of the elements. -/
def setInsert (v : Px t) : List (Px t) → List (Px t)
  | [] => [v]
  | a :: l => if v < a then v :: a :: l else if v = a then a :: l else a :: setInsert v l

/-- `valueListFunc`, DMeasures.hpp:427-449. -/
def valueListFn : MeasFn (List (Px t)) (Px t) := ⟨[], fun s l => l.foldl (fun s v => setInsert v s) s⟩

/-- `valueList`, DMeasures.hpp:464-469. -/
def valueListOf (onlyNZ : Bool) (im : Img (Px t)) : List (Px t) :=
  (measRun valueListFn nzPx onlyNZ im).getD []

/-- `nbList[k]++` on a `map<int, int>` held as the list of its pairs in key order, with the entry created
if absent. -/
def mapIncr (k : Int) : List (Int × Nat) → List (Int × Nat)
  | [] => [(k, 1)]
  | (a, n) :: m =>
    if k < a then (k, 1) :: (a, n) :: m else if k = a then (a, n + 1) :: m else (a, n) :: mapIncr k m

/-- `nbList[k]`. -/
def mapGet (k : Int) (m : List (Int × Nat)) : Nat := ((m.find? fun e => e.1 = k).map (·.2)).getD 0

/-- The members of `measModeValFunc`; `ret` is `retVal`, `none` while nothing has been assigned to it. -/
structure ModeSt (t : PT) where
  nb : List (Int × Nat)
  maxNb : Nat
  mode : Px t
  ret : Option (Px t)

/-- The body of the loop, DMeasures.hpp:497-511. The key is `int(val)`. -/
def modeStep (s : ModeSt t) (v : Px t) : ModeSt t :=
  if v.val > 0 then
    let k := (INT32.wrap v.val).val
    let nb := mapIncr k s.nb
    if mapGet k nb > s.maxNb then ⟨nb, mapGet k nb, v, s.ret⟩ else ⟨nb, s.maxNb, s.mode, s.ret⟩
  else s

/-- `measModeValFunc`, DMeasures.hpp:480-515: `retVal` is only assigned at the end of a sequence. -/
def modeFn : MeasFn (ModeSt t) (Px t) :=
  ⟨⟨[], 0, Px.zero, none⟩, fun s l =>
    let s' := l.foldl modeStep s
    ⟨s'.nb, s'.maxNb, s'.mode, some s'.mode⟩⟩

/-- `modeVal`, DMeasures.hpp:531-535. `none`: an uninitialised value is returned. -/
def modeValOf (onlyNZ : Bool) (im : Img (Px t)) : Option (Px t) :=
  (measRun modeFn nzPx onlyNZ im).bind (·.ret)

/-- `measMedianValFunc::processSequence`, DMeasures.hpp:555-569: `(nbList, total_elems)`. -/
def medianFn : MeasFn (List (Int × Nat) × Nat) (Px t) :=
  ⟨([], 0), fun s l => l.foldl (fun s v =>
    if v.val > 0 then (mapIncr (INT32.wrap v.val).val s.1, s.2 + 1) else s) s⟩

/-- The loop of `finalize`, DMeasures.hpp:575-585. `acc_elem > total_elems / 2.0`. -/
def medianLoop (total : Nat) : Nat → List (Int × Nat) → Int
  | _, [] => 0
  | acc, (k, n) :: m => if 2 * (acc + n) > total then k else medianLoop total (acc + n) m

/-- `medianVal`, DMeasures.hpp:600-604. `none`: the image is not allocated and `retVal`, which
`initialize` does not set, is returned. -/
def medianValOf (onlyNZ : Bool) (im : Img (Px t)) : Option (Px t) :=
  (measRun medianFn nzPx onlyNZ im).map fun s => t.wrap (medianLoop s.2 0 s.1)

/-- `measMeanValFunc`, DMeasures.hpp:166-182: `pixNbr`, `sum1` and `sum2`. -/
def meanFn : MeasFn (Nat × Int × Int) (Px t) :=
  ⟨(0, 0, 0), fun s l => l.foldl (fun s v =>
    (s.1 + 1, s.2.1 + v.val, s.2.2 + v.val * v.val)) s⟩

/-- The sums from which `meanVal` divides, DMeasures.hpp:183-206. -/
def meanSums (onlyNZ : Bool) (im : Img (Px t)) : Option (Nat × Int × Int) :=
  measRun meanFn nzPx onlyNZ im

/-- `nonZeroOffsets`, DMeasures.hpp:1360-1374. -/
def nonZeroOffsets (im : Img (Px t)) : List Nat :=
  (List.range im.dims.count).foldl (fun l i => if nzPx (im.buf i) then l ++ [i] else l) []

/-! #### With positions -/

/-- `for (i = 0; i < size; i++, x++)` over a sequence, with the coordinates of the pixels. -/
def seqPos {α : Type} : List α → Nat → Nat → Nat → List (IntPoint × α)
  | [], _, _, _ => []
  | v :: l, x, y, z => (⟨(x : Int), (y : Int), (z : Int)⟩, v) :: seqPos l (x + 1) y z

/-- `measMinValPosFunc`, DMeasures.hpp:236-257; `Point()` is the origin (DCommon.h:133). -/
def minPosFn : MeasPos (Px t × IntPoint) (Px t) :=
  ⟨(⊤, ⟨0, 0, 0⟩), fun s l x y z =>
    (seqPos l x y z).foldl (fun s e => if e.2 < s.1 then (e.2, e.1) else s) s⟩

/-- `minVal(imIn, pt, onlyNonZero)`, DMeasures.hpp:280-287. -/
def minValPos (onlyNZ : Bool) (im : Img (Px t)) : Option (Px t × IntPoint) :=
  posRun minPosFn nzPx onlyNZ im

/-- `measMaxValPosFunc`, DMeasures.hpp:313-334. -/
def maxPosFn : MeasPos (Px t × IntPoint) (Px t) :=
  ⟨(⊥, ⟨0, 0, 0⟩), fun s l x y z =>
    (seqPos l x y z).foldl (fun s e => if e.2 > s.1 then (e.2, e.1) else s) s⟩

/-- `maxVal(imIn, pt, onlyNonZero)`, DMeasures.hpp:357-364. -/
def maxValPos (onlyNZ : Bool) (im : Img (Px t)) : Option (Px t × IntPoint) :=
  posRun maxPosFn nzPx onlyNZ im

/-- `xMin, yMin, zMin, xMax, yMax, zMax`. -/
structure BoxSt where
  x0 : Nat
  y0 : Nat
  z0 : Nat
  x1 : Nat
  y1 : Nat
  z1 : Nat
deriving DecidableEq

/-- `measBoundBoxFunc`, DMeasures.hpp:717-755. The members are `double` and hold exact integers. -/
def boxFn (D : Dims) : MeasPos BoxSt (Px t) :=
  ⟨⟨D.w, D.h, D.d, 0, 0, 0⟩, fun s l x y z =>
    ⟨if x < s.x0 then x else s.x0, if y < s.y0 then y else s.y0,
     if D.d > 1 then (if z < s.z0 then z else s.z0) else s.z0,
     if x + l.length - 1 > s.x1 then x + l.length - 1 else s.x1, if y > s.y1 then y else s.y1,
     if D.d > 1 then (if z > s.z1 then z else s.z1) else s.z1⟩⟩

/-- `measBoundBox`, DMeasures.hpp:757-784: the vector `xMin, yMin (, zMin), xMax, yMax (, zMax)`, empty
for an image that is not allocated. -/
def measBoundBox (im : Img (Px t)) : List Nat :=
  match posRun (boxFn im.dims) nzPx true im with
  | none => []
  | some s =>
    if im.dims.d > 1 then [s.x0, s.y0, s.z0, s.x1, s.y1, s.z1] else [s.x0, s.y0, s.x1, s.y1]

/-- The members of `measMomentsFunc`, DMeasures.hpp:797. -/
structure MomSt where
  m000 : Int
  m100 : Int
  m010 : Int
  m110 : Int
  m200 : Int
  m020 : Int
  m001 : Int
  m101 : Int
  m011 : Int
  m002 : Int
deriving DecidableEq

/-- The body of the loop, DMeasures.hpp:808-822. -/
def momStep (im3d : Bool) (s : MomSt) (e : IntPoint × Px t) : MomSt :=
  let v := e.2.val
  let x := e.1.x
  let y := e.1.y
  let z := e.1.z
  ⟨s.m000 + v, s.m100 + v * x, s.m010 + v * y, s.m110 + v * x * y, s.m200 + v * x * x,
   s.m020 + v * y * y,
   if im3d then s.m001 + v * z else s.m001, if im3d then s.m101 + v * x * z else s.m101,
   if im3d then s.m011 + v * y * z else s.m011, if im3d then s.m002 + v * z * z else s.m002⟩

/-- `measMomentsFunc`, DMeasures.hpp:795-842. -/
def momFn (im3d : Bool) : MeasPos MomSt (Px t) :=
  ⟨⟨0, 0, 0, 0, 0, 0, 0, 0, 0, 0⟩, fun s l x y z => (seqPos l x y z).foldl (momStep im3d) s⟩

/-- `measMoments(im, onlyNonZero, false)`, DMeasures.hpp:824-841 and 926-939; `getDimension() == 3` is
`depth > 1` (DBaseImage.h). -/
def measMoments (onlyNZ : Bool) (im : Img (Px t)) : List Int :=
  match posRun (momFn (decide (im.dims.d > 1))) nzPx onlyNZ im with
  | none => []
  | some s =>
    if im.dims.d > 1 then
      [s.m000, s.m100, s.m010, s.m001, s.m110, s.m101, s.m011, s.m200, s.m020, s.m002]
    else [s.m000, s.m100, s.m010, s.m110, s.m200, s.m020]

end

end Smil
