import Verif.Flood
import Verif.Residues

/-!
# Geodesic reconstruction

Morpho/include/private/DMorphoGeodesic.hpp.
-/

namespace Smil
variable {α : Type}

/-- `HQ_STATUS`, DMorphoHierarQ.hpp:48. -/
inductive HQStat where
  | candidate | queued | labeled | wsLine | final
deriving DecidableEq, Repr

/-- The variables of `processBuildHierarchicalQueue`: the image, the status image, the queue. -/
structure BuildSt (α : Type) where
  val : Nat → α
  stat : Nat → HQStat
  hq : HQ Nat

/-- What an instance of the algorithm is made of: queue constants, level of a value, `oper`
(`minFunctor`, `maxFunctor`: DMorphoGeodesic.hpp:334-347), mask and neighbour lists. `shared`: the
mask is the output image itself. -/
structure BuildCfg (α : Type) where
  P : HQParam
  lev : α → Nat
  oper : α → α → α
  mask : Nat → α
  nbs : Nat → List Nat
  shared : Bool

/-- The mask as it is read during the computation. -/
def BuildCfg.msk (C : BuildCfg α) (s : BuildSt α) (i : Nat) : α :=
  if C.shared then s.val i else C.mask i

/-- The body of the loop over the points of the element, DMorphoGeodesic.hpp:315-322. -/
def buildVisit (C : BuildCfg α) (cur : Nat) (s : BuildSt α) (nb : Nat) : Option (BuildSt α) :=
  if s.stat nb = .candidate then
    let v := C.oper (s.val cur) (C.msk s nb)
    (s.hq.push C.P (C.lev v) nb).map fun q =>
      ⟨Function.update s.val nb v, Function.update s.stat nb .queued, q⟩
  else some s

/-- One iteration of `while (!hq.isEmpty())`, DMorphoGeodesic.hpp:286-327. -/
def buildStep (C : BuildCfg α) (s : BuildSt α) : Option (BuildSt α) :=
  (s.hq.pop C.P).bind fun r =>
    (C.nbs r.1).foldlM (buildVisit C r.1) ⟨s.val, Function.update s.stat r.1 .final, r.2⟩

/-- The loop, with at most `fuel` tests of the condition; `none` is also the exhaustion of the
fuel. -/
def buildLoop (C : BuildCfg α) : Nat → BuildSt α → Option (BuildSt α)
  | 0, _ => none
  | fuel + 1, s => if s.hq.isEmpty then some s else (buildStep C s).bind (buildLoop C fuel)

/-- `initBuildHierarchicalQueue`, DMorphoGeodesic.hpp:207-253: the pixels satisfying `keep` are
pushed in raster order. -/
def buildInit (P : HQParam) (lev : α → Nat) (keep : α → Bool) (val : Nat → α) (n : Nat) :
    Option (HQ Nat) :=
  (List.range n).foldlM (fun q i => if keep (val i) then q.push P (lev (val i)) i else some q)
    (HQ.init P)

/-- The queue part of `build`, `dualBuild` and `binBuild`. The fuel `2 n + 1` is shown to
suffice. -/
def buildRun (C : BuildCfg α) (keep : α → Bool) (val : Nat → α) (stat : Nat → HQStat) (n : Nat) :
    Option (BuildSt α) :=
  (buildInit C.P C.lev keep val n).bind fun q => buildLoop C (2 * n + 1) ⟨val, stat, q⟩

/-- The checks on three images; with `autoResizeImages` the mask itself may be resized, which loses
its contents. The result is the mask as it is used afterwards. -/
def checkSize3 (E : Env α) (im ms out : Img α) : Except Int (Img α) :=
  if im.alloc = false ∨ ms.alloc = false ∨ out.alloc = false then .error errBadAllocation
  else if ms.dims = im.dims ∧ out.dims = im.dims then .ok ms
  else if E.auto then .ok (if ms.dims = im.dims then ms else ⟨im.dims, E.raw⟩)
  else .error errBadSize

/-- The pixels of two images of the same size combined by a total operation. -/
def Img.zipF {α β γ : Type} (F : α → β → γ) (a : Img α) (b : Img β) : Img γ :=
  ⟨a.dims, fun i => F (a.buf i) (b.buf i)⟩

/-- The loop of `geoBuild` and `geoDualBuild`, DMorphoGeodesic.hpp:153-162 and 185-194, with at most
`fuel` iterations; `vol` is an exact sum here, a `double` in the code. -/
def geoLoop (vol : Img α → Int) (morph : Img α → Option (Except Int (Img α))) (F : α → α → α)
    (ms : Img α) : Nat → Img α → Option (Except Int (Img α))
  | 0, _ => none
  | fuel + 1, a => andThen (morph a) fun d =>
      if vol (Img.zipF F d ms) = vol a then some (.ok (Img.zipF F d ms))
      else geoLoop vol morph F ms fuel (Img.zipF F d ms)

section
variable {t : PT}

/-- `isBinary`, Base/include/private/DMeasures.hpp:1386-1400: the image has exactly two values, one
of them zero. -/
def isBinary (im : Img (Px t)) : Bool :=
  let vals := ((List.range im.dims.count).map im.buf).dedup
  vals.contains Px.zero && vals.length == 2

/-- `dualBuild`, DMorphoGeodesic.hpp:358-388. `mOut`: mask and output are the same image (that marker
and output may be the same has no influence). `sup` is the maximum by `C09_*`, and `inf` below the
minimum. -/
def dualBuild (E : Env (Px t)) (mOut : Bool) (se : StrElt) (im ms out : Img (Px t)) :
    Option (Except Int (Img (Px t))) :=
  match checkSize3 E im ms out with
  | .error c => some (.error c)
  | .ok m =>
    let C : BuildCfg (Px t) := ⟨hqParam t false, hqLevel, max, m.buf, nbOffsets im.dims se, mOut⟩
    (buildRun C (fun _ => true) (fun i => max (im.buf i) (m.buf i)) (fun _ => .candidate)
      im.dims.count).map fun s => .ok ⟨im.dims, s.val⟩

/-- `binBuild`, DMorphoGeodesic.hpp:437-467: `test(imMask, HQ_CANDIDATE, HQ_FINAL, imStatus)` and the
pixels at the minimum of the type are not pushed. When the mask is the output the test sees the
infimum. -/
def binBuild (E : Env (Px t)) (mOut : Bool) (se : StrElt) (im ms out : Img (Px t)) :
    Option (Except Int (Img (Px t))) :=
  match checkSize3 E im ms out with
  | .error c => some (.error c)
  | .ok m =>
    let C : BuildCfg (Px t) := ⟨hqParam t true, hqLevel, min, m.buf, nbOffsets im.dims se, mOut⟩
    let val := fun i => min (im.buf i) (m.buf i)
    (buildRun C (fun v => v ≠ ⊥) val
      (fun i => if (if mOut then val i else m.buf i) ≠ Px.zero then .candidate else .final)
      im.dims.count).map fun s => .ok ⟨im.dims, s.val⟩

/-- `build`, DMorphoGeodesic.hpp:398-427. -/
def build (E : Env (Px t)) (mOut : Bool) (se : StrElt) (im ms out : Img (Px t)) :
    Option (Except Int (Img (Px t))) :=
  if isBinary im && isBinary ms then binBuild E mOut se im ms out
  else
    match checkSize3 E im ms out with
    | .error c => some (.error c)
    | .ok m =>
      let C : BuildCfg (Px t) := ⟨hqParam t true, hqLevel, min, m.buf, nbOffsets im.dims se, mOut⟩
      (buildRun C (fun _ => true) (fun i => min (im.buf i) (m.buf i)) (fun _ => .candidate)
        im.dims.count).map fun s => .ok ⟨im.dims, s.val⟩

/-- `geoBuild`, DMorphoGeodesic.hpp:143-164. -/
def geoBuild (E : Env (Px t)) (se : StrElt) (fuel : Nat) (im ms out : Img (Px t)) :
    Option (Except Int (Img (Px t))) :=
  match checkSize3 E im ms out with
  | .error c => some (.error c)
  | .ok m => geoLoop Img.vol (fun a => dilate E true se a a) min m fuel (Img.zipF min im m)

/-- `geoDualBuild`, DMorphoGeodesic.hpp:174-196. -/
def geoDualBuild (E : Env (Px t)) (se : StrElt) (fuel : Nat) (im ms out : Img (Px t)) :
    Option (Except Int (Img (Px t))) :=
  match checkSize3 E im ms out with
  | .error c => some (.error c)
  | .ok m => geoLoop Img.vol (fun a => erode E true se a a) max m fuel (Img.zipF max im m)

/-- The input of an operation that protects itself against in-place use by
`Image<T> tmpIm(imIn)`: this constructor allocates without copying the pixels
(Core/include/private/DImage.hpp:72, DImage.hxx:67-74, `cloneData = false`). -/
def protectedInput (E : Env (Px t)) (inPl : Bool) (im : Img (Px t)) : Img (Px t) :=
  if inPl then ⟨im.dims, E.raw⟩ else im

/-- `hBuild`, DMorphoGeodesic.hpp:513-531. -/
def hBuild (E : Env (Px t)) (inPl : Bool) (se : StrElt) (height : Px t) (im out : Img (Px t)) :
    Option (Except Int (Img (Px t))) :=
  match checkSize E im out with
  | .error c => some (.error c)
  | .ok _ =>
    let im' := protectedInput E inPl im
    (Img.mapK (fun a => kSub a height) im').bind fun m => build E false se m im' m

/-- `hDualBuild`, DMorphoGeodesic.hpp:543-561. -/
def hDualBuild (E : Env (Px t)) (inPl : Bool) (se : StrElt) (height : Px t) (im out : Img (Px t)) :
    Option (Except Int (Img (Px t))) :=
  match checkSize E im out with
  | .error c => some (.error c)
  | .ok _ =>
    let im' := protectedInput E inPl im
    (Img.mapK (fun a => kAdd a height) im').bind fun m => dualBuild E false se m im' m

/-- `buildOpen`, DMorphoGeodesic.hpp:572-587; `inPl`: input and output are the same image. -/
def buildOpen (E : Env (Px t)) (inPl : Bool) (se : StrElt) (im out : Img (Px t)) :
    Option (Except Int (Img (Px t))) :=
  match checkSize E im out with
  | .error c => some (.error c)
  | .ok o => andThen (erode E false se im ⟨im.dims, E.raw⟩) fun m => build E inPl se m im o

/-- `buildClose`, DMorphoGeodesic.hpp:598-613. -/
def buildClose (E : Env (Px t)) (inPl : Bool) (se : StrElt) (im out : Img (Px t)) :
    Option (Except Int (Img (Px t))) :=
  match checkSize E im out with
  | .error c => some (.error c)
  | .ok o => andThen (dilate E false se im ⟨im.dims, E.raw⟩) fun m => dualBuild E inPl se m im o

/-- The pixels written by the three loops of `fillHoles`, DMorphoGeodesic.hpp:709-732: the faces of
the directions with more than two positions. -/
def onFace (D : Dims) (p : IntPoint) : Bool :=
  (D.d > 2 && (p.z == 0 || p.z == D.d - 1)) || (D.h > 2 && (p.y == 0 || p.y == D.h - 1)) ||
    (D.w > 2 && (p.x == 0 || p.x == D.w - 1))

/-- The marker prepared by `fillHoles`, DMorphoGeodesic.hpp:700-732. -/
def holeMarker (t : PT) (D : Dims) : Img (Px t) :=
  ⟨D, fun i => if onFace D (coordPt D i) then ⊥ else ⊤⟩

/-- `fillHoles`, DMorphoGeodesic.hpp:692-740. -/
def fillHoles (E : Env (Px t)) (inPl : Bool) (se : StrElt) (im out : Img (Px t)) :
    Option (Except Int (Img (Px t))) :=
  match checkSize E im out with
  | .error c => some (.error c)
  | .ok o => dualBuild E inPl se (holeMarker t im.dims) im o

/-- `levelPics`, DMorphoGeodesic.hpp:749-767. -/
def levelPics (E : Env (Px t)) (se : StrElt) (im out : Img (Px t)) :
    Option (Except Int (Img (Px t))) :=
  match checkSize E im out with
  | .error c => some (.error c)
  | .ok o =>
    andThen (invImg E im ⟨im.dims, E.raw⟩) fun m =>
    andThen (fillHoles E false se m o) fun r => invImg E r r

/-- `minima`, Morpho/include/private/DMorphoExtrema.hpp:53-72. -/
def minima (E : Env (Px t)) (inPl : Bool) (se : StrElt) (im out : Img (Px t)) :
    Option (Except Int (Img (Px t))) :=
  match checkSize E im out with
  | .error c => some (.error c)
  | .ok _ =>
    let im' := protectedInput E inPl im
    (Img.mapK (fun a => kAdd a (t.wrap 1)) im').bind fun m =>
    andThen (dualBuild E false se m im' m) fun r => some (.ok (Img.zipF kLow im' r))

/-- `maxima`, DMorphoExtrema.hpp:81-100. -/
def maxima (E : Env (Px t)) (inPl : Bool) (se : StrElt) (im out : Img (Px t)) :
    Option (Except Int (Img (Px t))) :=
  match checkSize E im out with
  | .error c => some (.error c)
  | .ok _ =>
    let im' := protectedInput E inPl im
    (Img.mapK (fun a => kSub a (t.wrap 1)) im').bind fun m =>
    andThen (build E false se m im' m) fun r => some (.ok (Img.zipF kGrt im' r))

end
end Smil
