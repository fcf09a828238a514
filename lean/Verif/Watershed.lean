import Verif.Label

/-!
# Flooding: basins and watershed

Morpho/include/private/DMorphoWatershed.hpp. The images given to one call are assumed to be distinct
objects, except that markers and basins may be the same image. Labels are natural numbers bounded by
the maximum of the label type.
-/

namespace Smil

/-- What a flooding is made of: queue constants, number of pixels, level of each pixel of the input
(`size_t(inPixels[i]) - GRAY_LEVEL_MIN`) and neighbour lists. -/
structure FloodCfg where
  P : HQParam
  n : Nat
  lev : Nat → Nat
  nbs : Nat → List Nat

/-- State of `BaseFlooding`: label buffer and queue. `pushed` is not in the code: it records the
arguments of the calls of `hq.push`. -/
structure BasSt where
  lbl : Nat → Nat
  hq : HQ Nat
  pushed : List Nat

/-- `processNeighbor`, DMorphoWatershed.hpp:217-230. -/
def basVisit (C : FloodCfg) (cur : Nat) (s : BasSt) (nb : Nat) : Option BasSt :=
  if s.lbl nb = 0 then
    (s.hq.push C.P (C.lev nb) nb).map fun q =>
      ⟨Function.update s.lbl nb (s.lbl cur), q, s.pushed ++ [nb]⟩
  else some s

/-- `processPixel(hq.pop())`, DMorphoWatershed.hpp:178-215. -/
def basStep (C : FloodCfg) (s : BasSt) : Option BasSt :=
  (s.hq.pop C.P).bind fun r => (C.nbs r.1).foldlM (basVisit C r.1) ⟨s.lbl, r.2, s.pushed⟩

/-- `while (!hq.isEmpty())`, DMorphoWatershed.hpp:178-180, with at most `fuel` tests; `none` is also
the exhaustion of the fuel. -/
def basLoop (C : FloodCfg) : Nat → BasSt → Option BasSt
  | 0, _ => none
  | fuel + 1, s => if s.hq.isEmpty then some s else (basStep C s).bind (basLoop C fuel)

/-- The pushes of the markers, DMorphoWatershed.hpp:171-174. -/
def markerInit (C : FloodCfg) (lbl : Nat → Nat) : Option (HQ Nat × List Nat) :=
  (List.range C.n).foldlM (fun s i =>
    if lbl i ≠ 0 then (s.1.push C.P (C.lev i) i).map fun q => (q, s.2 ++ [i]) else some s)
    (HQ.init C.P, [])

/-- `processImage`, DMorphoWatershed.hpp:152-183. The fuel is shown to suffice. -/
def basRun (C : FloodCfg) (lbl : Nat → Nat) : Option BasSt :=
  (markerInit C lbl).bind fun r => basLoop C (C.n + 1) ⟨lbl, r.1, r.2⟩

/-- The checks on three images, of which the second one is read (`ASSERT_ALLOCATED`,
`ASSERT_SAME_SIZE`, Core/include/DBaseImage.h:388-438): with `autoResizeImages` it may be resized,
which loses its contents (`raw`). -/
def floodCheck (auto : Bool) (raw : Nat → Nat) (di : Dims) (mk : Img Nat) (dout : Dims) :
    Except Int (Img Nat) :=
  if di.count = 0 ∨ mk.dims.count = 0 ∨ dout.count = 0 then .error errBadAllocation
  else if mk.dims = di ∧ dout = di then .ok mk
  else if auto then .ok (if mk.dims = di then mk else ⟨di, raw⟩)
  else .error errBadSize

/-- `RES_ERR`, Core/include/DErrors.h:49-58. -/
def resErr : Int := -100

/-- The flooding of an image. -/
def floodCfg {t : PT} (se : StrElt) (im : Img (Px t)) : FloodCfg :=
  ⟨hqParam t false, im.dims.count, fun i => hqLevel (im.buf i), nbOffsets im.dims se⟩

/-- `basins(imIn, imMarkers, imBasinsOut, se)`, DMorphoWatershed.hpp:95-115, 362-368; `M` is the
maximum of the label type, `ASSERT(maxVal(imMarkers) < STAT_QUEUED)`. -/
def basins {t : PT} (auto : Bool) (raw : Nat → Nat) (M : Nat) (se : StrElt) (im : Img (Px t))
    (mk : Img Nat) (dout : Dims) : Option (Except Int (Img Nat)) :=
  match floodCheck auto raw im.dims mk dout with
  | .error c => some (.error c)
  | .ok m =>
    if (List.range im.dims.count).all (fun i => m.buf i < M) then
      (basRun (floodCfg se im) m.buf).map fun s => .ok ⟨im.dims, s.lbl⟩
    else some (.error resErr)

/-- `basins(imIn, imBasinsInOut, se)`, DMorphoWatershed.hpp:370-381: the markers are the labelled minima
(`minimaLabeled`, Morpho/include/private/DMorphoExtrema.hpp:109-123, whose return codes are ignored);
`se` is not passed on to the flooding, which uses the default element `dflt`. -/
def basinsMinima {t : PT} (E : Env (Px t)) (raw : Nat → Nat) (M : Nat) (dflt se : StrElt)
    (im : Img (Px t)) (dout : Dims) : Option (Except Int (Img Nat)) :=
  match checkDims E.auto im.dims dout with
  | .error c => some (.error c)
  | .ok _ =>
    (minima E false se im ⟨im.dims, E.raw⟩).bind fun r =>
      let m : Img (Px t) := match r with | .ok m => m | .error _ => ⟨im.dims, E.raw⟩
      (label E.auto M false dflt se m im.dims).bind fun r =>
        let l : Img Nat := match r with | .ok l => l.2 | .error _ => ⟨im.dims, raw⟩
        basins E.auto raw M dflt im l im.dims

/-! ### Watershed -/

/-- State of `WatershedFlooding`: label buffer, status buffer (the output image), queue; `pushed` as
above. -/
structure WsSt (t : PT) where
  lbl : Nat → Nat
  ws : Nat → Px t
  hq : HQ Nat
  pushed : List Nat

/-- `STAT_LABELED`, DMorphoWatershed.hpp:248. -/
def stLabeled (t : PT) : Px t := t.wrap 1
/-- `STAT_QUEUED`, DMorphoWatershed.hpp:248. -/
def stQueued (t : PT) : Px t := t.wrap 2
/-- `STAT_CANDIDATE`, DMorphoWatershed.hpp:249. -/
def stCandidate (t : PT) : Px t := t.wrap (t.hi - 1)
/-- `STAT_WS_LINE`, DMorphoWatershed.hpp:250. -/
def stLine (t : PT) : Px t := t.wrap t.hi

/-- `processNeighbor`, DMorphoWatershed.hpp:324-340: label buffer, status buffer, `tmpOffsets`. -/
def wsVisit (t : PT) (cur : Nat) (s : (Nat → Nat) × (Nat → Px t) × List Nat) (nb : Nat) :
    (Nat → Nat) × (Nat → Px t) × List Nat :=
  if s.2.1 nb = stCandidate t then (s.1, s.2.1, s.2.2 ++ [nb])
  else if s.2.1 nb = stLabeled t then
    if s.1 cur = 0 then (Function.update s.1 cur (s.1 nb), s.2.1, s.2.2)
    else if s.1 cur ≠ s.1 nb then (s.1, Function.update s.2.1 cur (stLine t), s.2.2)
    else s
  else s

/-- The pushes at the end of `processPixel`, DMorphoWatershed.hpp:310-316. -/
def wsPush {t : PT} (C : FloodCfg) (s : WsSt t) (nb : Nat) : Option (WsSt t) :=
  (s.hq.push C.P (C.lev nb) nb).map fun q =>
    ⟨s.lbl, Function.update s.ws nb (stQueued t), q, s.pushed ++ [nb]⟩

/-- `processPixel(hq.pop())`, DMorphoWatershed.hpp:178-180, 301-322. -/
def wsStep {t : PT} (C : FloodCfg) (s : WsSt t) : Option (WsSt t) :=
  (s.hq.pop C.P).bind fun r =>
    let v := (C.nbs r.1).foldl (wsVisit t r.1) (s.lbl, Function.update s.ws r.1 (stLabeled t), [])
    let s' : WsSt t := ⟨v.1, v.2.1, r.2, s.pushed⟩
    if v.2.1 r.1 ≠ stLine t then v.2.2.foldlM (wsPush C) s' else some s'

/-- The main loop, with at most `fuel` tests. -/
def wsLoop {t : PT} (C : FloodCfg) : Nat → WsSt t → Option (WsSt t)
  | 0, _ => none
  | fuel + 1, s => if s.hq.isEmpty then some s else (wsStep C s).bind (wsLoop C fuel)

/-- `initialize` (`test(imLbl, STAT_LABELED, STAT_CANDIDATE, *imgWS)`) and `processImage`,
DMorphoWatershed.hpp:152-183, 286-299. -/
def wsRun (t : PT) (C : FloodCfg) (lbl : Nat → Nat) : Option (WsSt t) :=
  (markerInit C lbl).bind fun r =>
    wsLoop C (C.n + 1) ⟨lbl, fun i => if lbl i ≠ 0 then stLabeled t else stCandidate t, r.1, r.2⟩

/-- `watershed(imIn, imMarkers, imOut, imBasinsOut, se)`, DMorphoWatershed.hpp:263-290, 400-411: the
line image and the basins. `dws`, `dout`: sizes of the two outputs before the call. -/
def watershed {t : PT} (auto : Bool) (raw : Nat → Nat) (se : StrElt) (im : Img (Px t))
    (mk : Img Nat) (dws dout : Dims) : Option (Except Int (Img (Px t) × Img Nat)) :=
  if im.dims.count = 0 ∨ mk.dims.count = 0 then some (.error errBadAllocation)
  else if ¬ auto ∧ ¬ (mk.dims = im.dims ∧ dws = im.dims ∧ dout = im.dims) then
    some (.error errBadSize)
  else
    let m : Img Nat := if mk.dims = im.dims then mk else ⟨im.dims, raw⟩
    (wsRun t (floodCfg se im) m.buf).map fun s =>
      .ok (⟨im.dims, fun i => if stCandidate t ≤ s.ws i then stLine t else t.wrap 0⟩, ⟨im.dims, s.lbl⟩)

end Smil
