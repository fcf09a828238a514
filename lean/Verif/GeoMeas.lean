import Verif.LabelWith
import Verif.Flood
import Verif.Measures
import Mathlib.Data.List.Sort

/-!
# Geodesic measures and geodesic path opening

Advanced/include/private/GeodesicThinning/GeodesicPathOpening.hpp. The vectors of `double` are functions with values in
`ℚ`; `root` stands for `sqrt`, which is left arbitrary. The values -1, -2, -3 and 0 of `DistanceMap` have the meaning they
have in the code: not seen, in the component, in the queue, background.
-/

namespace Smil

/-- The neighbours of a pixel in the order of the loops on `j`, `k`, `l`, with the sum of squares under the root:
GeodesicPathOpening.hpp:487-498 (and 809-820, 638-649, 716-727), the sum in lines 505 and 828. `j` is the step in `z`, `k` in `x`, `l` in `y`; the scales
are applied as in the code, that of `x` to `j`, that of `y` to `k`, that of `z` to `l`. -/
def gmNbs (W H D : Nat) (sx sy sz : ℚ) (cur : Nat) : List (Nat × ℚ) :=
  let X : Int := (cur % W : Nat)
  let Y : Int := ((cur % (W * H) - cur % W) / W : Nat)
  let Z : Int := ((cur - cur % W - (cur % (W * H) - cur % W) / W * W) / (W * H) : Nat)
  [-1, 0, 1].flatMap fun j : Int =>
    if Z + j < 0 ∨ Z + j ≥ D then []
    else [-1, 0, 1].flatMap fun k : Int =>
      if X + k < 0 ∨ X + k ≥ W then []
      else [-1, 0, 1].filterMap fun l : Int =>
        if Y + l < 0 ∨ Y + l ≥ H then none
        else if k = 0 ∧ l = 0 ∧ j = 0 then none
        else some ((X + k + (Y + l) * W + (Z + j) * W * H).toNat,
          (j * sx) * (j * sx) + (k * sy) * (k * sy) + (l * sz) * (l * sz))

/-- What a run depends on: number of pixels, neighbours with their distances, `LabelMap`. The binary version, which has no labels,
is the case of equal labels. -/
structure GmCfg where
  n : Nat
  nbs : Nat → List (Nat × ℚ)
  lab : Nat → ℚ

/-- Lines 651-657 (729-733): a neighbour that was not seen and has the same label joins the component. The state: `DistanceMap`,
`fifoCurrent`, `fifoSave`. -/
def gmMark (C : GmCfg) (cur : Nat) (s : (Nat → ℚ) × List Nat × List Nat) (nb : Nat × ℚ) : (Nat → ℚ) × List Nat × List Nat :=
  if s.1 nb.1 = -1 ∧ C.lab nb.1 = C.lab cur then
    (Function.update s.1 nb.1 (-2), s.2.1 ++ [nb.1], s.2.2 ++ [nb.1])
  else s

/-- The loop over the queue, lines 622-660 (703-737). `none`: fuel exhausted. -/
def gmFlood (C : GmCfg) : Nat → (Nat → ℚ) × List Nat × List Nat → Option ((Nat → ℚ) × List Nat)
  | 0, _ => none
  | _ + 1, (dm, [], sv) => some (dm, sv)
  | fuel + 1, (dm, cur :: q, sv) => gmFlood C fuel ((C.nbs cur).foldl (gmMark C cur) (dm, q, sv))

/-- The truncation `(off_t)` of a sum of coordinates times a scale over the number of pixels, lines 663-665 (740-742). The sums are
taken over `fifoSave`, which holds the pixels in the order in which they leave the queue. -/
def gmBary (sv : List Nat) (f : Nat → Nat) (s : ℚ) : Int :=
  let q : ℚ := ((sv.map f).sum : Nat) * s / sv.length
  if 0 ≤ q then ⌊q⌋ else ⌈q⌉

/-- The search of the first pixel, lines 446-462 (771-787): the first pixel at the greatest distance from the barycentre. The squares of
the distances are compared. -/
def gmStart (W H : Nat) (sx sy sz : ℚ) (sv : List Nat) : Nat :=
  let X : Nat → Nat := fun c => c % W
  let Y : Nat → Nat := fun c => (c % (W * H) - c % W) / W
  let Z : Nat → Nat := fun c => (c - c % W - (c % (W * H) - c % W) / W * W) / (W * H)
  let bx : ℚ := gmBary sv X sx
  let bz : ℚ := gmBary sv Z sz
  let byy : ℚ := gmBary sv Y sy
  (sv.foldl (fun (s : ℚ × Nat) c =>
    let d : ℚ := (X c * sx - bx) * (X c * sx - bx) + (Y c * sy - byy) * (Y c * sy - byy) + (Z c * sz - bz) * (Z c * sz - bz)
    if s.1 < d then (d, c) else s) (-1, 0)).2

/-- `DistanceMap`, `fifoCurrent`, `DistMax` and the pixel of coordinates `Xtort`, `Ytort`, `Ztort`, if it was set. -/
structure GmSt where
  dm : Nat → ℚ
  q : List Nat
  mx : ℚ
  tort : Option Nat

/-- Lines 507-510 (830-833): `Dist` after a neighbour whose distance plus the step is `x`; `none` while `NewDist` is false. -/
def gmBest (x : ℚ) : Option ℚ → ℚ
  | none => x
  | some e => if x < e then x else e

/-- The block `if (NewDist)`, lines 513-522 (837-845). -/
def gmPut (cur : Nat) (st : GmSt) : Option ℚ → GmSt
  | none => st
  | some e =>
    { st with
      dm := Function.update st.dm cur e
      mx := if st.mx < e then e else st.mx
      tort := if st.mx < e then some cur else st.tort }

/-- The body of the loops on the neighbours, lines 500-524 (821-845). The second component is `Dist`, `none` while `NewDist` is
false. The last block runs after every neighbour, with the value `Dist` has by then. -/
def gmScan (root : ℚ → ℚ) (C : GmCfg) (cur : Nat) (s : GmSt × Option ℚ) (nb : Nat × ℚ) : GmSt × Option ℚ :=
  if C.lab nb.1 = C.lab cur then
    if s.1.dm nb.1 = -2 then
      (gmPut cur { s.1 with dm := Function.update s.1.dm nb.1 (-3), q := s.1.q ++ [nb.1] } s.2, s.2)
    else if s.1.dm nb.1 ≠ 0 ∧ s.1.dm nb.1 ≠ -3 then
      let e := gmBest (s.1.dm nb.1 + root nb.2) s.2
      (gmPut cur s.1 (some e), some e)
    else (gmPut cur s.1 s.2, s.2)
  else s

/-- The loop over the queue, lines 472-527 (797-848). -/
def gmLoop (root : ℚ → ℚ) (C : GmCfg) : Nat → GmSt → Option GmSt
  | 0, _ => none
  | fuel + 1, s =>
    match s.q with
    | [] => some s
    | cur :: q => gmLoop root C fuel ((C.nbs cur).foldl (gmScan root C cur) ({ s with q := q }, none)).1

/-- The coordinates `Xtort`, `Ytort`, `Ztort` at the end: those set by the loop or those they start with. -/
def gmEnd (ini : Option Nat) : Option Nat → Option Nat
  | some e => some e
  | none => ini

/-- The last part, lines 529-592 (850-908), for the pixels `sv` of the component. `size` is their number; `ini`: the pixel of the coordinates with which
`Xtort`, `Ytort`, `Ztort` start, pixel 0 in the binary version, nothing in the other one. `none`: these coordinates are read but were never
set, or the division by a scale of 0, which gives infinity. A method that is not in 0..3 leaves the distances. -/
def gmWrite (root : ℚ → ℚ) (W H D : Nat) (sx sy sz : ℚ) (ini : Option Nat) (method : Int) (sv : List Nat) (start : Nat) (s : GmSt) :
    Option (Nat → ℚ) :=
  let put : (Nat → ℚ) → ℚ → Nat → ℚ := fun dm v i => if i ∈ sv then v else dm i
  let X : Nat → ℚ := fun c => (c % W : Nat)
  let Y : Nat → ℚ := fun c => ((c % (W * H) - c % W) / W : Nat)
  let Z : Nat → ℚ := fun c => ((c - c % W - (c % (W * H) - c % W) / W * W) / (W * H) : Nat)
  let tort := gmEnd ini s.tort
  if method = 0 then some (put s.dm s.mx)
  else if method = 1 then
    if D = 1 then
      if sv.length * sx * sy = 0 then none else some (put s.dm (s.mx * s.mx / (sv.length * sx * sy) * (785398 / 1000000)))
    else if sv.length * sx * sy * sz = 0 then none
    else some (put s.dm (s.mx * s.mx * s.mx / (sv.length * sx * sy * sz) * (523599 / 1000000)))
  else if method = 2 then
    tort.map fun e =>
      let eucl := root (((X e - X start) * sx) * ((X e - X start) * sx) + ((Y e - Y start) * sy) * ((Y e - Y start) * sy) +
        ((Z e - Z start) * sz) * ((Z e - Z start) * sz))
      put s.dm (if eucl ≠ 0 then s.mx / eucl else s.mx / (1 / 100))
  else if method = 3 then
    tort.map fun e => Function.update (Function.update (put s.dm 0) start 1) e 2
  else some s.dm

/-- `_GeodesicPathFlatZones`, lines 426-593, and `_GeodesicPathCC`, lines 751-909. -/
def gmCC (root : ℚ → ℚ) (C : GmCfg) (W H D : Nat) (sx sy sz : ℚ) (ini : Option Nat) (method : Int) (dm : Nat → ℚ) (sv : List Nat) :
    Option (Nat → ℚ) :=
  let start := gmStart W H sx sy sz sv
  (gmLoop root C (C.n + 1) ⟨Function.update dm start 1, [start], 1, none⟩).bind
    (gmWrite root W H D sx sy sz ini method sv start)

/-- One turn of the loop on the pixels, lines 609-672 (691-746). -/
def gmPixel (root : ℚ → ℚ) (C : GmCfg) (W H D : Nat) (sx sy sz : ℚ) (ini : Option Nat) (method : Int) (dm : Nat → ℚ) (i : Nat) :
    Option (Nat → ℚ) :=
  if dm i = -1 then
    (gmFlood C (C.n + 1) (Function.update dm i (-2), [i], [i])).bind fun r =>
      gmCC root C W H D sx sy sz ini method r.1 r.2
  else some dm

/-- `_GeodesicPathOnLabels` (lines 598-673) and `_GeodesicPathBinary` (lines 680-746): the pixels in decreasing order. `DistanceMap`, of
`W * H * D` values, holds -1 on the set `S` and 0 elsewhere. -/
def gmRun (root : ℚ → ℚ) (W H D : Nat) (lab : Nat → ℚ) (sx sy sz : ℚ) (ini : Option Nat) (method : Int) (S : Nat → Bool) :
    Option (Nat → ℚ) :=
  (List.range (W * H * D)).reverse.foldlM (gmPixel root ⟨W * H * D, gmNbs W H D sx sy sz, lab⟩ W H D sx sy sz ini method)
    fun i => if i < W * H * D ∧ S i then -1 else 0

/-- `_GeodesicPathBinary`, on the set `S`. -/
def gmBinary (root : ℚ → ℚ) (W H D : Nat) (sx sy sz : ℚ) (method : Int) (S : Nat → Bool) : Option (Nat → ℚ) :=
  gmRun root W H D (fun _ => 0) sx sy sz (some 0) method S

/-- `ASSERT_ALLOCATED(&imIn)`, `ASSERT_SAME_SIZE(&imIn, &imOut)`, lines 97-98, 145-146, 199-200: that the output is allocated is not checked;
when it may be resized, it is. -/
def checkOneOut (auto : Bool) (di dout : Dims) : Except Int Unit :=
  if di.count = 0 then .error errBadAllocation
  else if dout = di then .ok ()
  else if auto then .ok ()
  else .error errBadSize

section
variable {t u : PT}

/-- What is converted to the output type: `none` if one of the values does not fit. -/
def gmOut (u : PT) (D : Dims) (o : Nat → ℚ) : Option (Img (Px u)) :=
  if (List.range D.count).all fun i => (truncPx u (o i)).isSome then
    some ⟨D, fun i => (truncPx u (o i)).getD (u.wrap 0)⟩
  else none

/-- The input as the loops see it: `fill(imOut, 0)` comes first, lines 101, 149, 203, so that in place the input is lost. -/
def gmIn (inPl : Bool) (im : Img (Px t)) : Img (Px t) := if inPl then ⟨im.dims, fun _ => t.wrap 0⟩ else im

/-- The slice `z` of the offsets `0 .. W*H-1`; the results of the slices one after the other. -/
def gmSlices (D : Dims) (run : Nat → Option (Nat → ℚ)) : Option (Nat → ℚ) :=
  if (List.range D.d).all fun z => (run z).isSome then
    some fun i => (run (i / (D.w * D.h))).elim 0 fun o => o (i % (D.w * D.h))
  else none

/-- `_GeodesicMeasure`, lines 140-188, behind `geodesicDiameter` (`sel` 0), `geodesicElongation` (1), `geodesicTortuosity` (2, with
`dz` = 1), `geodesicExtremities` (3) and `geodesicMeasure`, lines 962-1077. -/
def geodesicMeasure (root : ℚ → ℚ) (auto inPl : Bool) (sel : Int) (bySlice : Bool) (dz : ℚ) (im : Img (Px t)) (dout : Dims) :
    Option (Except Int (Img (Px u))) :=
  match checkOneOut auto im.dims dout with
  | .error c => some (.error c)
  | .ok _ =>
    let im' := gmIn inPl im
    let vMed : Int := (maxValOf false im').val.tdiv 2
    let D := im.dims
    ((if bySlice then gmSlices D fun z => gmBinary root D.w D.h 1 1 1 1 sel fun j => vMed ≤ (im'.buf (z * D.w * D.h + j)).val
      else gmBinary root D.w D.h D.d 1 1 dz sel fun i => vMed ≤ (im'.buf i).val).bind (gmOut u D)).map .ok

/-- `labelFlatZones`, lines 931-941, `_LabelFlatZones`, lines 93-135. -/
def labelFlatZones (root : ℚ → ℚ) (auto inPl : Bool) (method : Int) (im : Img (Px t)) (dout : Dims) :
    Option (Except Int (Img (Px u))) :=
  if method < 0 ∨ 3 < method then some (.error (-100))
  else
    match checkOneOut auto im.dims dout with
    | .error c => some (.error c)
    | .ok _ =>
      let im' := gmIn inPl im
      let D := im.dims
      ((gmSlices D fun z => gmRun root D.w D.h 1 (fun j => (im'.buf (z * D.w * D.h + j)).val) 1 1 1 none method
        fun j => 0 ≤ (im'.buf (z * D.w * D.h + j)).val).bind (gmOut u D)).map .ok

/-- The keys of the map `hGood`, lines 215-223: the values of the image in increasing order. -/
def gmLevels (im : Img (Px t)) : List (Px t) :=
  ((List.range im.dims.count).map im.buf).insertionSort (· ≤ ·) |>.dedup

/-- One level of the loop, lines 231-241. -/
def gmLevel (root : ℚ → ℚ) (sx sy sz len : ℚ) (method : Int) (im : Img (Px t)) (o : Nat → Px u) (v : Px t) : Option (Nat → Px u) :=
  (gmBinary root im.dims.w im.dims.h im.dims.d sx sy sz method fun i => v ≤ im.buf i).map fun dm i =>
    if len ≤ dm i then u.wrap v.val else o i

/-- `geodesicPathOpening`, lines 1091-1104, `_GeodesicPathOpening`, lines 193-245. The bound of the loop is the number of levels converted
to the pixel type, and `k` has this type. -/
def geodesicPathOpening (root : ℚ → ℚ) (auto inPl : Bool) (len : ℚ) (method : Int) (sx sy sz : ℚ) (im : Img (Px t)) (dout : Dims) :
    Option (Except Int (Img (Px u))) :=
  if method < 0 ∨ 3 < method then some (.error (-100))
  else
    match checkOneOut auto im.dims dout with
    | .error c => some (.error c)
    | .ok _ =>
      let im' := gmIn inPl im
      let L := gmLevels im'
      let bound := (t.wrap L.length).val.toNat
      match L with
      | [] => none
      | v0 :: _ =>
        (((L.take bound).drop 1).foldlM (gmLevel root sx sy sz len method im') (fun _ => u.wrap v0.val)).map fun o =>
          .ok ⟨im.dims, o⟩

end
end Smil
