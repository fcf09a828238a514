import Verif.Watershed
import Mathlib.Data.List.Perm.Basic

/-!
# Extinction flooding

Morpho/include/private/DMorphoWatershedExtinction.hpp. Images of an unsigned type: the value of a pixel is
its level `C.lev`. `UINT` values are kept modulo `2^32`, extinction values modulo `2^eb`, `eb` being the number
of bits of `extValType` (an unsigned type).
-/

namespace Smil

/-- The three derived classes. -/
inductive ExtKind | area | volume | dynamic
deriving DecidableEq, Repr

/-- A `UINT`. -/
def u32 (n : Nat) : Nat := n % 2 ^ 32

/-- The tables of the basins: `equivalentLabels`, `extinctionValues`, `areas`, `minValues`, `volumes`,
`floodLevels` and `currentLevel`; a class does not touch the tables that it does not have. `edges` records the
calls of `graph->addEdge`. `eaten` is not in the code: it records the absorbed basins. -/
structure ExtTab where
  equ : Nat → Nat
  ext : Nat → Nat
  area : Nat → Nat
  minV : Nat → Nat
  vol : Nat → Nat
  flood : Nat → Nat
  level : Nat
  edges : List (Nat × Nat × Nat)
  eaten : List Nat

/-- `createBasins`, DMorphoWatershedExtinction.hpp:94-103, 359-365, 418-425 and `currentLevel = min`
(line 223); `top` is the maximum of the image type. -/
def ExtTab.init (top : Nat) : ExtTab :=
  ⟨fun i => i, fun _ => 0, fun _ => 0, fun _ => top, fun _ => 0, fun _ => 0, 0, [], []⟩

/-- `insertPixel`, DMorphoWatershedExtinction.hpp:375-382 and 437-442, of a pixel of value `v`. -/
def ExtTab.insert (K : ExtKind) (T : ExtTab) (v lbl : Nat) : ExtTab :=
  match K with
  | .volume =>
      { T with
        flood := Function.update T.flood lbl (max T.level (T.flood lbl))
        vol := Function.update T.vol lbl (u32 (T.vol lbl + (T.level - v)))
        area := Function.update T.area lbl (u32 (T.area lbl + 1)) }
  | _ =>
      { T with
        minV := if v < T.minV lbl then Function.update T.minV lbl v else T.minV
        area := Function.update T.area lbl (u32 (T.area lbl + 1)) }

/-- `raiseLevel`, DMorphoWatershedExtinction.hpp:113 (nothing) and 443-450. -/
def ExtTab.raise (K : ExtKind) (T : ExtTab) (lbl : Nat) : ExtTab :=
  match K with
  | .volume =>
      if T.flood lbl < T.level then
        { T with
          vol := Function.update T.vol lbl (u32 (T.vol lbl + T.area lbl * (T.level - T.flood lbl)))
          flood := Function.update T.flood lbl T.level }
      else T
  | _ => T

/-- The change of level at lines 301-304: every basin that is its own representative is raised. `L` is
`labelNbr`; the labels are below the maximum of their type (line 111 of DMorphoWatershed.hpp), so that the loop
on `labelT` ends. -/
def ExtTab.raiseAll (K : ExtKind) (L : Nat) (T : ExtTab) (level : Nat) : ExtTab :=
  (List.range' 1 L).foldl (fun T i => if T.equ i = i then T.raise K i else T) { T with level := level }

/-- Which of the two basins wins, DMorphoWatershedExtinction.hpp:387, 455 and 487: is it the first one? -/
def ExtTab.firstWins (K : ExtKind) (T : ExtTab) (l1 l2 : Nat) : Bool :=
  match K with
  | .area => T.area l1 > T.area l2 || (T.area l1 = T.area l2 && T.minV l1 < T.minV l2)
  | .volume => T.vol l1 > T.vol l2 || (T.vol l1 = T.vol l2 && T.flood l1 < T.flood l2)
  | .dynamic => T.minV l1 < T.minV l2 || (T.minV l1 = T.minV l2 && T.area l1 > T.area l2)

/-- The extinction value given to the absorbed basin, lines 399, 466 and 498. The difference of line 498 is
not negative (`minV_le_level`). -/
def ExtTab.value (K : ExtKind) (T : ExtTab) (l : Nat) : Nat :=
  match K with
  | .area => T.area l
  | .volume => T.vol l
  | .dynamic => T.level - T.minV l

/-- `mergeBasins`, DMorphoWatershedExtinction.hpp:383-405, 451-471 and 483-502: the winner and the
tables. -/
def ExtTab.mergeBasins (K : ExtKind) (eb : Nat) (T : ExtTab) (l1 l2 : Nat) : Nat × ExtTab :=
  let eater := if T.firstWins K l1 l2 then l1 else l2
  let eaten := if T.firstWins K l1 l2 then l2 else l1
  let T1 := { T with ext := Function.update T.ext eaten (T.value K eaten % 2 ^ eb) }
  let T2 : ExtTab := match K with
    | .volume => { T1 with vol := Function.update T1.vol eater (u32 (T1.vol eater + T1.vol eaten)) }
    | _ => T1
  (eater, { T2 with area := Function.update T2.area eater (u32 (T2.area eater + T2.area eaten)) })

/-- `updateEquTable(lbl1, lbl2)`, DMorphoWatershedExtinction.hpp:117-122. -/
def updateEqu (L : Nat) (equ : Nat → Nat) (lbl1 lbl2 : Nat) : Nat → Nat :=
  (List.range' 1 L).foldl (fun e i => if e i = lbl1 then Function.update e i lbl2 else e) equ

/-- An access to `equivalentLabels`, of size `labelNbr + 1`. -/
def ExtTab.rd (L : Nat) (T : ExtTab) (l : Nat) : Option Nat := if l ≤ L then some (T.equ l) else none

/-- One turn of `processMerges`, DMorphoWatershedExtinction.hpp:251-291. -/
def ExtTab.mergeOne (K : ExtKind) (L eb : Nat) (T : ExtTab) (m : Nat × Nat) : Option ExtTab := do
  let l1 ← T.rd L m.1
  let l2 ← T.rd L m.2
  if l1 ≠ l2 then
    let r := T.mergeBasins K eb l1 l2
    let eater := r.1
    let eaten := if eater = l1 then l2 else l1
    let eaterO := if eater = l1 then m.1 else m.2
    let eatenO := if eater = l1 then m.2 else m.1
    return { r.2 with
      edges := r.2.edges ++ [(eaterO, eatenO, r.2.ext eaten)]
      equ := updateEqu L r.2.equ eaten eater
      eaten := r.2.eaten ++ [eaten] }
  else return T

/-- `finalize`, DMorphoWatershedExtinction.hpp:406-409, 472-476 and 503-506. -/
def ExtTab.finalize (K : ExtKind) (eb : Nat) (T : ExtTab) (l : Nat) : ExtTab :=
  match K with
  | .area => { T with ext := Function.update T.ext l ((T.ext l + T.area l) % 2 ^ eb) }
  | .volume =>
      let v := u32 (T.vol l + T.area l)
      { T with
        vol := Function.update T.vol l v
        ext := Function.update T.ext l ((T.ext l + v) % 2 ^ eb) }
  | .dynamic => { T with ext := Function.update T.ext l ((T.level - T.minV l) % 2 ^ eb) }

/-! ### The flooding -/

/-- State of `ExtinctionFlooding`: that of `BaseFlooding`, the tables, `imStatus[i] == HQ_DONE`,
`pendingMerges` and `lastOffset` (uninitialised at first). -/
structure ExtSt where
  bas : BasSt
  tab : ExtTab
  fin : Nat → Bool
  pend : List (Nat × Nat)
  last : Option Nat

/-- The parameters of a flooding. -/
structure ExtCfg where
  C : FloodCfg
  K : ExtKind
  L : Nat
  eb : Nat
  top : Nat

/-- `processMerges`, DMorphoWatershedExtinction.hpp:243-292. -/
def ExtSt.merges (X : ExtCfg) (s : ExtSt) : Option ExtSt :=
  (s.pend.foldlM (ExtTab.mergeOne X.K X.L X.eb) s.tab).map fun T => { s with tab := T, pend := [] }

/-- `processNeighbor`, DMorphoWatershedExtinction.hpp:317-346. -/
def extVisit (X : ExtCfg) (cur : Nat) (s : ExtSt) (nb : Nat) : Option ExtSt :=
  let nl := s.bas.lbl nb
  let cl := s.bas.lbl cur
  if nl = 0 then
    (s.bas.hq.push X.C.P (X.C.lev nb) nb).map fun q =>
      { s with
        bas := ⟨Function.update s.bas.lbl nb cl, q, s.bas.pushed ++ [nb]⟩
        fin := Function.update s.fin nb false }
  else if s.fin nb then do
    let a ← s.tab.rd X.L nl
    let b ← s.tab.rd X.L cl
    if a ≠ b then ExtSt.merges X { s with pend := s.pend ++ [(min cl nl, max cl nl)] }
    else return s
  else return s

/-- The change of level in `processPixel`, DMorphoWatershedExtinction.hpp:296-305. -/
def extLevel (X : ExtCfg) (s : ExtSt) (cur : Nat) : Option ExtSt :=
  if X.C.lev cur > s.tab.level then
    (s.merges X).map fun s => { s with tab := s.tab.raiseAll X.K X.L (X.C.lev cur) }
  else some s

/-- `processPixel(cur)` after `hq.pop()`, DMorphoWatershedExtinction.hpp:294-315. -/
def extPixel (X : ExtCfg) (s : ExtSt) (cur : Nat) : Option ExtSt := do
  let s1 ← extLevel X s cur
  let s2 ← (X.C.nbs cur).foldlM (extVisit X cur) s1
  let r ← s2.tab.rd X.L (s2.bas.lbl cur)
  return { s2 with
    tab := s2.tab.insert X.K (X.C.lev cur) r
    fin := Function.update s2.fin cur true
    last := some cur }

/-- The loop of `BaseFlooding::processImage`, DMorphoWatershed.hpp:178-180, with at most `fuel` tests. -/
def extLoop (X : ExtCfg) : Nat → ExtSt → Option ExtSt
  | 0, _ => none
  | fuel + 1, s =>
      if s.bas.hq.isEmpty then some s
      else (s.bas.hq.pop X.C.P).bind fun r =>
        (extPixel X { s with bas := { s.bas with hq := r.2 } } r.1).bind (extLoop X fuel)

/-- The largest label, `labelNbr = maxVal(imLbl)`, DMorphoWatershedExtinction.hpp:221. -/
def maxLabel (n : Nat) (mk : Nat → Nat) : Nat := (List.range n).foldl (fun a i => max a (mk i)) 0

/-- `initialize` after `createBasins` and `processImage`, DMorphoWatershedExtinction.hpp:217-241, on the tables
and the status buffer that the object holds. `none` stands for undefined behaviour too: with no marker at all,
`lastOffset` is read uninitialised. -/
def extRunFrom (C : FloodCfg) (K : ExtKind) (eb top : Nat) (mk : Nat → Nat) (T0 : ExtTab) (fin0 : Nat → Bool) :
    Option ExtSt := do
  let X : ExtCfg := ⟨C, K, maxLabel C.n mk, eb, top⟩
  let q ← markerInit C mk
  let s ← extLoop X (C.n + 1) ⟨⟨mk, q.1, q.2⟩, T0, fin0, [], none⟩
  let s1 ← s.merges X
  let last ← s1.last
  let r ← s1.tab.rd X.L (s1.bas.lbl last)
  return { s1 with tab := s1.tab.finalize K eb r }

/-- A flooding by a new object. -/
def extRun (C : FloodCfg) (K : ExtKind) (eb top : Nat) (mk : Nat → Nat) : Option ExtSt :=
  extRunFrom C K eb top mk (ExtTab.init top) fun _ => false

/-- A second flooding by the same object with as many labels on an image of the same size:
`createBasins` renews `equivalentLabels` only, since `resize` keeps the existing values and nothing calls
`deleteBasins` (DMorphoWatershedExtinction.hpp:94-110, 224, 359-365, 418-425). -/
def extRunAgain (C : FloodCfg) (K : ExtKind) (eb top : Nat) (mk : Nat → Nat) (s : ExtSt) : Option ExtSt :=
  extRunFrom C K eb top mk { s.tab with equ := fun i => i, level := 0, edges := [], eaten := [] } s.fin

/-! ### The exported functions -/

/-- `flood`, DMorphoWatershed.hpp:103-121: the checks of the base class, then the run. `M` is the maximum of
the label type. -/
def extFlood {t : PT} (auto : Bool) (raw : Nat → Nat) (M : Nat) (K : ExtKind) (eb : Nat) (se : StrElt)
    (im : Img (Px t)) (mk : Img Nat) (dout : Dims) : Option (Except Int ExtSt) :=
  match floodCheck auto raw im.dims mk dout with
  | .error c => some (.error c)
  | .ok m =>
    if (List.range im.dims.count).all (fun i => m.buf i < M) then
      (extRun (floodCfg se im) K eb t.hi.toNat m.buf).map .ok
    else some (.error resErr)

/-- The output of `floodWithExtValues`, DMorphoWatershedExtinction.hpp:146-168, for images that already have
the size of the input: the pixel of a marker gets the value of its label, converted to the output type of `ob`
bits. -/
def extValues (ob : Nat) (T : ExtTab) (mk : Nat → Nat) : Nat → Nat :=
  fun i => if mk i ≠ 0 then T.ext (mk i) % 2 ^ ob else 0

/-- The ranks of `floodWithExtRank`, DMorphoWatershedExtinction.hpp:196-197: `rank` is the result of `sort`,
and `extinctionValues[rank[i]] = i + 1`. -/
def extRanks (rank : List Nat) (ext : Nat → Nat) : Nat → Nat :=
  rank.zipIdx.foldl (fun e p => Function.update e p.1 (p.2 + 1)) ext

/-- `rank` before the sort, DMorphoWatershedExtinction.hpp:190-192: a vector of the output type, of `ob`
bits. -/
def rankInit (ob L : Nat) : List Nat := (List.range' 1 L).map fun i => i % 2 ^ ob

/-- What `std::sort` with `CrossVectorComp` (DMorphoWatershedExtinction.hpp:51-63, 194-195) may return: a
permutation by decreasing extinction value, the order of equal values being unspecified. -/
def IsSorted (ext : Nat → Nat) (l rank : List Nat) : Prop :=
  List.Perm rank l ∧ rank.Pairwise fun i j => ext j ≤ ext i

/-- `strcmp` on `extinctionType`, DMorphoWatershedExtinction.hpp:531-536. -/
def extKind (s : String) : Option ExtKind :=
  if s = "v" then some .volume else if s = "a" then some .area else if s = "d" then some .dynamic else none

/-- `watershedExtinction` with markers, DMorphoWatershedExtinction.hpp:516-564, for output images that have the
size of the input: the returned code and the output image. `res` is initialised with `RES_ERR`, and the results
of the calls are not stored. `srt` stands for `sort`; `ob` is the number of bits of `outT`. -/
def watershedExtinction {t : PT} (srt : (Nat → Nat) → List Nat → List Nat) (M ob : Nat) (se : StrElt)
    (im : Img (Px t)) (mk : Img Nat) (type : String) (rankOutput : Bool) (out : Img Nat) :
    Option (Int × Img Nat) :=
  match extKind type with
  | none => some (resErr, out)
  | some K =>
    (extFlood false (fun _ => 0) M K (if rankOutput then 32 else ob) se im mk im.dims).map fun r =>
      match r with
      | .error _ => (resErr, out)
      | .ok s =>
        let ext := if rankOutput then
            extRanks (srt s.tab.ext (rankInit ob (maxLabel im.dims.count mk.buf))) s.tab.ext
          else s.tab.ext
        (resErr, ⟨im.dims, extValues ob { s.tab with ext := ext } mk.buf⟩)

end Smil
