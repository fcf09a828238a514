import Verif.Coords
import Mathlib.Data.List.Basic

/-!
# Structuring elements and composite structuring elements

Morpho/include/DStructuringElement.h, Morpho/src/DStructuringElement.cpp,
Morpho/include/DCompositeSE.h, Morpho/src/DCompositeSE.cpp.

`int` coordinates are modelled by unbounded integers: the model says nothing about elements
whose coordinates overflow 32 bits.
-/

namespace Smil

/-- `seType`, DStructuringElement.h:47-59. -/
inductive SeType where
  | generic | hex | hex0 | squ | squ0 | cross | horiz | vert | cube | cross3D
  | rhombicuboctahedron
deriving DecidableEq, Repr

/-- `StrElt`, DStructuringElement.h:64-353 (the data members l.197 and l.350-352; the name is
cosmetic). -/
structure StrElt where
  odd : Bool
  seT : SeType
  size : Nat
  points : List IntPoint
deriving DecidableEq, Repr

/-- The C++ truth value of `y % 2`. -/
def cOdd (y : Int) : Bool := y.tmod 2 != 0

/-- The nine indexed neighbours of one slice. -/
def squPlane (z : Int) : List IntPoint :=
  [⟨0, 0, z⟩, ⟨1, 0, z⟩, ⟨1, -1, z⟩, ⟨0, -1, z⟩, ⟨-1, -1, z⟩, ⟨-1, 0, z⟩, ⟨-1, 1, z⟩,
   ⟨0, 1, z⟩, ⟨1, 1, z⟩]

/-- `SE_SquIndices`, DStructuringElement.cpp:37-48. -/
def squIndices : List IntPoint := squPlane 0 ++ squPlane (-1) ++ squPlane 1

/-- `SE_HexIndices`, DStructuringElement.cpp:50-53. -/
def hexIndices : List IntPoint :=
  [⟨0, 0, 0⟩, ⟨1, 0, 0⟩, ⟨0, -1, 0⟩, ⟨-1, -1, 0⟩, ⟨-1, 0, 0⟩, ⟨-1, 1, 0⟩, ⟨0, 1, 0⟩]

namespace StrElt

/-- `StrElt(UINT s)`, DStructuringElement.h:70-74. -/
def mk0 (s : Nat) : StrElt := ⟨false, .generic, s, []⟩

/-- `addPoint(IntPoint)` and `addPoint(x,y,z)`, DStructuringElement.cpp:77-88. -/
def addPoint (se : StrElt) (p : IntPoint) : StrElt :=
  if p ∈ se.points then se else { se with points := se.points ++ [p] }

/-- The loop "add each point of the list". -/
def addPoints (se : StrElt) (l : List IntPoint) : StrElt := l.foldl addPoint se

/-- `addPoint(UINT index)`, DStructuringElement.cpp:69-75. An index beyond the table is an
out-of-bounds read: `none`. -/
def addIndex (se : StrElt) (i : Nat) : Option StrElt :=
  (if se.odd then hexIndices[i]? else squIndices[i]?).map se.addPoint

/-- `StrElt(bool oddSE, vector<UINT> indexList)` and the variadic constructor,
DStructuringElement.h:89-101 and 125-132. -/
def ofIndices (odd : Bool) (l : List Nat) : Option StrElt :=
  l.foldlM addIndex ⟨odd, .generic, 1, []⟩

/-- The sum of two points inside `homothety`, DStructuringElement.cpp:104-106: `p` is the point
reached so far, `p2` the point added. -/
def hsum (odd : Bool) (p p2 : IntPoint) : IntPoint :=
  ⟨p2.x + p.x + (if odd && (cOdd (p2.z + 1) && cOdd p2.y && cOdd p.y) then 1 else 0),
   p2.y + p.y, p2.z + p.z⟩

/-- One iteration of the outer loop of `homothety`, DStructuringElement.cpp:98-108. -/
def homothetyStep (pts : List IntPoint) (se : StrElt) : StrElt :=
  se.addPoints (se.points.flatMap fun p => pts.map fun p2 => hsum se.odd p p2)

/-- `homothety`, DStructuringElement.cpp:90-111. The loop bound is the unsigned `s - 1`, so
`s = 0` gives `2^32 - 1` iterations. -/
def homothety (se : StrElt) (s : Nat) : StrElt :=
  Nat.iterate (homothetyStep se.points) ((s + (2 ^ 32 - 1)) % 2 ^ 32)
    ⟨se.odd, .generic, 1, se.points⟩

/-- `operator()(int s)`, DStructuringElement.cpp:113-118. -/
def resize (se : StrElt) (s : Nat) : StrElt := { se with size := s }

/-- The image of one point under `transpose`, DStructuringElement.cpp:132. -/
def transposePt (odd : Bool) (p : IntPoint) : IntPoint :=
  ⟨-p.x - (if odd && cOdd p.y then 1 else 0), -p.y, -p.z⟩

/-- `transpose`, DStructuringElement.cpp:121-136. -/
def transpose (se : StrElt) : StrElt :=
  addPoints ⟨se.odd, se.seT, se.size, []⟩ (se.points.map (transposePt se.odd))

/-- `noCenter`, DStructuringElement.cpp:139-156. -/
def noCenter (se : StrElt) : StrElt :=
  addPoints ⟨se.odd, se.seT, se.size, []⟩
    (se.points.filter fun p => p.x != 0 || p.y != 0 || p.z != 0)

end StrElt

open StrElt

/-- `SquSE`, DStructuringElement.h:367-377. -/
def SquSE (s : Nat) : StrElt :=
  { addPoints (mk0 1) (squPlane 0) with seT := .squ, size := s }

/-- `SquSE0`, DStructuringElement.h:387-399. -/
def SquSE0 (s : Nat) : StrElt :=
  { addPoints (mk0 1) (squPlane 0).tail with seT := .squ0, size := s }

/-- `HexSE`, DStructuringElement.h:408-418. -/
def HexSE (s : Nat) : StrElt :=
  { addPoints ⟨true, .generic, 1, []⟩ hexIndices with seT := .hex, size := s }

/-- `HexSE0`, DStructuringElement.h:427-437. -/
def HexSE0 (s : Nat) : StrElt :=
  { addPoints ⟨true, .generic, 1, []⟩ hexIndices.tail with seT := .hex0, size := s }

/-- `CrossSE`, DStructuringElement.h:447-457 (indices 0, 1, 5, 3, 7). -/
def CrossSE (s : Nat) : StrElt :=
  { addPoints (mk0 1) [⟨0, 0, 0⟩, ⟨1, 0, 0⟩, ⟨-1, 0, 0⟩, ⟨0, -1, 0⟩, ⟨0, 1, 0⟩] with
    seT := .cross, size := s }

/-- `HorizSE`, DStructuringElement.h:467-477 (indices 0, 1, 5). -/
def HorizSE (s : Nat) : StrElt :=
  { addPoints (mk0 1) [⟨0, 0, 0⟩, ⟨1, 0, 0⟩, ⟨-1, 0, 0⟩] with seT := .horiz, size := s }

/-- `VertSE`, DStructuringElement.h:487-497 (indices 0, 3, 7). -/
def VertSE (s : Nat) : StrElt :=
  { addPoints (mk0 1) [⟨0, 0, 0⟩, ⟨0, -1, 0⟩, ⟨0, 1, 0⟩] with seT := .vert, size := s }

/-- `CubeSE`, DStructuringElement.h:506-530. -/
def CubeSE (s : Nat) : StrElt :=
  { addPoints (mk0 s) (squPlane 0 ++ squPlane (-1) ++ squPlane 1) with seT := .cube }

/-- `Cross3DSE`, DStructuringElement.h:539-557. -/
def Cross3DSE (s : Nat) : StrElt :=
  { addPoints (mk0 s) [⟨0, 0, 0⟩, ⟨1, 0, 0⟩, ⟨0, -1, 0⟩, ⟨-1, 0, 0⟩, ⟨0, 1, 0⟩, ⟨0, 0, -1⟩,
      ⟨0, 0, 1⟩] with seT := .cross3D }

/-- `for (int i = lo; i < lo + n; i++)`. -/
def intRange (lo : Int) (n : Nat) : List Int := (List.range n).map fun k => lo + (k : Int)

/-- A triple loop `for x, for y, for z`. -/
def box3 (xs ys zs : List Int) : List IntPoint :=
  xs.flatMap fun x => ys.flatMap fun y => zs.map fun z => ⟨x, y, z⟩

/-- `RhombicuboctahedronSE`, DStructuringElement.h:565-591. -/
def RhombicuboctahedronSE (s : Nat) : StrElt :=
  let r5 := intRange (-2) 5
  let r3 := intRange (-1) 3
  { addPoints (mk0 s) (⟨0, 0, 0⟩ :: box3 r5 r3 r3 ++ box3 r3 r5 r3 ++ box3 r3 r3 r5) with
    seT := .rhombicuboctahedron }

/-- The edits a user can make on an element, one at a time. -/
inductive SEOp where
  | addPt (p : IntPoint)
  | addIdx (i : Nat)
  | transpose
  | noCenter
  | homothety (s : Nat)
  | resize (s : Nat)

/-- One edit; `none` is the out-of-bounds index. -/
def SEOp.exec (se : StrElt) : SEOp → Option StrElt
  | .addPt p => some (se.addPoint p)
  | .addIdx i => se.addIndex i
  | .transpose => some se.transpose
  | .noCenter => some se.noCenter
  | .homothety s => some (se.homothety s)
  | .resize s => some (se.resize s)

/-! ### Composite structuring elements -/

/-- `getSEPointIndice`, DCompositeSE.cpp:37-49 (`none` is the returned `-1`). Only `x` and `y`
are compared. -/
def getSEPointIndice (p : IntPoint) (odd : Bool) : Option Nat :=
  (if odd then hexIndices else squPlane 0).findIdx? fun q => q.x == p.x && q.y == p.y

/-- A read of the C array `t[i]` with a signed index; out of bounds is `none`. -/
def readTable (t : List IntPoint) (i : Int) : Option IntPoint :=
  if i < 0 then none else t[i.toNat]?

/-- `rotatePoint`, DCompositeSE.cpp:51-61: C++ `%` truncates towards zero. -/
def rotatePoint (p : IntPoint) (steps : Int) (odd : Bool) : Option IntPoint :=
  let ind : Int := match getSEPointIndice p odd with
    | some i => i
    | none => -1
  if ind = 0 then some ⟨0, 0, 0⟩
  else if odd then readTable hexIndices ((ind - 1 + steps).tmod 6 + 1)
  else readTable squIndices ((ind - 1 + steps).tmod 8 + 1)

/-- `CompStrElt`, DCompositeSE.h:58-62. -/
structure CompStrElt where
  fg : StrElt
  bg : StrElt
deriving DecidableEq, Repr

/-- `CompStrElt::operator~`, DCompositeSE.cpp:77-83. -/
def CompStrElt.compl (c : CompStrElt) : CompStrElt := ⟨c.bg, c.fg⟩

/-- `CompStrElt::rotate`, DCompositeSE.cpp:86-96: both lists are rotated on the grid of the
foreground element, point by point, without removing duplicates. -/
def CompStrElt.rotate (c : CompStrElt) (steps : Int) : Option CompStrElt :=
  (c.fg.points.mapM fun p => rotatePoint p steps c.fg.odd).bind fun fg =>
  (c.bg.points.mapM fun p => rotatePoint p steps c.fg.odd).bind fun bg =>
  some ⟨{ c.fg with points := fg }, { c.bg with points := bg }⟩

/-- The loop `for (n = 1; n < nrot; n++) compSeList.push_back(compSE.rotate(steps))`. -/
def CompStrElt.rotations (steps : Int) : Nat → CompStrElt → Option (List CompStrElt)
  | 0, _ => some []
  | n + 1, c => (c.rotate steps).bind fun c' => (rotations steps n c').map (c' :: ·)

/-- `CompStrEltList::add(fgse, bgse, nrot)`, DCompositeSE.cpp:166-173; `nrot = 0` is a division
by zero (`none`). -/
def CompStrElt.addRot (l : List CompStrElt) (c : CompStrElt) (nrot : Nat) :
    Option (List CompStrElt) :=
  if nrot = 0 then none
  else (c.rotations (((if c.fg.odd then 6 else 8) / nrot : Nat)) (nrot - 1)).map
    fun r => l ++ c :: r

/-- `CompStrEltList::rotate`, DCompositeSE.cpp:180-187. -/
def rotateList (l : List CompStrElt) (n : Int) : Option (List CompStrElt) :=
  l.mapM fun c => c.rotate n

/-- `CompStrEltList::operator~`, DCompositeSE.cpp:138-145. -/
def complList (l : List CompStrElt) : List CompStrElt := l.map CompStrElt.compl

end Smil
