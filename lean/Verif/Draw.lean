import Verif.Flood
import Verif.Histogram
import Verif.MorphoTop
import Verif.Transform

/-!
# Drawing: lines, rectangles, boxes, circles, discs and spheres

Base/include/DImageDraw.h, Base/src/DDraw.cpp, Base/include/private/DImageDraw.hpp, and `profile` of DMeasures.hpp.
Coordinates are `int` in the code; here they are integers without bound (the code overflows when a difference of
coordinates exceeds `2^30` or a radius exceeds `46340 / sqrt 3`).
-/

namespace Smil
variable {α : Type}

/-- `slices[z][y]`: the offset of the line. `slices[z]` points into the table of the `h * d` lines (DImage.hxx:285-345), so that a bad `y`
may still find a line of another slice; outside of the table the behaviour is undefined (`none`). -/
def lineAt (D : Dims) (z y : Int) : Option Int :=
  if 0 ≤ z * D.h + y ∧ z * D.h + y < (D.h * D.d : Nat) then some ((z * D.h + y) * D.w) else none

/-- A store at an offset of the pixel buffer; `none` outside of the buffer. -/
def storeAt (v : α) (im : Img α) (o : Int) : Option (Img α) :=
  if 0 ≤ o ∧ o < im.dims.count then some ⟨im.dims, Function.update im.buf o.toNat v⟩ else none

/-- `slices[z][y][x] = value`. -/
def storePx (v : α) (im : Img α) (p : IntPoint) : Option (Img α) :=
  (lineAt im.dims p.z p.y).bind fun o => storeAt v im (o + p.x)

/-- `slices[z][y][x]`. -/
def loadPx (im : Img α) (p : IntPoint) : Option α :=
  (lineAt im.dims p.z p.y).bind fun o =>
    if 0 ≤ o + p.x ∧ o + p.x < im.dims.count then some (im.buf (o + p.x).toNat) else none

/-- The loop shared by the four slopes of `bresenhamPoints`, DImageDraw.h:113-191, with `A` the larger and `B` the smaller absolute
increment: how many steps were made along the smaller one. In each of the four cases `F` starts from `2 * B - A`, grows by `2 * B`, and by
`- 2 * A` more with a step. -/
def bresRun (A B : Int) : Nat → Int → Int → List Int
  | 0, _, _ => []
  | n + 1, F, k =>
    k :: (if F ≤ 0 then bresRun A B n (F + 2 * B) k else bresRun A B n (F + 2 * B - 2 * A) (k + 1))

/-- `(xMax == 0) || (x >= 0 && x < xMax && y >= 0 && y < yMax)`, DImageDraw.h:122. -/
def bresIn (xMax yMax : Int) (p : IntPoint) : Bool :=
  decide (xMax = 0 ∨ (0 ≤ p.x ∧ p.x < xMax ∧ 0 ≤ p.y ∧ p.y < yMax))

/-- The four slopes, DImageDraw.h:106-191, for `p1x < p2x` and `p1y ≠ p2y`. The loop on the larger increment makes that many steps plus one. -/
def bresSlope (x1 y1 x2 y2 : Int) : List IntPoint :=
  let dy := y2 - y1
  let dx := x2 - x1
  if 0 ≤ dy then
    if dy ≤ dx then
      (bresRun dx dy (dx + 1).toNat (2 * dy - dx) 0).mapIdx fun i k => ⟨x1 + i, y1 + k, 0⟩
    else
      (bresRun dy dx (dy + 1).toNat (2 * dx - dy) 0).mapIdx fun i k => ⟨x1 + k, y1 + i, 0⟩
  else
    if -dy ≤ dx then
      (bresRun dx (-dy) (dx + 1).toNat (-(2 * dy) - dx) 0).mapIdx fun i k => ⟨x1 + i, y1 - k, 0⟩
    else
      (bresRun (-dy) dx (-dy + 1).toNat (2 * dx + dy) 0).mapIdx fun i k => ⟨x1 + k, y1 - i, 0⟩

/-- `bresenhamPoints` after the exchange of the points that sorts the abscissas, DImageDraw.h:76-195. -/
def bresSorted (x1 y1 x2 y2 xMax yMax : Int) (swapped : Bool) : List IntPoint :=
  if x1 = x2 then
    let ya := min y1 y2
    let yb := max y1 y2
    if xMax = 0 ∨ (0 ≤ x1 ∧ x1 < xMax) then
      (List.range (yb - ya + 1).toNat).map fun (i : Nat) => (⟨x1, ya + i, 0⟩ : IntPoint)
    else []
  else if y1 = y2 then
    if yMax = 0 ∨ (0 ≤ y1 ∧ y1 < yMax) then
      (List.range (x2 - x1 + 1).toNat).map fun (i : Nat) => (⟨x1 + i, y1, 0⟩ : IntPoint)
    else []
  else
    let pts := (bresSlope x1 y1 x2 y2).filter (bresIn xMax yMax)
    if swapped then pts.reverse else pts

/-- `bresenhamPoints`, DImageDraw.h:61-196. -/
def bresenhamPoints (x1 y1 x2 y2 xMax yMax : Int) : List IntPoint :=
  if x2 < x1 then bresSorted x2 y2 x1 y1 xMax yMax true else bresSorted x1 y1 x2 y2 xMax yMax false

/-- `bresenhamLine`, DDraw.cpp:34-39. -/
def bresenhamLine (x1 y1 x2 y2 : Int) : List IntPoint :=
  bresenhamPoints x1 y1 x2 y2 (max x1 x2) (max y1 y2)

/-- The points of `drawLine` and of `profile`: with a check of the range only if an end is outside. -/
def segPts (D : Dims) (x0 y0 x1 y1 : Int) : List IntPoint :=
  if x0 < 0 ∨ D.w ≤ x0 ∨ y0 < 0 ∨ D.h ≤ y0 ∨ x1 < 0 ∨ D.w ≤ x1 ∨ y1 < 0 ∨ D.h ≤ y1 then
    bresenhamPoints x0 y0 x1 y1 D.w D.h
  else bresenhamPoints x0 y0 x1 y1 0 0

/-- Stores along a list of points. -/
def storePts (v : α) (l : List IntPoint) (im : Img α) : Option (Img α) := l.foldlM (storePx v) im

/-- `drawLine`, DImageDraw.hpp:57-84. -/
def drawLine (im : Img α) (x0 y0 x1 y1 : Int) (v : α) : Option (Except Int (Img α)) :=
  if im.alloc = false then some (.error errBadAllocation)
  else (storePts v (segPts im.dims x0 y0 x1 y1) im).map .ok

/-- `profile`, DMeasures.hpp:624-650, for natural coordinates (`size_t`) that fit in `int`. An unallocated image gives no value. -/
def profile (im : Img α) (x0 y0 x1 y1 z : Nat) : Option (List α) :=
  if im.alloc = false then some []
  else (segPts im.dims x0 y0 x1 y1).mapM fun p => loadPx im ⟨p.x, p.y, z⟩

/-- `fillFunc(lines[y] + x, n, value)`: `n` stores from a pixel on, whatever the end of the line is. -/
def fillRun (v : α) (z y x : Int) (n : Nat) (im : Img α) : Option (Img α) :=
  (lineAt im.dims z y).bind fun o => (List.range n).foldlM (fun (b : Img α) (i : Nat) => storeAt v b (o + x + i)) im

/-- `drawRectangle`, DImageDraw.hpp:115-155: the last column and line are bounded by the image as `size_t`, the first ones by zero, but
the runs keep the full `width`. -/
def drawRectangle (im : Img α) (x0 y0 : Int) (width height : Nat) (v : α) (fill : Bool) (zSlice : Nat) :
    Option (Except Int (Img α)) :=
  if im.alloc = false then some (.error errBadAllocation)
  else if ¬ zSlice < im.dims.d then some (.error errRes)
  else
    let x1 := sizeT (x0 + width - 1)
    let y1 := sizeT (y0 + height - 1)
    let x1 := if x1 < im.dims.w then x1 else im.dims.w - 1
    let y1 := if y1 < im.dims.h then y1 else im.dims.h - 1
    let x0 := if 0 ≤ x0 then x0 else 0
    let y0 := if 0 ≤ y0 then y0 else 0
    (if fill then
      (List.range' y0.toNat (y1 + 1 - y0.toNat)).foldlM (fun (b : Img α) (j : Nat) => fillRun v zSlice j x0 width b) im
    else
      (fillRun v zSlice y0 x0 width im).bind fun b =>
      (fillRun v zSlice y1 x0 width b).bind fun b =>
      (List.range' (y0.toNat + 1) (y1 - y0.toNat)).foldlM (fun (b : Img α) (j : Nat) =>
        (storePx v b ⟨x0, j, zSlice⟩).bind fun b => storePx v b ⟨x1, j, zSlice⟩) b).map .ok

/-- `drawRectangle` of a vector of corners, DImageDraw.hpp:172-181, for `UINT` coordinates: the differences are `UINT`s. -/
def drawRectCoords (im : Img α) (c : List Nat) (v : α) (fill : Bool) : Option (Except Int (Img α)) :=
  match c with
  | [a, b, c, d] =>
    drawRectangle im a b (((c : Int) - a + 1) % 2 ^ 32).toNat (((d : Int) - b + 1) % 2 ^ 32).toNat v fill 0
  | _ => some (.error errRes)

/-- One call inside of `ASSERT(... == RES_OK)`: an error becomes `RES_ERR`. -/
def orRes (r : Option (Except Int (Img α))) : Option (Except Int (Img α)) :=
  r.map fun e => match e with
    | .ok b => .ok b
    | .error _ => .error errRes

/-- Sequence of calls that stops at the first error. The image drawn so far is not kept by the model of an error. -/
def seqRes (r : Option (Except Int (Img α))) (f : Img α → Option (Except Int (Img α))) : Option (Except Int (Img α)) :=
  r.bind fun e => match e with
    | .ok b => f b
    | .error c => some (.error c)

/-- `drawBox`, DImageDraw.hpp:390-408. The loop of the inner slices ends before `z0 + depth - 1` (as `size_t`). -/
def drawBox (im : Img α) (x0 y0 z0 width height depth : Nat) (v : α) (fill : Bool) : Option (Except Int (Img α)) :=
  if im.alloc = false then some (.error errBadAllocation)
  else
    seqRes (orRes (drawRectangle im x0 y0 width height v true z0)) fun b =>
    seqRes ((List.range' (z0 + 1) (sizeT ((z0 : Int) + depth - 1) - (z0 + 1))).foldl
      (fun r z => seqRes r fun b => orRes (drawRectangle b x0 y0 width height v fill z)) (some (.ok b))) fun b =>
    orRes (drawRectangle b x0 y0 width height v true (sizeT ((z0 : Int) + depth - 1)))

/-- The tests of `drawCircle` before each store, DImageDraw.hpp:252-267. -/
def storeIfIn (v : α) (z : Nat) (im : Img α) (p : Int × Int) : Option (Img α) :=
  if 0 ≤ p.1 ∧ p.1 ≤ (im.dims.w : Int) - 1 ∧ 0 ≤ p.2 ∧ p.2 ≤ (im.dims.h : Int) - 1 then storePx v im ⟨p.1, p.2, z⟩ else some im

/-- The points `(x, y)` of the second octant that `drawCircle` visits, DImageDraw.hpp:246-275: one pass of the `do` loop, then the test
`x <= y`; at most `fuel` passes. -/
def octant : Nat → Int → Int → Int → Option (List (Int × Int))
  | 0, _, _, _ => none
  | fuel + 1, d, x, y =>
    let d' := if d < 0 then d + 4 * x + 6 else d + 4 * (x - y) + 10
    let y' := if d < 0 then y else y - 1
    if x + 1 ≤ y' then (octant fuel d' (x + 1) y').map fun l => (x, y) :: l else some [(x, y)]

/-- The eight stores of one pass, DImageDraw.hpp:252-267. -/
def eightPts (x0 y0 : Int) (q : Int × Int) : List (Int × Int) :=
  [(x0 + q.1, y0 + q.2), (x0 + q.1, y0 - q.2), (x0 - q.1, y0 + q.2), (x0 - q.1, y0 - q.2),
   (x0 + q.2, y0 + q.1), (x0 + q.2, y0 - q.1), (x0 - q.2, y0 + q.1), (x0 - q.2, y0 - q.1)]

/-- `drawCircle`, DImageDraw.hpp:232-278, with at most `fuel` passes of its loop; the division truncates. -/
def drawCircle (fuel : Nat) (im : Img α) (x0 y0 radius : Int) (v : α) (zSlice : Nat) : Option (Except Int (Img α)) :=
  if im.alloc = false then some (.error errBadAllocation)
  else if ¬ zSlice < im.dims.d then some (.error errRes)
  else (octant fuel ((5 - radius * 4).tdiv 4) 0 radius).bind fun l =>
    ((l.flatMap (eightPts x0 y0)).foldlM (storeIfIn v zSlice) im).map .ok

/-- `for (int x = a; x <= b; x++)`. -/
def forRange (a b : Int) : List Int := (List.range (b + 1 - a).toNat).map fun (i : Nat) => a + i

/-- `drawSphere`, DImageDraw.hpp:288-326. -/
def drawSphere (im : Img α) (x0 y0 z0 radius : Int) (v : α) : Option (Except Int (Img α)) :=
  if im.alloc = false then some (.error errBadAllocation)
  else
    let pts := (forRange (max (z0 - radius) 0) (min (z0 + radius) (im.dims.d - 1))).flatMap fun z =>
      (forRange (max (y0 - radius) 0) (min (y0 + radius) (im.dims.h - 1))).flatMap fun y =>
        (forRange (max (x0 - radius) 0) (min (x0 + radius) (im.dims.w - 1))).map fun x => (⟨x, y, z⟩ : IntPoint)
    (storePts v (pts.filter fun p =>
      decide ((p.x - x0) * (p.x - x0) + (p.y - y0) * (p.y - y0) + (p.z - z0) * (p.z - z0) ≤ radius * radius)) im).map .ok

/-- `drawDisc`, DImageDraw.hpp:339-370. -/
def drawDisc (im : Img α) (x0 y0 : Int) (zSlice : Nat) (radius : Int) (v : α) : Option (Except Int (Img α)) :=
  if im.alloc = false then some (.error errBadAllocation)
  else if ¬ zSlice < im.dims.d then some (.error errRes)
  else
    let pts := (forRange (max (y0 - radius) 0) (min (y0 + radius) (im.dims.h - 1))).flatMap fun y =>
        (forRange (max (x0 - radius) 0) (min (x0 + radius) (im.dims.w - 1))).map fun x => (⟨x, y, zSlice⟩ : IntPoint)
    (storePts v (pts.filter fun p =>
      decide ((p.x - x0) * (p.x - x0) + (p.y - y0) * (p.y - y0) ≤ radius * radius)) im).map .ok

end Smil
