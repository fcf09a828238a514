import Verif.FastLineOps

/-!
# Openings along lines (Morard)

Advanced/include/private/FastLine/FastLineMorard.hpp. The three numbers `dx`, `dy` and `r` are computed from the angle and
the radius in floating point, lines 516-522; here they are parameters. Arrays are functions.
-/

namespace Smil
variable {α : Type}

/-- `struct Node`, FastLineMorard.hpp:23-28. -/
structure MNode (α : Type) where
  start : Nat
  passed : Bool
  val : α

/-- `wp`, `MyStack`, `*stackSize`, `LineIdx` and the output. The offsets of `LineIdx` are those read before. -/
structure MorSt (α : Type) where
  wp : Nat
  stk : Nat → MNode α
  sz : Nat
  idx : Nat → Nat
  out : Nat → α

/-- `for (i = a; i < b; i++) bufferOut[LineIdx[i]] = v`, FastLineMorard.hpp:54-56, 58-59, 83-85, 88-89 and 97-98. -/
def morFill (idx : Nat → Nat) (a b : Nat) (v : α) (out : Nat → α) : Nat → α :=
  (List.range (b - a)).foldl (fun o i => Function.update o (idx (a + i)) v) out

/-- The loops of lines 53-59 and 82-89: the nodes below `top`, then `top` itself. -/
def morFlush (s : MorSt α) (top : Nat) : Nat → α :=
  morFill s.idx (s.stk top).start s.wp (s.stk top).val
    ((List.range top).foldl (fun o j => morFill s.idx (s.stk j).start (s.stk (j + 1)).start (s.stk j).val o) s.out)

section
variable [LinearOrder α]

/-- `while (F < MyStack[*stackSize - 1].Value)`, FastLineMorard.hpp:46-73; the argument is `*stackSize`.
`none`: read before the stack. -/
def morUnstack (size : Int) (F : α) (s : MorSt α) : Nat → Option (MorSt α)
  | 0 => none
  | k + 1 =>
    if F < (s.stk k).val then
      if (s.stk k).passed = true ∨ (s.wp : Int) - (s.stk k).start ≥ size then
        some ⟨s.wp, Function.update s.stk 0 ⟨s.wp, true, F⟩, 1, s.idx, morFlush s k⟩
      else if k = 0 ∨ F > (s.stk (k - 1)).val then
        some ⟨s.wp, Function.update s.stk k ⟨(s.stk k).start, (s.stk k).passed, F⟩, k + 1, s.idx, s.out⟩
      else morUnstack size F s k
    else some ⟨s.wp, s.stk, k + 1, s.idx, s.out⟩

/-- `BuildOpeningFromPoint`, FastLineMorard.hpp:32-76. `cap`: size of `LineIdx`; the stack has 256 nodes. `none`: access
outside of one of these arrays. -/
def morPoint (cap : Nat) (size : Int) (F : α) (ind : Nat) (s : MorSt α) : Option (MorSt α) :=
  if s.wp < cap then
    let s : MorSt α := ⟨s.wp, s.stk, s.sz, Function.update s.idx s.wp ind, s.out⟩
    (if F > (s.stk (s.sz - 1)).val then
      if s.sz < 256 then
        some (⟨s.wp, Function.update s.stk s.sz ⟨s.wp, false, F⟩, s.sz + 1, s.idx, s.out⟩ : MorSt α)
      else none
    else morUnstack size F s s.sz).map fun s => ⟨s.wp + 1, s.stk, s.sz, s.idx, s.out⟩
  else none

/-- `EndProcess`, FastLineMorard.hpp:78-99: the argument is `*stackSize`. -/
def morEnd (size : Int) (s : MorSt α) : Nat → MorSt α
  | 0 => ⟨s.wp, s.stk, 0, s.idx, morFill s.idx (s.stk 0).start s.wp (s.stk 0).val s.out⟩
  | k + 1 =>
    if (s.wp : Int) - (s.stk k).start ≥ size then ⟨s.wp, s.stk, 0, s.idx, morFlush s k⟩
    else morEnd size s k

/-- The pixels of a line after the first one. `rd`: the input, which is the output in a call in place (`same`). -/
def morWalk (N cap : Nat) (size : Int) (same : Bool) (f : Nat → α) : List Int → MorSt α → Option (MorSt α)
  | [], s => some s
  | o :: l, s =>
    if 0 ≤ o ∧ o < N then
      (morPoint cap size ((if same then s.out else f) o.toNat) o.toNat s).bind (morWalk N cap size same f l)
    else none

/-- One line: the first pixel is put on the stack (e.g. lines 119-124), the others are treated by `morPoint`, then comes
`EndProcess`. Without any pixel, `EndProcess` finds the state left by the line before (lines 437-440). -/
def morLine (N cap : Nat) (size : Int) (same : Bool) (f : Nat → α) (l : List Int) (s : MorSt α) : Option (MorSt α) :=
  match l with
  | [] => some (morEnd size s s.sz)
  | o :: l =>
    if 0 ≤ o ∧ o < N then
      (morWalk N cap size same f l
        ⟨1, Function.update s.stk 0 ⟨0, false, (if same then s.out else f) o.toNat⟩, 1,
          Function.update s.idx 0 o.toNat, s.out⟩).map fun s => morEnd size s s.sz
    else none

/-- The lines one after the other; `none` if `EndProcess` is called before any line is started (uninitialised
variables). -/
def morRun (N cap : Nat) (size : Int) (same : Bool) (f : Nat → α) (ls : List (List Int)) (s : MorSt α) :
    Option (MorSt α) :=
  if ls.head? = some [] then none else ls.foldlM (fun s l => morLine N cap size same f l s) s

end

/-- The loop of `ComputeLinePosDiag`, FastLineMorard.hpp:131-136. -/
def morPosLoop (W H : Nat) : Nat → Int → Int → Int → Option (List Int)
  | 0, _, _, _ => none
  | fuel + 1, x, y, idx =>
    if x < W ∧ y < H then (morPosLoop W H fuel (x + 1) (y + 1) (idx + W + 1)).map (idx :: ·) else some []

/-- `ComputeLinePosDiag`, FastLineMorard.hpp:101-138: after the first pixel `x` is not incremented. -/
def morPosDiag (W H : Nat) (x y : Int) : Option (List Int) :=
  let y := if x < 0 then y - x else y
  let x := if x < 0 then 0 else x
  let x' := if y < 0 then x - y else x
  let y' := if y < 0 then 0 else y
  let idx := y' * W + x'
  if x' < W ∧ y' < H then (morPosLoop W H (W + 1) x' (y' + 1) (idx + W + 1)).map (idx :: ·)
  else morPosLoop W H (W + 1) x' y' idx

/-- `do { nx = ...; EndProcess(...); } while (nx > 0)`, FastLineMorard.hpp:435-440 and following: the lines, the last
one included. `nx` is computed from the number of pixels. -/
def morGen (line : Int → Option (List Int)) (nx : Nat → Nat) (step : Int) : Nat → Int → Option (List (List Int))
  | 0, _ => none
  | fuel + 1, s => (line s).bind fun l =>
    if nx l.length = 0 then some [l] else (morGen line nx step fuel (s + step)).map (l :: ·)

/-- `LineOpeningDiag`, FastLineMorard.hpp:424-495: the lines. Except for `ComputeLinePosDiag`, they are computed as in
FastLineSoille.hpp: `ComputeLineNegDiag`, lines 140-175, `ComputeBresenhamLinePX`, 177-229, `NX`, 231-274,
`PY`, 276-327, and `NY`, 329-372; `nx` is the number of pixels. In `ComputeLinePosDiag` it is the number of turns of the
loop. -/
def morSlant (W H : Nat) (dx dy : Int) : Option (List (List Int)) :=
  if dx.natAbs = dy.natAbs then
    if dx = -dy then morGen (lineNegDiag W H 0) id 1 (W + H + 1) 0
    else morGen (morPosDiag W H 0) (· - 1) (-1) (W + H + 1) ((H : Int) - 2)
  else if dx.natAbs > dy.natAbs then
    if (dx > 0 ∧ dy > 0) ∨ (dx < 0 ∧ dy < 0) then
      morGen (bresLine dx.natAbs dy.natAbs 1 W W H 0) id (-1) (W + H + 1) ((H : Int) - 1)
    else morGen (bresLineN dx.natAbs dy.natAbs 1 W W H 0) id 1 (W + H + 1) 0
  else
    if (dx > 0 ∧ dy > 0) ∨ (dx < 0 ∧ dy < 0) then
      morGen (bresLine dy.natAbs dx.natAbs W 1 H W 0) id (-1) (W + H + 1) ((W : Int) - 1)
    else morGen (bresLineN dy.natAbs dx.natAbs W 1 H W 0) id 1 (W + H + 1) 0

section
variable [LinearOrder α]

/-- `ImFastLineOpen`, FastLineMorard.hpp:500-533, on the buffers of images of `N` pixels; only the first slice is
treated. `raw`: the stack, `LineIdx` and `wp` before they are written. -/
def morOpenBuf (N W H : Nat) (r : Int) (dx dy : Int) (same : Bool) (raw : MorSt α) (f out : Nat → α) :
    Option (Nat → α) :=
  let size := r * 2 + 1
  let cap := max W H + 3
  let s0 : MorSt α := ⟨raw.wp, raw.stk, raw.sz, raw.idx, out⟩
  (if dx = 0 then morRun N cap size same f (verLines W H) s0
   else if dy = 0 then morRun N cap size same f (horLines W H) s0
   else (morSlant W H dx dy).bind fun ls => morRun N cap size same f ls s0).map MorSt.out

/-- `ImFastLineOpen`, FastLineMorard.hpp:500-533. -/
def fastLineOpen (E : Env α) (same : Bool) (dx dy r : Int) (raw : MorSt α) (im out : Img α) :
    Option (Except Int (Img α)) :=
  match checkSize E im out with
  | .error c => some (.error c)
  | .ok o =>
    (morOpenBuf im.dims.count im.dims.w im.dims.h r dx dy same raw im.buf (if same then im.buf else o.buf)).map
      fun b => .ok ⟨im.dims, b⟩

end

end Smil
