import Verif.Transform
import Verif.LineArith

/-! # The skeleton of Zhang and Suen

Addons/ZhangSkel/include/private/DZhangSkel.hpp:335-525 (`zhangSkeleton`); the version of lines 72-320 is
excluded from the compilation by `#if 0`. Images of integer pixels. -/

namespace Smil

variable {t : PT}

/-- `ngbs[a] * ngbs[b] * ngbs[c] != 0`, DZhangSkel.hpp:434, 440, 499, 505. Pixels of less than 32 bits, and
signed ones, are multiplied as signed integers of 32 bits, and an overflow is undefined; unsigned pixels of
32 bits or more are multiplied modulo `2 ^ bits`. -/
def zhMul (a b c : Px t) : Option Bool :=
  if t.signed = true ∨ t.bits < 32 then
    let r := fun v : Int => -2 ^ 31 ≤ v ∧ v < 2 ^ 31
    if r (a.val * b.val) ∧ r (a.val * b.val * c.val) then some (decide (a.val * b.val * c.val ≠ 0)) else none
  else some (decide (a.val * b.val * c.val % 2 ^ t.bits ≠ 0))

/-- A read of the buffer of `n` pixels; outside, the behaviour is undefined. -/
def zhGet (n : Nat) (b : Nat → Px t) (i : Int) : Option (Px t) :=
  if 0 ≤ i ∧ i < n then some (b i.toNat) else none

/-- `ngbOffsets`, DZhangSkel.hpp:366-367. -/
def zhOffs (W : Int) : List Int := [-W - 1, -W, -W + 1, 1, W + 1, W, W - 1, -1]

/-- Is the pixel non-zero? -/
def nz (v : Px t) : Bool := decide (v.val ≠ 0)

/-- The number of non-zero neighbours, DZhangSkel.hpp:408-413, 475-479. -/
def zhCount (l : List (Px t)) : Nat := l.countP nz

/-- The number of transitions, DZhangSkel.hpp:421-426, 487-492: each neighbour with the next one, the last
one with the first one. -/
def zhTrans : List (Px t) → Nat
  | [a0, a1, a2, a3, a4, a5, a6, a7] =>
    [(a0, a1), (a1, a2), (a2, a3), (a3, a4), (a4, a5), (a5, a6), (a6, a7), (a7, a0)].countP
      fun c => !nz c.1 && nz c.2
  | _ => 0

/-- The two products tested in phase 1 (`ph = false`), DZhangSkel.hpp:434-441, and in phase 2, 499-506: is
the pixel kept? -/
def zhKeep (ph : Bool) : List (Px t) → Option Bool
  | [_, a1, _, a3, _, a5, _, a7] =>
    if ph = false then
      (zhMul a1 a3 a5).bind fun r => if r then some true else zhMul a3 a5 a7
    else
      (zhMul a1 a3 a7).bind fun r => if r then some true else zhMul a1 a5 a7
  | _ => none

/-- The decision for the pixel of index `i`, DZhangSkel.hpp:398-447, 465-512: is it removed? -/
def zhDel (ph : Bool) (W n : Nat) (b : Nat → Px t) (i : Nat) : Option Bool :=
  if nz (b i) = false then some false
  else
    ((zhOffs W).mapM fun o => zhGet n b (i + o)).bind fun l =>
      if zhCount l < 2 ∨ 6 < zhCount l then some false
      else if zhTrans l ≠ 1 then some false
      else (zhKeep ph l).map (!·)

/-- The indices visited by the two loops of a phase, DZhangSkel.hpp:391-397: the lines `1` to `height - 2`,
and in each line the columns `1` to `width - 1`, the last one being in the border. -/
def zhVisit (W H : Nat) : List Nat :=
  (List.range' 1 (H - 2)).flatMap fun y => (List.range' 1 (W - 1)).map fun x => y * W + x

/-- The body of the loops of a phase: the pixel is removed from `modifiedIm`, and the flag is raised. -/
def zhStep (ph : Bool) (W n : Nat) (tmp : Nat → Px t) (s : (Nat → Px t) × Bool) (i : Nat) :
    Option ((Nat → Px t) × Bool) :=
  (zhDel ph W n tmp i).map fun r =>
    if r then (fun j => if j = i then Px.zero else s.1 j, true) else s

/-- A phase, DZhangSkel.hpp:390-455, 457-519. The state is `tmpIm`, `modifiedIm`; the flag says that a pixel
has been removed. -/
def zhPhase (ph : Bool) (W H : Nat) (s : (Nat → Px t) × (Nat → Px t)) :
    Option (((Nat → Px t) × (Nat → Px t)) × Bool) :=
  ((zhVisit W H).foldlM (zhStep ph W (W * H) s.1) (s.2, false)).map fun r =>
    (if r.2 then (fun i => if i < W * H then r.1 i else s.1 i, r.1) else (s.1, r.1), r.2)

/-- The loop `do … while`, DZhangSkel.hpp:385-520. The outer `none` is an undefined behaviour; the inner one
says that the fuel is exhausted. -/
def zhLoop (W H : Nat) : Nat → (Nat → Px t) × (Nat → Px t) → Option (Option (Nat → Px t))
  | 0, _ => some none
  | fuel + 1, s =>
    (zhPhase false W H s).bind fun r1 => (zhPhase true W H r1.1).bind fun r2 =>
      if r1.2 || r2.2 then zhLoop W H fuel r2.1 else some (some r2.1.1)

/-- `zhangSkeleton`, DZhangSkel.hpp:335-525, between distinct images. The results of the copies are ignored.
The sizes are taken without wrapping. -/
def zhangSkeleton (fuel : Nat) (im out : Img (Px t)) : Option (Option (Int × Img (Px t))) :=
  let D : Dims := ⟨im.dims.w + 2, im.dims.h + 2, 1⟩
  (copyWin id im ⟨0, 0, 0⟩ im.dims ⟨D, fun _ => ⊥⟩ ⟨1, 1, 0⟩).bind fun c =>
    (zhLoop D.w D.h fuel (c.2.buf, c.2.buf)).bind fun
      | none => some none
      | some b => (copyWin id ⟨D, b⟩ ⟨1, 1, 0⟩ ⟨D.w, D.h, 1⟩ out ⟨0, 0, 0⟩).map fun r => some (1, r.2)

end Smil
