import Verif.Img

/-!
# Dilations along lines (van Herk, Gil and Werman, Soille)

Advanced/include/private/FastLine/FastLineSoille.hpp. The pixels form a linear order `α`; `MAX` (DCommon.h:104) is
`max`. Arrays are functions; `raw` stands for what an array holds before it is written. `ulong` has 64 bits.
-/

namespace Smil
variable {α : Type}

/-- The arrays `g`, `h` and `h2`. -/
structure VH (α : Type) where
  g : Nat → α
  h : Nat → α
  h2 : Nat → α

section
variable [LinearOrder α]

/-- The first loop and the correction of `h[0]`, FastLineSoille.hpp:255-272, 308-324 and 360-376. `f x` is the pixel
number `x` of the line. -/
def vhFill (f : Nat → α) (n k : Nat) (raw : VH α) : VH α :=
  let s := (List.range n).foldl (fun (s : VH α) x =>
    let x2 := n - 1 - x
    ⟨Function.update s.g x (if x % k ≠ 0 then max (s.g (x - 1)) (f x) else f x),
      Function.update s.h x2 (if x2 % k = k - 1 ∨ x2 = n - 1 then f x2 else max (s.h (x2 + 1)) (f x2)), s.h2⟩) raw
  ⟨s.g, Function.update s.h 0 (if k = 1 ∨ n = 1 then f 0 else max (s.h 1) (f 0)), s.h2⟩

/-- `for (x = width - 2; x >= (width - k); x--) h2[x] = MAX(h2[x + 1], f[x])`, FastLineSoille.hpp:274-275 and 326-327,
with at most `fuel` tests, on an array of `cells` elements; `none`: access outside of the array. -/
def h2Loop (f : Nat → α) (cells lim : Nat) : Nat → Nat → (Nat → α) → Option (Nat → α)
  | 0, _, _ => none
  | fuel + 1, x, h2 =>
    if lim ≤ x then
      if x < cells then
        h2Loop f cells lim fuel ((x + (2 ^ 64 - 1)) % 2 ^ 64) (Function.update h2 x (max (h2 ((x + 1) % 2 ^ 64)) (f x)))
      else none
    else some h2

/-- The same loop with the test `(x > 0)`, FastLineSoille.hpp:379-380. -/
def h2Loop' (f : Nat → α) (lim : Nat) : Nat → (Nat → α) → Nat → α
  | 0, h2 => h2
  | x + 1, h2 => if lim ≤ x + 1 then h2Loop' f lim x (Function.update h2 (x + 1) (max (h2 (x + 2)) (f (x + 1)))) else h2

/-- The last part, FastLineSoille.hpp:278-298, 330-350 and 384-404: the value written for the pixel number `x`. -/
def vhOut (n k : Nat) (s : VH α) (x : Nat) : α :=
  if n ≤ k / 2 then s.g (n - 1)
  else if n ≤ k then
    if x < n - k / 2 then s.g (x + k / 2) else if x ≤ k / 2 then s.g (n - 1) else s.h (x - k / 2)
  else if x < n - k / 2 then
    if x < k / 2 then s.g (x + k / 2) else max (s.g (x + k / 2)) (s.h (x - k / 2))
  else s.h2 (x - k / 2)

/-- `DilateHorLine`, FastLineSoille.hpp:249-299, and `DilateVerLine`, lines 301-351, on the pixels of a line or of a
column. The second reads `h[1]` in place of `h2[1]` for `h2[0]` (`ver`). -/
def dilHorVer (ver : Bool) (cells k : Nat) (f : Nat → α) (n : Nat) (raw : VH α) : Option (Nat → α) :=
  let s := vhFill f n k raw
  (h2Loop f cells ((n + (2 ^ 64 - k)) % 2 ^ 64) (n + 1) ((n + (2 ^ 64 - 2)) % 2 ^ 64)
      (Function.update s.h2 (n - 1) (f (n - 1)))).map fun h2 =>
    let h2 := Function.update h2 0 (max (if ver then s.h 1 else h2 1) (f 0))
    vhOut n k ⟨s.g, s.h, h2⟩

/-- `DilateLine`, FastLineSoille.hpp:353-405. -/
def dilAlong (_cells k : Nat) (f : Nat → α) (n : Nat) (raw : VH α) : Option (Nat → α) :=
  let s := vhFill f n k raw
  let h2 := Function.update s.h2 (n - 1) (f (n - 1))
  let h2 := if 2 ≤ n then
      let h2 := h2Loop' f ((n + (2 ^ 64 - k)) % 2 ^ 64) (n - 2) h2
      Function.update h2 0 (max (h2 1) (f 0))
    else h2
  some (vhOut n k ⟨s.g, s.h, h2⟩)

end

/-! ### The lines -/

/-- `ComputeLinePosDiag`, FastLineSoille.hpp:58-81: the offsets written in `p`. -/
def walkPos (W H : Nat) : Nat → Int → Int → Int → Option (List Int)
  | 0, _, _, _ => none
  | fuel + 1, x, y, idx =>
    if x < W ∧ y < H then (walkPos W H fuel (x + 1) (y + 1) (idx + W + 1)).map (idx :: ·) else some []

/-- See `walkPos`. -/
def linePosDiag (W H : Nat) (x y : Int) : Option (List Int) :=
  let y := if x < 0 then y - x else y
  let x := if x < 0 then 0 else x
  let x' := if y < 0 then x - y else x
  let y' := if y < 0 then 0 else y
  walkPos W H (W + 1) x' y' (y' * W + x')

/-- `ComputeLineNegDiag`, FastLineSoille.hpp:83-106: the loop. -/
def walkNeg (W : Nat) : Nat → Int → Int → Int → Option (List Int)
  | 0, _, _, _ => none
  | fuel + 1, x, y, idx =>
    if x < (W : Int) - 1 ∧ y > 0 then
      (walkNeg W fuel (x + 1) (y - 1) (idx - (W - 1))).map ((idx - (W - 1)) :: ·)
    else some []

/-- `ComputeLineNegDiag`, FastLineSoille.hpp:83-106. -/
def lineNegDiag (W H : Nat) (x y : Int) : Option (List Int) :=
  let x' := if y ≥ H then x + (y - H + 1) else x
  let y' := if y ≥ H then (H : Int) - 1 else y
  if x' ≥ W then some []
  else (walkNeg W (W + 1) x' y' (y' * W + x')).map ((y' * W + x') :: ·)

/-- `while ((x < 0) || (y < 0))`, FastLineSoille.hpp:117-124 and 187-194: major and minor coordinate, `dp`. `da`, `db`
are the steps along the major and the minor axis. -/
def bresSkip (da db : Int) : Nat → Int → Int → Int → Option (Int × Int × Int)
  | 0, _, _, _ => none
  | fuel + 1, a, b, dp =>
    if a < 0 ∨ b < 0 then
      if dp ≥ 0 then bresSkip da db fuel (a + 1) (b + 1) (dp + (2 * db - 2 * da))
      else bresSkip da db fuel (a + 1) b (dp + 2 * db)
    else some (a, b, dp)

/-- The loop of lines 127-138 and 197-208. `A`, `B`: sizes of the major and of the minor axis, `sa`, `sb`: their
increments of the offset. -/
def bresWalk (da db sa sb : Int) (A B : Nat) : Nat → Int → Int → Int → Int → Option (List Int)
  | 0, _, _, _, _ => none
  | fuel + 1, a, b, dp, idx =>
    if a < A ∧ b < B then
      (if dp ≥ 0 then bresWalk da db sa sb A B fuel (a + 1) (b + 1) (dp + (2 * db - 2 * da)) (idx + sb + sa)
       else bresWalk da db sa sb A B fuel (a + 1) b (dp + 2 * db) (idx + sa)).map (idx :: ·)
    else some []

/-- `ComputeBresenhamLinePX`, FastLineSoille.hpp:108-140 (major axis x), and `ComputeBresenhamLinePY`, lines 179-210
(major axis y), with `phase` 1. -/
def bresLine (da db sa sb : Int) (A B : Nat) (a b : Int) : Option (List Int) := do
  let (a, b, dp) ← bresSkip da db ((-a).toNat + (-b).toNat * da.toNat + 1) a b (2 * db - 2)
  bresWalk da db sa sb A B (A + 1) a b dp (b * sb + a * sa)

/-- `while (y >= height)`, FastLineSoille.hpp:150-157, and `while (x >= width)`, lines 220-227. -/
def bresSkipN (da db : Int) (B : Nat) : Nat → Int → Int → Int → Option (Int × Int × Int)
  | 0, _, _, _ => none
  | fuel + 1, a, b, dp =>
    if b ≥ B then
      if dp ≥ 0 then bresSkipN da db B fuel (a + 1) (b - 1) (dp + (2 * db - 2 * da))
      else bresSkipN da db B fuel (a + 1) b (dp + 2 * db)
    else some (a, b, dp)

/-- The loop of lines 164-175 and 234-245. The first one does not test `y < height`, which always holds there. -/
def bresWalkN (da db sa sb : Int) (A B : Nat) : Nat → Int → Int → Int → Int → Option (List Int)
  | 0, _, _, _, _ => none
  | fuel + 1, a, b, dp, idx =>
    if a < (A : Int) - 1 ∧ b > 0 ∧ b < B then
      if dp ≥ 0 then
        (bresWalkN da db sa sb A B fuel (a + 1) (b - 1) (dp + (2 * db - 2 * da)) (idx - sb + sa)).map
          ((idx - sb + sa) :: ·)
      else (bresWalkN da db sa sb A B fuel (a + 1) b (dp + 2 * db) (idx + sa)).map ((idx + sa) :: ·)
    else some []

/-- `ComputeBresenhamLineNX`, FastLineSoille.hpp:142-177 (major axis x), and `ComputeBresenhamLineNY`, lines 212-247. -/
def bresLineN (da db sa sb : Int) (A B : Nat) (a b : Int) : Option (List Int) := do
  let (a, b, dp) ← bresSkipN da db B ((b - B + 1).toNat * da.toNat + 1) a b (2 * db - 2)
  if a ≥ A then some []
  else (bresWalkN da db sa sb A B (A + 1) a b dp (b * sb + a * sa)).map ((b * sb + a * sa) :: ·)

/-- `while (nx > 0) { ...; y++; nx = ... }`, FastLineSoille.hpp:449-511; the lines are computed before they are
treated. -/
def genLines (line : Int → Option (List Int)) (step : Int) : Nat → Int → Option (List (List Int))
  | 0, _ => none
  | fuel + 1, s => (line s).bind fun l =>
    if l = [] then some [] else (genLines line step fuel (s + step)).map (l :: ·)

/-- `ImageGrayDilateLine`, FastLineSoille.hpp:436-512: the lines, for a direction that is neither horizontal nor
vertical. -/
def slantLines (W H : Nat) (dx dy : Int) : Option (List (List Int)) :=
  if dx.natAbs = dy.natAbs then
    if dx = -dy then genLines (lineNegDiag W H 0) 1 (W + H + 1) 0
    else genLines (linePosDiag W H 0) (-1) (W + H + 1) ((H : Int) - 2)
  else if dx.natAbs > dy.natAbs then
    if (dx > 0 ∧ dy > 0) ∨ (dx < 0 ∧ dy < 0) then
      genLines (bresLine dx.natAbs dy.natAbs 1 W W H 0) (-1) (W + H + 1) ((H : Int) - 1)
    else genLines (bresLineN dx.natAbs dy.natAbs 1 W W H 0) 1 (W + H + 1) 0
  else
    if (dx > 0 ∧ dy > 0) ∨ (dx < 0 ∧ dy < 0) then
      genLines (bresLine dy.natAbs dx.natAbs W 1 H W 0) (-1) (W + H + 1) ((W : Int) - 1)
    else genLines (bresLineN dy.natAbs dx.natAbs W 1 H W 0) 1 (W + H + 1) 0

section
variable [LinearOrder α]

/-- One line: the offsets go through the array `p` of `cells` elements and must be in the image. The values
are all read before the first is written. -/
def lineStep (proc : (Nat → α) → Nat → VH α → Option (Nat → α)) (N cells : Nat) (raw : VH α) (rd out : Nat → α)
    (l : List Int) : Option (Nat → α) :=
  if l.length ≤ cells ∧ ∀ o ∈ l, 0 ≤ o ∧ o < N then
    (proc (fun x => rd (l.getD x 0).toNat) l.length raw).map fun r =>
      (List.range l.length).foldl (fun out x => Function.update out (l.getD x 0).toNat (r x)) out
  else none

/-- The lines one after the other. `same`: the output is the input. `raw i`: the arrays before line `i`. -/
def runLines (proc : (Nat → α) → Nat → VH α → Option (Nat → α)) (N cells : Nat) (raw : Nat → VH α) (same : Bool)
    (f : Nat → α) : List (List Int) → (Nat → α) → Option (Nat → α)
  | [], out => some out
  | l :: ls, out => (lineStep proc N cells (raw ls.length) (if same then out else f) out l).bind
      (runLines proc N cells raw same f ls)

/-- The lines of an image, FastLineSoille.hpp:407-419. -/
def horLines (W H : Nat) : List (List Int) := (List.range H).map fun y => (List.range W).map fun x => ((y * W + x : Nat) : Int)

/-- The columns of an image, FastLineSoille.hpp:421-434. -/
def verLines (W H : Nat) : List (List Int) := (List.range W).map fun x => (List.range H).map fun y => ((x + y * W : Nat) : Int)

/-- `ImageGrayDilateLine`, FastLineSoille.hpp:436-512, on the buffers. -/
def grayDilate (W H k : Nat) (dx dy : Int) (raw : Nat → VH α) (same : Bool) (f out : Nat → α) : Option (Nat → α) :=
  let cells := max W H
  if dy = 0 then runLines (dilHorVer false cells k) (W * H) cells raw same f (horLines W H) out
  else if dx = 0 then runLines (dilHorVer true cells k) (W * H) cells raw same f (verLines W H) out
  else (slantLines W H dx dy).bind fun ls => runLines (dilAlong cells k) (W * H) cells raw same f ls out

end

end Smil
