import Mathlib.Logic.Function.Basic
import Mathlib.Data.List.Range

/-!
# Packed binary images

NSTypes/Bit/include/DBitArray.h, DLineArith_Bit.h, NSTypes/Bit/src/DBitArray.cpp, DImage_Bit.cpp.
A buffer of words is a function from word numbers; words have 64 bits (`INT_TYPE` is `size_t`).
`UINT` arithmetic is modulo `2^32`.
-/

namespace Smil

/-- A word of `INT_TYPE`. -/
abbrev Word := BitVec 64
/-- A buffer of words. -/
abbrev Words := Nat → Word

/-- `INT_SIZE`, DBitArray.h:59 (for `bitCount > 0`). -/
def intSize (bitCount : Nat) : Nat := (bitCount - 1) / 64 + 1

/-- `getBitPadX`, DBitArray.h:79. -/
def bitPad (w : Nat) : Nat := intSize w * 64 - w

/-- The word of `getValue` and `setValue`, DBitArray.h:101-102 and 112-113, in arithmetic modulo
`2^32`; `w` is `bitWidth`. -/
def bitWord (w ind : Nat) : Nat := ((ind + (ind / w) * bitPad w) % 2 ^ 32) / 64

/-- The bit number, DBitArray.h:103 and 114. -/
def bitNum (w ind : Nat) : Nat := (ind - (ind / w) * w) % 64

/-- `getValue(ind)`, DBitArray.h:99-105. `none`: division by a zero width. -/
def bitGet (w : Nat) (m : Words) (ind : Nat) : Option Bool :=
  if w = 0 then none else some (m (bitWord w ind) &&& (1#64 <<< bitNum w ind) ≠ 0)

/-- `setValue(ind, val)`, DBitArray.h:110-118. -/
def bitSet (w : Nat) (m : Words) (ind : Nat) (val : Bool) : Option Words :=
  if w = 0 then none
  else some (Function.update m (bitWord w ind)
    (if val then m (bitWord w ind) ||| (1#64 <<< bitNum w ind)
      else m (bitWord w ind) &&& ~~~ (1#64 <<< bitNum w ind)))

/-- `getPixel(x, y, z)`, Core/include/private/DImage.hpp:128-133 on a `BitArray` of index 0:
`pixels[z * width * height + y * width + x]`, the index converted to `UINT` (`const bool operator[]`, DBitArray.cpp:90-93). -/
def bitGetPixel (w h d : Nat) (m : Words) (x y z : Nat) : Option Bool :=
  if x ≥ w ∨ y ≥ h ∨ z ≥ d then none else bitGet w m ((z * w * h + y * w + x) % 2 ^ 32)

/-- `setPixel(x, y, z, value)`, DImage.hpp:148-155; `none` for the returned error. -/
def bitSetPixel (w h d : Nat) (m : Words) (x y z : Nat) (v : Bool) : Option Words :=
  if x ≥ w ∨ y ≥ h ∨ z ≥ d then none else bitSet w m ((z * w * h + y * w + x) % 2 ^ 32) v

/-- `restruct`, DImage_Bit.cpp:64-94: the first word of line `j` of slice `k`. -/
def lineWord (w h j k : Nat) : Nat := k * (intSize w * h) + j * intSize w

/-- The line `j` of slice `k` as a buffer. -/
def bitLine (w h : Nat) (m : Words) (j k : Nat) : Words := fun i => m (lineWord w h j k + i)

/-- `setPixel(offset, value)`, DImage_Bit.cpp:146-151: through the line tables. -/
def bitSetOffset (w h : Nat) (m : Words) (offset : Nat) (v : Bool) : Option Words :=
  if w = 0 then none
  else
    let l := offset / w
    (bitSet w (bitLine w h m (l % h) (l / h)) (offset % w) v).map fun r =>
      fun i => if lineWord w h (l % h) (l / h) ≤ i then r (i - lineWord w h (l % h) (l / h)) else m i

/-! ### Line functions, DLineArith_Bit.h -/

/-- A loop writing `g i` at every `i` with `a ≤ i < b`. -/
def writeLoop (a b : Nat) (g : Nat → Word) (m : Words) : Words :=
  (List.range' a (b - a)).foldl (fun m i => Function.update m i (g i)) m

/-- `fillLine<Bit>`, DLineArith_Bit.h:79-84. -/
def bitFill (size : Nat) (v : Bool) (m : Words) : Words :=
  writeLoop 0 (intSize size) (fun _ => if v then BitVec.allOnes 64 else 0) m

/-- `copyLine<Bit>` for lines of index 0, DLineArith_Bit.h:54-64. -/
def bitCopy (size : Nat) (src dst : Words) : Words :=
  let full := size / 64
  let m := writeLoop 0 full src dst
  if size - full * 64 ≠ 0 then Function.update m full (src full) else m

/-- `copyLine<Bit>` otherwise, DLineArith_Bit.h:65-69: `lOut[i] = lIn[i]` for every `i < size`. The
left-hand side is the position `outIdx + i`; the right-hand side is `const bool operator[]`
(DBitArray.cpp:90-93), which ignores the index `inIdx` of the line. -/
def bitCopyIdx (wOut wIn outIdx _inIdx size : Nat) (src dst : Words) : Option Words :=
  (List.range size).foldlM (fun m i => (bitGet wIn src i).bind fun v => bitSet wOut m (outIdx + i) v) dst

/-- The binary line functions of DLineArith_Bit.h:234-404. -/
inductive BitOp
  | add | addNoSat | sub | subNoSat | sup | inf | grt | grtOrEqu | low | lowOrEqu | equ | diff
  | mul | mulNoSat | div | logicAnd | logicOr
deriving DecidableEq, Repr

/-- The word operation of each of them. -/
def BitOp.word : BitOp → Word → Word → Word
  | .add, a, b => a ||| b
  | .addNoSat, a, b => a ^^^ b
  | .sub, a, b => a &&& ~~~ b
  | .subNoSat, a, b => a ^^^ b
  | .sup, a, b => a ||| b
  | .inf, a, b => a &&& b
  | .grt, a, b => a &&& ~~~ b
  | .grtOrEqu, a, b => a ||| ~~~ b
  | .low, a, b => ~~~ a &&& b
  | .lowOrEqu, a, b => ~~~ a ||| b
  | .equ, a, b => ~~~ (a ^^^ b)
  | .diff, a, b => a ^^^ b
  | .mul, a, b => a &&& b
  | .mulNoSat, a, b => a &&& b
  | .div, a, b => a ||| ~~~ b
  | .logicAnd, a, b => a &&& b
  | .logicOr, a, b => a ||| b

/-- A binary line function on `size` pixels: the loop on `INT_SIZE(size)` words. -/
def bitBinary (op : BitOp) (size : Nat) (a b out : Words) : Words :=
  writeLoop 0 (intSize size) (fun i => op.word (a i) (b i)) out

/-- `invLine<Bit>`, DLineArith_Bit.h:224-232. -/
def bitInv (size : Nat) (a out : Words) : Words := writeLoop 0 (intSize size) (fun i => ~~~ a i) out

/-- `testLine<Bit, Bit>`, DLineArith_Bit.h:406-414. -/
def bitTest (size : Nat) (a b c out : Words) : Words :=
  writeLoop 0 (intSize size) (fun i => (a i &&& b i) ||| (~~~ a i &&& c i)) out

/-- The line loop of `binaryImageFunction` (Base/include/private/DBaseImageOperations.hxx:157-186) on `n`
lines of `w` pixels: line `l` starts at word `l * INT_SIZE(w)` of each image. -/
def bitImgBinary (op : BitOp) (w n : Nat) (a b out : Words) : Words :=
  (List.range n).foldl (fun m l =>
    let at0 := l * intSize w
    let r := bitBinary op w (fun i => a (at0 + i)) (fun i => b (at0 + i)) (fun i => m (at0 + i))
    fun i => if at0 ≤ i then r (i - at0) else m i) out

/-- A shift `x << n` of a 64 bit word: undefined for `n ≥ 64`. -/
def shlW (x : Word) (n : Nat) : Option Word := if n < 64 then some (x <<< n) else none
/-- A shift `x >> n` of a 64 bit word. -/
def shrW (x : Word) (n : Nat) : Option Word := if n < 64 then some (x >>> n) else none

/-- `bBorder`, DLineArith_Bit.h:156 and 187. -/
def borderWord (b : Bool) : Word := if b then BitVec.allOnes 64 else 0

/-- A loop whose values may be undefined. -/
def writeLoopM (a b : Nat) (g : Nat → Option Word) (m : Words) : Option Words :=
  (List.range' a (b - a)).foldlM (fun m i => (g i).map fun v => Function.update m i v) m

/-- `bitShiftLeft(lIn, dx, lineLen, lOut, borderValue)`, DLineArith_Bit.h:149-175, for `dx ≥ 0` and an
output distinct from the input. The pointers `bIn`, `bOut` are kept as word numbers. -/
def bitShiftLeft (dx lineLen : Nat) (border : Bool) (src dst : Words) : Option Words :=
  let realLen := intSize lineLen
  let dxBytes := dx / 64
  if dx ≥ lineLen then some (bitFill lineLen border dst)
  else
    let m1 := writeLoop 0 dxBytes (fun _ => borderWord border) dst
    let lMov := dx % 64
    let rMov := 64 - lMov
    ((shlW (src 0) lMov).bind fun a => (shrW (borderWord border) rMov).map fun b =>
      Function.update m1 dxBytes (a ||| b)).bind fun m2 =>
    writeLoopM (dxBytes + 1) realLen (fun k =>
      (shlW (src (k - dxBytes)) lMov).bind fun a => (shrW (src (k - dxBytes - 1)) rMov).map fun b => a ||| b) m2

/-- `bitShiftRight(lIn, dx, lineLen, lOut, borderValue)`, DLineArith_Bit.h:177-210; `lenDiff` is the pad
of `lIn`, taken of the same length. The `i`-th word written is `realLen - 1 - i`. -/
def bitShiftRight (dx lineLen : Nat) (border : Bool) (src dst : Words) : Option Words :=
  let realLen := intSize lineLen
  let lenDiff := bitPad lineLen
  let dxBytes := (dx + lenDiff) / 64
  if dx ≥ lineLen then some (bitFill lineLen border dst)
  else
    let m1 := writeLoop (realLen - dxBytes) realLen (fun _ => borderWord border) dst
    let rMov := dx % 64
    let lMov := 64 - rMov
    (shrW (BitVec.allOnes 64) lenDiff).bind fun mask =>
    let rightMask := src (realLen - 1) &&& mask
    ((shrW rightMask rMov).bind fun a => (shlW (borderWord border) lMov).map fun b =>
      Function.update m1 (realLen - 1 - dxBytes) (a ||| b)).bind fun m2 =>
    (if dxBytes + 1 < realLen then
      (shrW (src (realLen - 2)) rMov).bind fun a => (shlW rightMask lMov).map fun b =>
        Function.update m2 (realLen - 2 - dxBytes) (a ||| b)
    else some m2).bind fun m3 =>
    -- i = dxBytes + 2 ... realLen - 1 writes word realLen - 1 - i from words realLen - 1 - i + dxBytes
    writeLoopM 0 (realLen - 2 - dxBytes) (fun k =>
      (shrW (src (k + dxBytes)) rMov).bind fun a => (shlW (src (k + dxBytes + 1)) lMov).map fun b => a ||| b) m3

/-- `shiftLine<Bit>`, DLineArith_Bit.h:212-221. -/
def bitShift (dx : Int) (lineLen : Nat) (border : Bool) (src dst : Words) : Option Words :=
  if dx = 0 then some (bitCopy lineLen src dst)
  else if dx > 0 then bitShiftLeft dx.toNat lineLen border src dst
  else bitShiftRight (-dx).toNat lineLen border src dst

end Smil
