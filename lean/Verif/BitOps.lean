import Verif.ImageOps
import Mathlib.Data.Int.Bitwise

/-! # Bitwise operators and exchanges with arrays -/

namespace Smil

variable {t : PT}

/-- `bitAndLine`, DLineArith.hpp:494-502: `(T)(lIn1[i] & lIn2[i])`. The operands are promoted, which keeps
their values, and the result is converted back; `&` on integers of any width is that of two's complement. -/
def kBitAnd (a b : Px t) : Px t := t.wrap (Int.land a.val b.val)
/-- `bitOrLine`, DLineArith.hpp:514-522. -/
def kBitOr (a b : Px t) : Px t := t.wrap (Int.lor a.val b.val)
/-- `bitXOrLine`, DLineArith.hpp:534-542. -/
def kBitXOr (a b : Px t) : Px t := t.wrap (Int.xor a.val b.val)

/-- `bitAnd(im1, im2, out)`, DImageArith.hpp:935-942. -/
def imBitAnd (auto : Bool) (a b o : Nat) := pixOp auto (lift2 fun x y => some (kBitAnd (t := t) x y)) a [b] o
/-- `bitOr(im1, im2, out)`, DImageArith.hpp:979-986. -/
def imBitOr (auto : Bool) (a b o : Nat) := pixOp auto (lift2 fun x y => some (kBitOr (t := t) x y)) a [b] o
/-- `bitXOr(im1, im2, out)`, DImageArith.hpp:1024-1031. -/
def imBitXOr (auto : Bool) (a b o : Nat) := pixOp auto (lift2 fun x y => some (kBitXOr (t := t) x y)) a [b] o
/-- `logicXOr(im1, im2, out)`, DImageArith.hpp:1002-1009. -/
def imLogicXOr (auto : Bool) (a b o : Nat) := pixOp auto (lift2 fun x y => some (kLogicXOr (t := t) x y)) a [b] o
/-- `logicAnd(im1, im2, out)`, DImageArith.hpp:913-920. -/
def imLogicAnd (auto : Bool) (a b o : Nat) := pixOp auto (lift2 fun x y => some (kLogicAnd (t := t) x y)) a [b] o
/-- `logicOr(im1, im2, out)`, DImageArith.hpp:957-964. -/
def imLogicOr (auto : Bool) (a b o : Nat) := pixOp auto (lift2 fun x y => some (kLogicOr (t := t) x y)) a [b] o

/-! ### Exchanges with arrays, Core/include/private/DImage.hxx:382-455

An image is the list of its pixels. `s` is the type of the elements of the array. -/

/-- The loop of `toArray`, `toCharArray` and `toIntArray`, DImage.hxx:382-417, into an array of `arr.length`
elements, and its content; an array which is too short is written beyond its end (`none`). -/
def toArrayS (s : PT) (pixels : List (Px t)) (arr : List (Px s)) : Option (List (Px s)) :=
  if pixels.length ≤ arr.length then some (pixels.map (fun p => s.wrap p.val) ++ arr.drop pixels.length) else none

/-- The loop of `fromArray`, `fromCharArray` and `fromIntArray`, DImage.hxx:388-424; an array which is too short
is read beyond its end (`none`). -/
def fromArrayS {s : PT} (pixels : List (Px t)) (arr : List (Px s)) : Option (List (Px t)) :=
  if pixels.length ≤ arr.length then some ((arr.take pixels.length).map fun v => t.wrap v.val) else none

/-- `toIntVector`, DImage.hxx:427-433 (`s = INT32`), and `toString`, DImage.hxx:444-450 (`s = INT8`). -/
def toVecS (s : PT) (pixels : List (Px t)) : List (Px s) := pixels.map fun p => s.wrap p.val

/-- `fromIntVector`, DImage.hxx:435-442, and `fromString`, DImage.hxx:452-459: with another length nothing is
done (and nothing is returned: `void`). -/
def fromVecS {s : PT} (pixels : List (Px t)) (v : List (Px s)) : List (Px t) :=
  if v.length = pixels.length then v.map fun x => t.wrap x.val else pixels

end Smil
