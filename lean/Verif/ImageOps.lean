import Verif.LineArith
import Verif.Coords
import Mathlib.Data.List.Perm.Basic

/-!
# Pixelwise image operations

`unaryImageFunction`, `binaryImageFunction`, `tertiaryImageFunction`
(Base/include/private/DBaseImageOperations.hxx:88-420) and the size checks
(Core/include/DBaseImage.h:354-438).  Images live in a store, so that input and output may be the
same image.  The loop over lines is an `omp for`, so the order in which pixels are processed is a
parameter (any enumeration of the pixels).  Reading an uninitialised pixel or an access
outside a buffer is `none`.
-/

namespace Smil

/-- An image object as seen by the pixelwise functions. -/
structure ImS (α : Type) where
  dims : Dims
  allocated : Bool
  buf : List (Option α)
deriving DecidableEq

/-- All images of the program, by name. -/
abbrev Store (α : Type) := Nat → ImS α

/-- Result codes, Core/include/DErrors.h:49-58. -/
inductive RES where
  | ok
  | err
  | badAllocation
  | badSize
  | io
  | notImplemented
deriving DecidableEq, Repr

variable {α : Type}

/-- Read a pixel through a line pointer. -/
def rd (S : Store α) (a i : Nat) : Option α := ((S a).buf[i]?).join

/-- Write a pixel through a line pointer. -/
def wr (S : Store α) (a i : Nat) (v : α) : Option (Store α) :=
  if i < (S a).buf.length then
    some fun b => if b = a then { S a with buf := (S a).buf.set i (some v) } else S b
  else none

/-- One iteration of the innermost loop of the line functions: read the inputs at the position,
apply the scalar kernel, write the output (Base/include/private/DLineArith.hpp, all kernels). -/
def pixStep (k : List α → Option α) (ins : List Nat) (o : Nat) (S : Store α) (i : Nat) :
    Option (Store α) := do
  let xs ← ins.mapM fun a => rd S a i
  let v ← k xs
  wr S o i v

/-- The parallel loops of `_exec`, DBaseImageOperations.hxx:92-420. -/
def pixExec (k : List α → Option α) (ins : List Nat) (o : Nat) (order : List Nat) (S : Store α) :
    Option (Store α) :=
  order.foldlM (pixStep k ins o) S

/-- `areAllocated`, DBaseImage.h:414-428. -/
def areAllocated (S : Store α) (ims : List Nat) : Bool := ims.all fun a => (S a).allocated

/-- `haveSameSize`, DBaseImage.h:358-382 (first image, then the others). -/
def haveSameSize (S : Store α) (first : Nat) (ims : List Nat) : Bool :=
  (S first).allocated && ims.all fun a => (S a).allocated && ((S a).dims == (S first).dims)

/-- `setSameSize`, DBaseImage.h:388-408: every later image of another size is reallocated at the
size of the first one (contents lost). -/
def setSameSize (S : Store α) (D : Dims) : List Nat → Store α
  | [] => S
  | a :: as =>
      setSameSize
        (if (S a).dims = D then S
         else fun b => if b = a then ⟨D, true, List.replicate D.count none⟩ else S b) D as

/-- A pixelwise image operator such as `add`, `inv`, `sup`, `test` with inputs `first :: rest`
(DImageArith.hpp:70-1140): allocation check, size check (automatic resizing if `auto`), loop.
`order n` is the order in which the `n` pixels are processed. -/
def pixOp (auto : Bool) (k : List α → Option α) (first : Nat) (rest : List Nat) (o : Nat)
    (order : Nat → List Nat) (S : Store α) : Option (RES × Store α) :=
  if !areAllocated S (first :: rest ++ [o]) then some (.badAllocation, S)
  else if auto then
    let S1 := setSameSize S (S first).dims (rest ++ [o])
    (pixExec k (first :: rest) o (order (S first).dims.count) S1).map fun S' => (.ok, S')
  else if haveSameSize S first (rest ++ [o]) then
    (pixExec k (first :: rest) o (order (S first).dims.count) S).map fun S' => (.ok, S')
  else some (.badSize, S)

/-- `sub(im, value, out)` and `sub(value, im, out)`, DImageArith.hpp:176-193: only the
allocation is checked, by `_exec`. -/
def pixOpUnchecked (k : List α → Option α) (first : Nat) (o : Nat)
    (order : Nat → List Nat) (S : Store α) : Option (RES × Store α) :=
  if !areAllocated S [first, o] then some (.badAllocation, S)
  else (pixExec k [first] o (order (S first).dims.count) S).map fun S' => (.ok, S')

/-- A unary kernel as a list function. -/
def lift1 (k : α → Option α) : List α → Option α
  | [x] => k x
  | _ => none

/-- A binary kernel as a list function. -/
def lift2 (k : α → α → Option α) : List α → Option α
  | [x, y] => k x y
  | _ => none

/-- `add(im1, im2, out)`, DImageArith.hpp:89-95. -/
def imAdd {t : PT} (auto : Bool) (a b o : Nat) := pixOp auto (lift2 (kAdd (t := t))) a [b] o

/-- `sub(im1, im2, out)`, DImageArith.hpp:160-166. -/
def imSub {t : PT} (auto : Bool) (a b o : Nat) := pixOp auto (lift2 (kSub (t := t))) a [b] o

/-- `sub(im, value, out)`, DImageArith.hpp:176-179. -/
def imSubConst {t : PT} (a : Nat) (v : Px t) (o : Nat) :=
  pixOpUnchecked (lift1 fun x => kSub x v) a o

/-- `inv(im, out)`, DImageArith.hpp:70-76. -/
def imInv {t : PT} (auto : Bool) (a o : Nat) := pixOp auto (lift1 (kInv (t := t))) a [] o

/-- A legal state of the store: allocated images own a full buffer. -/
def StoreOK (S : Store α) : Prop := ∀ a, (S a).allocated = true → (S a).buf.length = (S a).dims.count

end Smil
