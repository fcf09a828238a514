import Verif.Flood
import Verif.MorphoTop
import Verif.Transform

/-!
# Transposition and product of images as matrices

Base/include/private/DImageMatrix.hpp.
-/

namespace Smil
variable {α : Type}

/-- The table of the axes, `setOrder`, DImageMatrix.hpp:52-87: axis `i` of the output is axis `lut[i]` of the input. -/
def transLut (order : String) : Option (Nat × Nat × Nat) :=
  if order = "yxz" ∨ order = "yx" then some (1, 0, 2)
  else if order = "xzy" then some (0, 2, 1)
  else if order = "yzx" then some (1, 2, 0)
  else if order = "zxy" then some (2, 0, 1)
  else if order = "zyx" then some (2, 1, 0)
  else none

/-- `ix[k]`. -/
def axisOf (p : Nat × Nat × Nat) (k : Nat) : Nat := if k = 0 then p.1 else if k = 1 then p.2.1 else p.2.2

/-- `setPixel(x, y, z, value)`, DImage.hpp:148-155: nothing is written outside of the image. -/
def setPixel (im : Img α) (x y z : Nat) (v : α) : Img α :=
  if x < im.dims.w ∧ y < im.dims.h ∧ z < im.dims.d then
    ⟨im.dims, Function.update im.buf (z * im.dims.w * im.dims.h + y * im.dims.w + x) v⟩
  else im

/-- The three loops over the coordinates of the input. -/
def loopPts (D : Dims) : List (Nat × Nat × Nat) :=
  (List.range D.d).flatMap fun z => (List.range D.h).flatMap fun y => (List.range D.w).map fun x => (x, y, z)

/-- The body of `transpose`, DImageMatrix.hpp:123-146. In the code every thread runs all loops (there is no `omp for`), writing the
same values. -/
def transposeBy (raw : Nat → α) (lut : Nat × Nat × Nat) (im : Img α) : Img α :=
  let sz := (im.dims.w, im.dims.h, im.dims.d)
  (loopPts im.dims).foldl
    (fun o p => setPixel o (axisOf p lut.1) (axisOf p lut.2.1) (axisOf p lut.2.2) (im.px p.1 p.2.1 p.2.2))
    ⟨⟨axisOf sz lut.1, axisOf sz lut.2.1, axisOf sz lut.2.2⟩, raw⟩

/-- `matTranspose`, DImageMatrix.hpp:103-149 and 172-196. The output is resized. With the same image as input and output, the code works on a copy
of the input, which is this function with `out = im`. -/
def matTranspose (E : Env α) (im out : Img α) (order : String) : Except Int (Img α) :=
  if im.alloc = false ∨ out.alloc = false then .error errBadAllocation
  else if order = "xyz" ∨ order = "xy" then .ok im
  else match transLut (if order = "" then "yxz" else order) with
    | none => .error errRes
    | some lut => .ok (transposeBy E.raw lut im)

variable {t : PT}

/-- `RES_ERR_NOT_IMPLEMENTED`, DErrors.h:49-58. -/
def errNotImplemented : Int := -96

/-- The sum of `matMultiply`, DImageMatrix.hpp:254-256: `outVal += line[i] * col[i]`, evaluated after promotion (`none`: signed overflow) and converted
back at every step. -/
def matDot (line col : Nat → Px t) (n : Nat) : Option (Px t) :=
  (List.range n).foldlM (fun (acc : Px t) i =>
    (t.cpp ((line i).val * (col i).val)).bind fun p => (t.cpp (acc.val + p)).map t.wrap) (t.wrap 0)

/-- The loops of `matMultiply`, DImageMatrix.hpp:248-260, for matrices of `w1` columns and `h1` lines, and `w2` columns. `rd` is how the first matrix is read when the output is
in the given state: its own buffer, or the output itself when the two images are the same. -/
def matBuf (rd : (Nat → Px t) → Nat → Px t) (w1 h1 w2 : Nat) (cols : Nat → Px t) (o : Nat → Px t) : Option (Nat → Px t) :=
  ((List.range h1).flatMap fun y => (List.range w2).map fun x => (x, y)).foldlM
    (fun o (p : Nat × Nat) => (matDot (fun i => rd o (p.2 * w1 + i)) (fun i => cols (p.1 * w1 + i)) w1).map fun v =>
      Function.update o (p.2 * w2 + p.1) v) o

/-- `matMultiply`, DImageMatrix.hpp:208-264, for an output which is neither of the inputs. The second matrix is transposed into a new image. -/
def matMultiply (E : Env (Px t)) (a b : Img (Px t)) : Option (Except Int (Img (Px t))) :=
  if a.alloc = false ∨ b.alloc = false then some (.error errBadAllocation)
  else if a.dims.d ≠ 1 ∨ b.dims.d ≠ 1 then some (.error errNotImplemented)
  else if a.dims.w ≠ b.dims.h then some (.error errRes)
  else match matTranspose E b ⟨⟨b.dims.h, b.dims.w, 1⟩, E.raw⟩ "yxz" with
    | .error _ => some (.error errRes)
    | .ok tr => (matBuf (fun _ => a.buf) a.dims.w a.dims.h b.dims.w tr.buf E.raw).map fun o => .ok ⟨⟨b.dims.w, a.dims.h, 1⟩, o⟩

/-- `matMultiply(a, b, a)`: the output is read as first matrix. If `b` is not square, `setSize` frees the pixels of `a`, and the loops read uninitialised
memory (`none`). -/
def matMultiplySelf (E : Env (Px t)) (a b : Img (Px t)) : Option (Except Int (Img (Px t))) :=
  if a.alloc = false ∨ b.alloc = false then some (.error errBadAllocation)
  else if a.dims.d ≠ 1 ∨ b.dims.d ≠ 1 then some (.error errNotImplemented)
  else if a.dims.w ≠ b.dims.h then some (.error errRes)
  else if b.dims.w ≠ b.dims.h then none
  else match matTranspose E b ⟨⟨b.dims.h, b.dims.w, 1⟩, E.raw⟩ "yxz" with
    | .error _ => some (.error errRes)
    | .ok tr => (matBuf id a.dims.w a.dims.h b.dims.w tr.buf a.buf).map fun o => .ok ⟨⟨b.dims.w, a.dims.h, 1⟩, o⟩

end Smil
