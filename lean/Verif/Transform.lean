import Verif.MorphoTop
import Verif.LineArith

/-!
# Flips, rotations, translation, windows

Base/include/private/DImageTransform.hpp:62-760. `none` is undefined behaviour (an access outside a
buffer); a loop `parallel for` is run in order: its iterations write distinct cells and read an image
that is not written, except where said.
-/

namespace Smil
variable {α β : Type}

/-- `RES_ERR`, Core/include/DErrors.h:51. -/
def errRes : Int := -100

/-- A write `p[i] = v` in a buffer of `n` pixels; `none`: outside the buffer. -/
def putAt (n : Nat) (f : Nat → α) (i : Int) (v : α) : Option (Nat → α) :=
  if 0 ≤ i ∧ i < n then some (Function.update f i.toNat v) else none

/-- The iterations `(k, j, i)` of three nested loops, in order. -/
def loop3 (d h w : Nat) : List (Nat × Nat × Nat) :=
  (List.range d).flatMap fun k => (List.range h).flatMap fun j => (List.range w).map fun i => (k, j, i)

/-- `imOut.setSize(w, h, d)`, DImage.hxx:287-320: an image that has the size already is kept, otherwise its
pixels are those of a fresh buffer. -/
def setSize (raw : Nat → α) (D : Dims) (out : Img α) : Img α := if out.dims = D then out else ⟨D, raw⟩

/-! ### Flips -/

/-- The iteration `(k, j, i)` of `flipIt`, lines 485-490, with `copyReverse` (448-452): `n` is the number of
pixels of the output. -/
def flipStep (n : Nat) (vert : Bool) (im : Img α) (f : Nat → α) (c : Nat × Nat × Nat) : Option (Nat → α) :=
  let w := im.dims.w
  let h := im.dims.h
  if vert then putAt n f (rasterIndex w h c.2.2 (h - 1 - c.2.1) c.1) (im.px c.2.2 c.2.1 c.1)
  else putAt n f (rasterIndex w h c.2.2 c.2.1 c.1) (im.px (w - 1 - c.2.2) c.2.1 c.1)

/-- `flipIt`, DImageTransform.hpp:455-494. For `&imIn == &imOut` the input is cloned first (lines
460-463), so that the result is the one for a distinct output image. -/
def flipIt (E : Env α) (vert : Bool) (im out : Img α) : Option (Except Int (Img α)) :=
  guarded E im out fun o =>
    ((loop3 im.dims.d im.dims.h im.dims.w).foldlM (flipStep o.dims.count vert im) o.buf).map
      fun f => ⟨o.dims, f⟩

/-- `vertFlip(imIn, imOut)`, DImageTransform.hpp:507-512. -/
def vertFlip (E : Env α) (im out : Img α) : Option (Except Int (Img α)) := flipIt E true im out
/-- `vertFlip(im)`, DImageTransform.hpp:521-524. -/
def vertFlipIn (E : Env α) (im : Img α) : Option (Except Int (Img α)) := vertFlip E im im
/-- `horizFlip(imIn, imOut)`, DImageTransform.hpp:535-540. -/
def horizFlip (E : Env α) (im out : Img α) : Option (Except Int (Img α)) := flipIt E false im out
/-- `horizFlip(im)`, DImageTransform.hpp:549-552. -/
def horizFlipIn (E : Env α) (im : Img α) : Option (Except Int (Img α)) := horizFlip E im im

/-! ### Rotation -/

/-- The index written by the iteration `(j, i)` of the slice loop for an angle, lines 622, 637, 652, in
`off_t`; `none`: the `default` of the `switch`. -/
def rotIndex (w h j i : Int) (angle : Int) : Option Int :=
  if angle = 90 then some (i * h + (w - 1 - j))
  else if angle = 180 then some ((h - 1 - j) * w + (w - 1 - i))
  else if angle = 270 then some ((w - 1 - i) * h + j)
  else none

/-- The iteration `(k, j, i)` of the rotation: `n` is the number of pixels of the output. -/
def rotStep (n : Nat) (angle : Int) (im : Img α) (f : Nat → α) (c : Nat × Nat × Nat) : Option (Nat → α) :=
  match rotIndex im.dims.w im.dims.h c.2.1 c.2.2 angle with
  | some p => putAt n f ((c.1 * im.dims.w * im.dims.h : Nat) + p) (im.px c.2.2 c.2.1 c.1)
  | none => some f

/-- `RotateX90`, DImageTransform.hpp:582-663, called by `rotateX90` (684-694) through `Rotate` (574-579).
`count` is an `int`, `%` truncates. In place (`&imIn == &imOut`) the input is cloned first (688-691). For the
angle 0, `copy(imIn, imOut)` (242-249) resizes the output and copies the pixels. -/
def rotateX90 (E : Env α) (im : Img α) (count : Int) (out : Img α) : Option (Except Int (Img α)) :=
  if im.alloc = false ∨ out.alloc = false then some (.error errBadAllocation)
  else
    let angle := (count.tmod 4).tmod 4 * 90
    let D := im.dims
    if angle = 0 then some (.ok ⟨D, copyLine D.count im.buf (setSize E.raw D out).buf⟩)
    else
      let o := setSize E.raw (if angle = 90 ∨ angle = 270 then ⟨D.h, D.w, D.d⟩ else D) out
      ((loop3 D.d D.h D.w).foldlM (rotStep o.dims.count angle im) o.buf).map fun f => .ok ⟨o.dims, f⟩

/-- `rotateX90(im, count)`, DImageTransform.hpp:704-707. -/
def rotateX90In (E : Env α) (im : Img α) (count : Int) : Option (Except Int (Img α)) :=
  rotateX90 E im count im

/-! ### Translation -/

/-- Writes the line `r` of `w` pixels of a buffer. -/
def setLine (w : Nat) (f : Nat → α) (r : Nat) (l : Line α) : Nat → α := fun i =>
  if r * w ≤ i ∧ i < r * w + w then l (i - r * w) else f i

/-- The body of the loops of `translate`, lines 743-750. `src` is the buffer read: that of the input or, in
place, the current one. `int z = k - dz` is the `size_t` difference converted to `int`. In place, a shift of a
line onto itself violates the `restrict` qualification of `tmpL` (DLineArith.hpp:106, 110): `none`. -/
def transLine (D : Dims) (dx dy dz : Int) (b : α) (inPl : Bool) (src : (Nat → α) → Nat → α) (f : Nat → α)
    (kj : Nat × Nat) : Option (Nat → α) :=
  let z := (INT32.wrap ((kj.1 : Int) - dz)).val
  let y := (INT32.wrap ((kj.2 : Int) - dy)).val
  let r := kj.1 * D.h + kj.2
  if z < 0 ∨ z ≥ D.d ∨ y < 0 ∨ y ≥ D.h then
    some (setLine D.w f r (copyLine D.w (fun _ => b) fun i => f (r * D.w + i)))
  else if inPl ∧ z = kj.1 ∧ y = kj.2 ∧ dx ≠ 0 then none
  else
    (shiftLine (fun i => src f (rasterIndex D.w D.h i y.toNat z.toNat)) dx D.w
      (fun i => f (r * D.w + i)) b).map (setLine D.w f r)

/-- The iterations `(k, j)` of two nested loops, in order. -/
def loop2 (d h : Nat) : List (Nat × Nat) :=
  (List.range d).flatMap fun k => (List.range h).map fun j => (k, j)

/-- `translate(imIn, dx, dy, dz, imOut, borderValue)`, DImageTransform.hpp:725-759; the overload without `dz`
(786-791) has `dz = 0`. Only the input is checked for allocation; `ASSERT_SAME_SIZE` resizes the output or refuses
it. `dx`, `dy`, `dz` are `int`s. -/
def translate (E : Env α) (inPl : Bool) (im : Img α) (dx dy dz : Int) (out : Img α) (b : α) :
    Option (Except Int (Img α)) :=
  if im.alloc = false then some (.error errBadAllocation)
  else if out.dims ≠ im.dims ∧ E.auto = false then some (.error errBadSize)
  else
    let o := setSize E.raw im.dims out
    ((loop2 im.dims.d im.dims.h).foldlM
      (transLine im.dims dx dy dz b inPl fun cur => if inPl then cur else im.buf) o.buf).map
      fun f => .ok ⟨im.dims, f⟩

/-! ### Windows -/

/-- The iteration `(z, y, x)` of `copy`, lines 110-128. -/
def copyStep (conv : α → β) (im : Img α) (s : Dims) (Dout t : Dims) (f : Nat → β) (c : Nat × Nat × Nat) :
    Option (Nat → β) :=
  putAt Dout.count f (rasterIndex Dout.w Dout.h (t.w + c.2.2) (t.h + c.2.1) (t.d + c.1))
    (conv (im.px (s.w + c.2.2) (s.h + c.2.1) (s.d + c.1)))

/-- `copy(imIn, startX, …, sizeZ, imOut, outStartX, …)` between distinct images, DImageTransform.hpp:83-132.
`conv` is the conversion of the pixels. A point `s` gives the start in the input, `n` the size, `t` the start
in the output. The result is the returned code and the output. -/
def copyWin (conv : α → β) (im : Img α) (s n : Dims) (out : Img β) (t : Dims) :
    Option (Int × Img β) :=
  if im.dims.count = 0 ∨ out.dims.count = 0 then some (errBadAllocation, out)
  else if ¬ (s.w < im.dims.w ∧ s.h < im.dims.h ∧ s.d < im.dims.d) then some (errRes, out)
  else if ¬ (t.w < out.dims.w ∧ t.h < out.dims.h ∧ t.d < out.dims.d) then some (errRes, out)
  else
    let rx := min (min n.w (im.dims.w - s.w)) (out.dims.w - t.w)
    let ry := min (min n.h (im.dims.h - s.h)) (out.dims.h - t.h)
    let rz := min (min n.d (im.dims.d - s.d)) (out.dims.d - t.d)
    ((loop3 rz ry rx).foldlM (copyStep conv im s out.dims t) out.buf).map fun f => (1, ⟨out.dims, f⟩)

/-- `copy(imIn, imOut)` for images of different types, DImageTransform.hpp:213-230. -/
def copyCast (conv : α → β) (im : Img α) (out : Img β) : Option (Int × Img β) :=
  if im.dims.count = 0 ∨ out.dims.count = 0 then some (errBadAllocation, out)
  else if out.dims ≠ im.dims then copyWin conv im ⟨0, 0, 0⟩ im.dims out ⟨0, 0, 0⟩
  else some (1, ⟨out.dims, fun i => if i < im.dims.count then conv (im.buf i) else out.buf i⟩)

/-- `copy(imIn, imOut)` for images of the same type, DImageTransform.hpp:241-249. -/
def copySame (raw : Nat → α) (im out : Img α) : Option (Int × Img α) :=
  if im.dims.count = 0 ∨ out.dims.count = 0 then some (errBadAllocation, out)
  else some (1, ⟨im.dims, copyLine im.dims.count im.buf (setSize raw im.dims out).buf⟩)

/-- `crop`, DImageTransform.hpp:297-314; `size_t` differences wrap. The sizes are `size_t`s. In place
(327-333) the input is cloned first. -/
def crop (raw : Nat → α) (im : Img α) (s n : Dims) (out : Img α) : Option (Int × Img α) :=
  if im.dims.count = 0 then some (errBadAllocation, out)
  else
    let sub := fun a b : Nat => (a + (2 ^ 64 - b)) % 2 ^ 64
    let r : Dims := ⟨min n.w (sub im.dims.w s.w), min n.h (sub im.dims.h s.h), min n.d (sub im.dims.d s.d)⟩
    copyWin id im s r (setSize raw r out) ⟨0, 0, 0⟩

/-- `addBorder`, DImageTransform.hpp:394-422; the result of `copy` is ignored. In place the input is cloned
first (400-403). The sum `s + 2 * bSize` is taken without wrapping. -/
def addBorder (raw : Nat → α) (im : Img α) (b : Nat) (out : Img α) (v : α) : Option (Int × Img α) :=
  if im.dims.count = 0 then some (errBadAllocation, out)
  else
    let D := im.dims
    if D.d > 1 then
      let o := setSize raw ⟨D.w + 2 * b, D.h + 2 * b, D.d + 2 * b⟩ out
      (copyWin id im ⟨0, 0, 0⟩ D ⟨o.dims, fillLine o.dims.count v o.buf⟩ ⟨b, b, b⟩).map fun r => (1, r.2)
    else
      let o := setSize raw ⟨D.w + 2 * b, D.h + 2 * b, 1⟩ out
      (copyWin id im ⟨0, 0, 0⟩ ⟨D.w, D.h, 1⟩ ⟨o.dims, fillLine o.dims.count v o.buf⟩ ⟨b, b, 0⟩).map
        fun r => (1, r.2)

end Smil
