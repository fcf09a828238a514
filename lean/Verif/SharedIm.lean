import Verif.ImageMem

/-!
# Images that use the data of others

Core/include/private/DSharedImage.hpp, `SharedImage<T>`, on the heap of `ImageMem`. A pointer to pixels is a block and an offset in
it. The blocks of `ext` belong to someone else (another image, NumPy, ...). Viewers and events are left out, allocation always
succeeds.
-/

namespace Smil

/-- The data members of `SharedImage<T>`: those of `Image<T>` and `attached`. -/
structure View where
  w : Nat := 0
  h : Nat := 0
  d : Nat := 0
  sliceCount : Nat := 0
  lineCount : Nat := 0
  pixelCount : Nat := 0
  pixels : Option (Nat × Nat) := none
  lines : Option Nat := none
  slices : Option Nat := none
  /-- `lines[i] - pixels` -/
  lineTab : List Nat := []
  /-- `slices[k] - lines` -/
  sliceTab : List Nat := []
  attached : Bool := false
  allocated : Bool := false
deriving DecidableEq

namespace View
variable {α : Type}

/-- The loops of `restruct`, DImage.hxx:349-354. -/
def mkLineTab (v : View) : List Nat := (List.range v.d).flatMap fun k => (List.range v.h).map fun j => k * (v.w * v.h) + j * v.w

/-- DImage.hxx:349-350. -/
def mkSliceTab (v : View) : List Nat := (List.range v.d).map fun k => k * v.h

/-- `if (slices) delete[] slices; if (lines) delete[] lines;`, DImage.hxx:336-339 and 364-367, DSharedImage.hpp:148-151. -/
def freeTabs (H : Heap α) (v : View) : Option (Heap α) := (H.freePtr v.slices).bind fun H => H.freePtr v.lines

/-- `restruct`, DImage.hxx:334-357. -/
def restruct (H : Heap α) (v : View) : Option (Heap α × View) :=
  (v.freeTabs H).map fun H =>
    let a := H.alloc v.lineCount
    let b := a.2.alloc v.sliceCount
    (b.2, { v with lines := some a.1, slices := some b.1, lineTab := v.mkLineTab, sliceTab := v.mkSliceTab })

/-- `detach`, DSharedImage.hpp:143-167: the counts stay. -/
def detach (H : Heap α) (v : View) : Option (Heap α × View) :=
  if !v.attached then some (H, v)
  else (v.freeTabs H).map fun H =>
    (H, { v with slices := none, lines := none, pixels := none, lineTab := [], sliceTab := [], w := 0, h := 0, d := 0,
                 attached := false, allocated := false })

/-- `setSize`, DSharedImage.hpp:179-195. -/
def setSize (w h d : Nat) (v : View) : View :=
  { v with w := w, h := h, d := d, sliceCount := d, lineCount := d * h, pixelCount := d * h * w }

/-- `if (attached) detach();`, DSharedImage.hpp:119-120. -/
def detachIf (H : Heap α) (v : View) : Option (Heap α × View) := if v.attached then v.detach H else some (H, v)

/-- `attach`, DSharedImage.hpp:103-131. The `Bool` is `RES_OK`. -/
def attach (p : Option (Nat × Nat)) (w h d : Nat) (H : Heap α) (v : View) : Option (Bool × Heap α × View) :=
  match p with
  | none => some (false, H, v)
  | some q =>
    if v.pixels = some q ∧ w = v.w ∧ h = v.h ∧ d = v.d then some (true, H, v)
    else (v.detachIf H).bind fun r =>
      (restruct r.1 (setSize w h d { r.2 with pixels := some q })).map fun r => (true, r.1, { r.2 with attached := true, allocated := true })

/-- `operator=`, DSharedImage.hpp:95-101, with `clone(const SharedImage&)`, lines 170-173. -/
def assign (src : View) (H : Heap α) (v : View) : Option (Bool × Heap α × View) :=
  attach src.pixels src.w src.h src.d H { v with attached := false }

/-- `deleteAlignedBuffer(pixels)`: only the start of a block can be deleted. -/
def freePixels (H : Heap α) : Option (Nat × Nat) → Option (Heap α)
  | none => some H
  | some (b, off) => if off = 0 then H.free b else none

/-- `~SharedImage`, DSharedImage.hpp:90-93, then `~Image`, DImage.hxx:172-179, which calls `Image<T>::deallocate`, lines 359-379. -/
def destroy (H : Heap α) (v : View) : Option (Heap α) :=
  (v.detach H).bind fun r =>
    if !r.2.allocated then some r.1
    else (r.2.freeTabs r.1).bind fun H => freePixels H r.2.pixels

/-- `copyLine` of `n` pixels of the block `b` to the pointer `p`. -/
def copyTo (H : Heap α) (b n : Nat) (p : Option (Nat × Nat)) : Option (Heap α) :=
  match p with
  | none => none
  | some (c, off) =>
    match H.mem b, H.mem c with
    | some src, some dst =>
      if n ≤ src.length ∧ off + n ≤ dst.length then
        some ⟨fun x => if x = c then some (dst.take off ++ src.take n ++ dst.drop (off + n)) else H.mem x, H.next⟩
      else none
    | _, _ => none

/-- `Image<T>::clone(const Image<T>&)`, DImage.hxx:145-152, of an allocated image of `w` × `h` × `d` pixels at the block `b`: `setSize`
is that of `SharedImage`. -/
def cloneImage (b w h d : Nat) (H : Heap α) (v : View) : Option (Heap α × View) :=
  (copyTo H b (d * h * w) v.pixels).map fun H => (H, v.setSize w h d)

/-- `getLines()[z * h + y][x]`, the way in which all operations read: `none` for a pointer that is null or dead, or outside of the
block. -/
def readLine (H : Heap α) (v : View) (x y z : Nat) : Option (Option α) :=
  (v.pixels).bind fun p => (v.lineTab[z * v.h + y]?).bind fun o => (H.mem p.1).bind fun c => c[p.2 + o + x]?

end View

/-- `getSlice`, DImage.hxx:511-519, on an image at the start of a block: the arguments of the constructor of the view, `some none`
for the view without data, `none` for a null pointer. -/
def Obj.getSlice (o : Obj) (k : Nat) : Option (Option ((Nat × Nat) × Nat × Nat × Nat)) :=
  if k ≥ o.d then some none
  else (o.pixels).bind fun p => (o.sliceTab[k]?).bind fun l => (o.lineTab[l]?).map fun off => some ((p, off), o.w, o.h, 1)

/-- Views, and the blocks of others. -/
structure VSys (α : Type) where
  heap : Heap α
  views : Nat → Option View
  ext : List Nat

def VSys.init (α : Type) : VSys α := ⟨⟨fun _ => none, 0⟩, fun _ => none, []⟩

def VSys.put {α : Type} (s : VSys α) (i : Nat) (H : Heap α) (v : Option View) : VSys α :=
  { s with heap := H, views := fun j => if j = i then v else s.views j }

/-- Operations: `extNew` and `extFree` are those of the owners of the data, `setSize` and `cloneImage` those that reach the view through
a reference to `Image<T>`. -/
inductive VOp where
  | extNew (n : Nat)
  | extFree (b : Nat)
  | create (i : Nat)
  | createOn (i : Nat) (p : Option (Nat × Nat)) (w h d : Nat)
  | copy (i j : Nat)
  | destroy (i : Nat)
  | attach (i : Nat) (p : Option (Nat × Nat)) (w h d : Nat)
  | attachSame (i : Nat) (p : Option (Nat × Nat))
  | detach (i : Nat)
  | clone (i j : Nat)
  | assign (i j : Nat)
  | allocate (i : Nat)
  | deallocate (i : Nat)
  | setSize (i w h d : Nat)
  | cloneImage (i b w h d : Nat)

/-- One operation, DSharedImage.hpp:54-202. `none` is undefined behaviour, or use of an object that does not exist. -/
def VSys.step {α : Type} (s : VSys α) : VOp → Option (VSys α)
  | .extNew n => some { s with heap := (s.heap.alloc n).2, ext := (s.heap.alloc n).1 :: s.ext }
  | .extFree b => if b ∈ s.ext then (s.heap.free b).map fun H => { s with heap := H, ext := s.ext.filter (· ≠ b) } else none
  | .create i => match s.views i with
    | some _ => none
    | none => some (s.put i s.heap (some {}))
  | .createOn i p w h d => match s.views i with
    | some _ => none
    | none => (View.attach p w h d s.heap {}).map fun r => s.put i r.2.1 (some r.2.2)
  | .copy i j => match s.views i, s.views j with
    | none, some u => (View.attach u.pixels u.w u.h u.d s.heap {}).map fun r => s.put i r.2.1 (some r.2.2)
    | _, _ => none
  | .destroy i => (s.views i).bind fun v => (v.destroy s.heap).map fun H => s.put i H none
  | .attach i p w h d => (s.views i).bind fun v => (v.attach p w h d s.heap).map fun r => s.put i r.2.1 (some r.2.2)
  | .attachSame i p => (s.views i).bind fun v => (v.attach p v.w v.h v.d s.heap).map fun r => s.put i r.2.1 (some r.2.2)
  | .detach i => (s.views i).bind fun v => (v.detach s.heap).map fun r => s.put i r.1 (some r.2)
  | .clone i j => (s.views i).bind fun v => (s.views j).bind fun u => (v.attach u.pixels u.w u.h u.d s.heap).map fun r => s.put i r.2.1 (some r.2.2)
  | .assign i j => (s.views i).bind fun v => (s.views j).bind fun u => (View.assign u s.heap v).map fun r => s.put i r.2.1 (some r.2.2)
  | .allocate i => (s.views i).map fun _ => s
  | .deallocate i => (s.views i).map fun _ => s
  | .setSize i w h d => (s.views i).map fun v => s.put i s.heap (some (v.setSize w h d))
  | .cloneImage i b w h d => (s.views i).bind fun v => (v.cloneImage b w h d s.heap).map fun r => s.put i r.1 (some r.2)

def VSys.run {α : Type} (s : VSys α) : List VOp → Option (VSys α)
  | [] => some s
  | m :: ms => (s.step m).bind fun s' => s'.run ms

end Smil
