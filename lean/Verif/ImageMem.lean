import Verif.Coords
import Mathlib.Data.List.Basic
import Mathlib.Data.List.Nodup

/-!
# Image memory

`Image<T>` (Core/include/private/DImage.hxx) and the registry of `Core`
(Core/src/DCoreInstance.cpp).  A heap block is identified by a number; deleting a block that is
not live is undefined behaviour, so is copying into a null pointer; both give `none`.
Simplifications: memory allocation always succeeds; viewers and events are left out; the
contents of pixel buffers are kept (`none` = uninitialised), those of the pointer tables are kept
in the object (`lines`/`slices` tables as lists of offsets).
-/

namespace Smil

/-- A heap: content of each live block, and the next fresh block number. -/
structure Heap (α : Type) where
  mem : Nat → Option (List (Option α))
  next : Nat

/-- `new T[n]` / `createAlignedBuffer<T>(n)` (Core/include/private/DMemory.hpp:117-125). -/
def Heap.alloc {α : Type} (H : Heap α) (n : Nat) : Nat × Heap α :=
  (H.next, ⟨fun b => if b = H.next then some (List.replicate n none) else H.mem b, H.next + 1⟩)

/-- `delete[] p` / `deleteAlignedBuffer(p)` of a non null pointer; `none` on double delete. -/
def Heap.free {α : Type} (H : Heap α) (b : Nat) : Option (Heap α) :=
  match H.mem b with
  | none => none
  | some _ => some ⟨fun c => if c = b then none else H.mem c, H.next⟩

/-- `if (p) delete[] p` (DImage.hxx:336-339, 364-369). -/
def Heap.freePtr {α : Type} (H : Heap α) : Option Nat → Option (Heap α)
  | none => some H
  | some b => H.free b

/-- The data members of `Image<T>` (DBaseImage.h:317-327, DImage.hpp). -/
structure Obj where
  w : Nat := 0
  h : Nat := 0
  d : Nat := 0
  sliceCount : Nat := 0
  lineCount : Nat := 0
  pixelCount : Nat := 0
  pixels : Option Nat := none
  lines : Option Nat := none
  slices : Option Nat := none
  /-- `lines[i] - pixels` -/
  lineTab : List Nat := []
  /-- `slices[k] - lines` -/
  sliceTab : List Nat := []
  allocated : Bool := false
  allocatedSize : Nat := 0
deriving DecidableEq

namespace Obj

variable {α : Type}

/-- Line table filled by `restruct`, DImage.hxx:349-354. -/
def mkLineTab (o : Obj) : List Nat :=
  (List.range o.d).flatMap fun k => (List.range o.h).map fun j => k * (o.w * o.h) + j * o.w

/-- Slice table filled by `restruct`, DImage.hxx:349-350. -/
def mkSliceTab (o : Obj) : List Nat := (List.range o.d).map fun k => k * o.h

/-- `restruct`, DImage.hxx:334-357. -/
def restruct (H : Heap α) (o : Obj) : Option (Heap α × Obj) := do
  let H ← H.freePtr o.slices
  let H ← H.freePtr o.lines
  let (l, H) := H.alloc o.lineCount
  let (s, H) := H.alloc o.sliceCount
  pure (H, { o with lines := some l, slices := some s,
                    lineTab := o.mkLineTab, sliceTab := o.mkSliceTab })

/-- `allocate`, DImage.hxx:315-332 (`sz` is `sizeof(T)`). The `Bool` is `RES_OK`. -/
def allocate (sz : Nat) (H : Heap α) (o : Obj) : Option (Bool × Heap α × Obj) :=
  if o.allocated then some (false, H, o)
  else do
    let (p, H) := H.alloc o.pixelCount
    let o := { o with pixels := some p, allocated := true, allocatedSize := o.pixelCount * sz }
    let (H, o) ← restruct H o
    pure (true, H, o)

/-- `deallocate`, DImage.hxx:359-379. -/
def deallocate (H : Heap α) (o : Obj) : Option (Heap α × Obj) :=
  if !o.allocated then some (H, o)
  else do
    let H ← H.freePtr o.slices
    let H ← H.freePtr o.lines
    let H ← H.freePtr o.pixels
    pure (H, { o with slices := none, lines := none, pixels := none, lineTab := [], sliceTab := [],
                      allocated := false, allocatedSize := 0 })

/-- `if (allocated) deallocate();` (DImage.hxx:118-119, 293-294). -/
def deallocateIf (H : Heap α) (o : Obj) : Option (Heap α × Obj) :=
  if o.allocated then o.deallocate H else some (H, o)

/-- `setSize`, DImage.hxx:287-313. -/
def setSize (sz : Nat) (w h d : Nat) (doAllocate : Bool) (H : Heap α) (o : Obj) :
    Option (Bool × Heap α × Obj) :=
  if w = o.w ∧ h = o.h ∧ d = o.d then some (true, H, o)
  else do
    let (H, o) ← o.deallocateIf H
    let o := { o with w := w, h := h, d := d, sliceCount := d, lineCount := d * h,
                      pixelCount := d * h * w }
    if doAllocate then
      o.allocate sz H
    else pure (true, H, o)

/-- `clone`, DImage.hxx:145-152: `setSize`, then `copyLine` into `this->pixels`.  Copying from or
to a null or dead pointer is undefined behaviour.  `src` is the other image. -/
def clone (o : Obj) (sz : Nat) (src : Obj) (H : Heap α) : Option (Heap α × Obj) := do
  let (_, H, o) ← o.setSize sz src.w src.h src.d src.allocated H
  if src.allocated then
    match o.pixels, src.pixels with
    | some p, some q =>
        match H.mem p, H.mem q with
        | some _, some c =>
            pure (⟨fun b => if b = p then some c else H.mem b, H.next⟩, o)
        | _, _ => none
    | _, _ => none
  else pure (H, o)

end Obj

/-- The state of a program using the library: the heap, the live image objects, the registry
of images (`Core::registeredImages`). -/
structure Sys (α : Type) where
  heap : Heap α
  objs : Nat → Option Obj
  reg : List Nat

/-- Initial state. -/
def Sys.init (α : Type) : Sys α := ⟨⟨fun _ => none, 0⟩, fun _ => none, []⟩

/-- User level operations on images; objects are named by numbers. -/
inductive MOp where
  | create (i : Nat)
  | destroy (i : Nat)
  | setSize (i w h d : Nat) (alloc : Bool)
  | allocate (i : Nat)
  | deallocate (i : Nat)
  | clone (i j : Nat)

/-- Replace one object. -/
def Sys.put {α : Type} (s : Sys α) (i : Nat) (H : Heap α) (o : Option Obj) : Sys α :=
  { s with heap := H, objs := fun j => if j = i then o else s.objs j }

/-- One operation.  `none` is undefined behaviour, or use of an object that does not exist.
`create`: DImage.hxx:54-57 and `Core::registerObject` (DCoreInstance.cpp:81-96); `destroy`:
DImage.hxx:172-179 and `Core::unregisterObject` (DCoreInstance.cpp:99-119). -/
def Sys.step {α : Type} (sz : Nat) (s : Sys α) : MOp → Option (Sys α)
  | .create i =>
      match s.objs i with
      | some _ => none
      | none => some { s.put i s.heap (some {}) with reg := s.reg ++ [i] }
  | .destroy i => do
      let o ← s.objs i
      let (H, _) ← o.deallocate s.heap
      pure { s.put i H none with reg := s.reg.filter (· ≠ i) }
  | .setSize i w h d a => do
      let o ← s.objs i
      let (_, H, o) ← o.setSize sz w h d a s.heap
      pure (s.put i H (some o))
  | .allocate i => do
      let o ← s.objs i
      let (_, H, o) ← o.allocate sz s.heap
      pure (s.put i H (some o))
  | .deallocate i => do
      let o ← s.objs i
      let (H, o) ← o.deallocate s.heap
      pure (s.put i H (some o))
  | .clone i j => do
      let o ← s.objs i
      let src ← s.objs j
      let (H, o) ← o.clone sz src s.heap
      pure (s.put i H (some o))

/-- A history of operations. -/
def Sys.run {α : Type} (sz : Nat) (s : Sys α) : List MOp → Option (Sys α)
  | [] => some s
  | m :: ms => (s.step sz m).bind fun s' => s'.run sz ms

/-- `Core::getAllocatedMemory`, DCoreInstance.cpp:155-163. -/
def Sys.getAllocatedMemory {α : Type} (s : Sys α) : Nat :=
  (s.reg.map fun i => match s.objs i with | some o => o.allocatedSize | none => 0).sum

/-- `drain(im, false)`, DImage.hxx:116-143 on two different images. -/
def Obj.drain {α : Type} (o : Obj) (src : Obj) (H : Heap α) : Option (Heap α × Obj × Obj) := do
  let (H, _) ← o.deallocateIf H
  pure (H, src, { src with allocated := false })

end Smil
