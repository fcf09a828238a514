import Mathlib.Logic.Function.Basic
import Mathlib.Data.List.Basic
import Mathlib.Data.List.Nodup
import Mathlib.Data.List.Perm.Basic

/-!
# Buffer pool and image freezer

Core/include/private/DBufferPool.hpp:43-155 and `ImageFreezer`, Core/include/DBaseImage.h:330-350.
-/

namespace Smil

/-- `BufferPool<T>` with the heap: `live b` says that buffer `b` has been created and not
deleted; `out` are the buffers handed to users and not yet released (ghost). -/
structure Pool where
  available : List Nat
  buffers : List Nat
  maxBuffers : Option Nat
  live : Nat → Bool
  next : Nat
  out : List Nat

/-- Outcome of a call. `ub`: double delete; `hang`: `while (availableBuffers.empty());`;
`misuse`: the user releases a buffer they do not hold. -/
inductive PoolRes where
  | ok (p : Pool)
  | ub
  | hang
  | misuse

namespace Pool

/-- Constructor, DBufferPool.hpp:47-51, followed by `setMaxNumberOfBuffers`, l.82-85
(`none`: the default `numeric_limits<size_t>::max()`). -/
def init (maxN : Option Nat) : Pool := ⟨[], [], maxN, fun _ => false, 0, []⟩

/-- `createBuffer`, DBufferPool.hpp:139-149. -/
def createBuffer (p : Pool) : Option Pool :=
  if p.maxBuffers.elim false (fun m => decide (p.buffers.length ≥ m)) then none
  else some { p with buffers := p.buffers ++ [p.next], available := p.next :: p.available,
                     live := Function.update p.live p.next true, next := p.next + 1 }

/-- `buf = availableBuffers.top(); availableBuffers.pop();`, l.104-105. -/
def takeTop (p : Pool) : PoolRes :=
  match p.available with
  | [] => .ub
  | b :: bs => .ok { p with available := bs, out := b :: p.out }

/-- `getBuffer`, l.90-109. -/
def getBuffer (p : Pool) : PoolRes :=
  if p.available = [] then
    match p.createBuffer with
    | none => .hang
    | some p' => p'.takeTop
  else p.takeTop

/-- `releaseBuffer`, l.120-124 (one thread at a time). -/
def releaseBuffer (p : Pool) (b : Nat) : PoolRes :=
  if b ∈ p.out then .ok { p with available := b :: p.available, out := p.out.erase b }
  else .misuse

/-- Delete a list of buffers one by one. -/
def deleteAll (p : Pool) : List Nat → Option Pool
  | [] => some p
  | b :: bs => if p.live b then
      deleteAll { p with live := Function.update p.live b false } bs else none

/-- `clear`, l.69-81: the available buffers are deleted but stay in `buffers`. -/
def clear (p : Pool) : PoolRes :=
  match p.deleteAll p.available with
  | none => .ub
  | some p' => .ok { p' with available := [] }

/-- `initialize`, l.62-68. -/
def initPool (p : Pool) : PoolRes :=
  if p.buffers.length ≠ 0 then p.clear else .ok p

/-- Destructor, l.52-58. -/
def destroy (p : Pool) : PoolRes :=
  match p.deleteAll p.buffers with
  | none => .ub
  | some p' => .ok p'

/-- `releaseAllBuffers`, l.131-137: every buffer becomes available, held or not. -/
def releaseAllBuffers (p : Pool) : Pool := { p with available := p.buffers.reverse }

/-- Calls used in the histories. -/
inductive Call where
  | get
  | release (b : Nat)

/-- One call. -/
def call (p : Pool) : Call → PoolRes
  | .get => p.getBuffer
  | .release b => p.releaseBuffer b

/-- A history of calls, stopping at the first that is not `ok`. -/
def run (p : Pool) : List Call → PoolRes
  | [] => .ok p
  | c :: cs => match p.call c with
      | .ok p' => p'.run cs
      | r => r

end Pool

/-! ## Freezer -/

/-- Update state of the images: `updatesEnabled` flag and number of `onModified` events. -/
structure UpdSt where
  enabled : Nat → Bool
  events : Nat → Nat

/-- Program fragments acting on images; `freeze i u p` is a block which starts with
`ImageFreezer f(im_i, u);` and in which `p` runs. -/
inductive UProg where
  | skip
  | modified (i : Nat)
  | seq (p q : UProg)
  | freeze (i : Nat) (u : Bool) (p : UProg)

/-- `Image<T>::modified()`, DImage.hxx:204-211. -/
def UpdSt.modified (s : UpdSt) (i : Nat) : UpdSt :=
  if !s.enabled i then s else { s with events := Function.update s.events i (s.events i + 1) }

/-- Run a fragment.  Constructor and destructor of `ImageFreezer`: DBaseImage.h:333-344. -/
def UProg.exec : UProg → UpdSt → UpdSt
  | .skip, s => s
  | .modified i, s => s.modified i
  | .seq p q, s => q.exec (p.exec s)
  | .freeze i u p, s =>
      let imState := s.enabled i
      let s1 := { s with enabled := Function.update s.enabled i false }
      let s2 := p.exec s1
      let s3 := { s2 with enabled := Function.update s2.enabled i imState }
      if u then s3.modified i else s3

end Smil
