import Mathlib.Logic.Function.Basic
import Mathlib.Data.List.Basic
import Mathlib.Data.List.Nodup

/-!
# Signals and slots

Core/include/DSignal.h:55-124, Core/include/DSlot.h:44-64, Core/src/DSlot.cpp:34-67.
Signals and slots are named by numbers; a destroyed object is `none`.  Calling a method of a
destroyed object is undefined behaviour (`none` result).
-/

namespace Smil

/-- `_slots` of each live signal and `_signals` of each live slot. -/
structure SigState where
  sigs : Nat → Option (List Nat)
  slots : Nat → Option (List Nat)

namespace SigState

/-- `BaseSlot::registerSignal`, DSlot.cpp:37-41. -/
def registerSignal (c : SigState) (p s : Nat) : Option SigState := do
  let l ← c.slots p
  if s ∈ l then pure c else pure { c with slots := Function.update c.slots p (some (l ++ [s])) }

/-- `BaseSlot::unregisterSignal(signal, false)`, DSlot.cpp:43-54. -/
def unregisterSignal (c : SigState) (p s : Nat) : Option SigState := do
  let l ← c.slots p
  pure { c with slots := Function.update c.slots p (some (l.erase s)) }

/-- `Signal::connect`, DSignal.h:67-77. -/
def connect (c : SigState) (s p : Nat) : Option SigState := do
  let l ← c.sigs s
  if p ∈ l then pure c
  else registerSignal ⟨Function.update c.sigs s (some (l ++ [p])), c.slots⟩ p s

/-- `Signal::disconnect(slot, unregister)`, DSignal.h:79-90. -/
def disconnect (c : SigState) (s p : Nat) (unreg : Bool) : Option SigState := do
  let l ← c.sigs s
  if p ∈ l then
    let c' := { c with sigs := Function.update c.sigs s (some (l.erase p)) }
    if unreg then c'.unregisterSignal p s else pure c'
  else pure c

/-- `Signal::disconnectAll`, DSignal.h:92-101: the list `_slots` is not cleared. -/
def disconnectAll (c : SigState) (s : Nat) : Option SigState := do
  let l ← c.sigs s
  l.foldlM (fun c p => c.unregisterSignal p s) c

/-- `BaseSlot::unregisterAll`, DSlot.cpp:56-66. -/
def unregisterAll (c : SigState) (p : Nat) : Option SigState := do
  let l ← c.slots p
  let c' ← l.foldlM (fun c s => c.disconnect s p false) c
  pure { c' with slots := Function.update c'.slots p (some []) }

/-- `Signal::trigger`, DSignal.h:103-118 (enabled): the slots run, in order; running a destroyed
slot is undefined. -/
def trigger (c : SigState) (s : Nat) : Option (List Nat) := do
  let l ← c.sigs s
  if l.all fun p => (c.slots p).isSome then pure l else none

/-- What a program may do. `destroySignal`/`destroySlot` are the destructors, DSignal.h:62-65 and
DSlot.h:49-52. -/
inductive Op where
  | newSignal (s : Nat)
  | newSlot (p : Nat)
  | connect (s p : Nat)
  | disconnect (s p : Nat)
  | disconnectAll (s : Nat)
  | destroySignal (s : Nat)
  | destroySlot (p : Nat)

/-- One operation. -/
def step (c : SigState) : Op → Option SigState
  | .newSignal s =>
      match c.sigs s with
      | some _ => none
      | none => some { c with sigs := Function.update c.sigs s (some []) }
  | .newSlot p =>
      match c.slots p with
      | some _ => none
      | none => some { c with slots := Function.update c.slots p (some []) }
  | .connect s p => c.connect s p
  | .disconnect s p => c.disconnect s p true
  | .disconnectAll s => c.disconnectAll s
  | .destroySignal s => do
      let c' ← c.disconnectAll s
      pure { c' with sigs := Function.update c'.sigs s none }
  | .destroySlot p => do
      let c' ← c.unregisterAll p
      pure { c' with slots := Function.update c'.slots p none }

/-- A history. -/
def run (c : SigState) : List Op → Option SigState
  | [] => some c
  | m :: ms => (c.step m).bind fun c' => c'.run ms

/-- No objects. -/
def init : SigState := ⟨fun _ => none, fun _ => none⟩

end SigState
end Smil
