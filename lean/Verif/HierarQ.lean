import Verif.Pix
import Mathlib.Logic.Function.Basic
import Mathlib.Data.List.Basic

/-!
# Hierarchical queues

Morpho/include/private/DMorphoHierarQ.hpp.
-/

namespace Smil
variable {τ : Type}

/-! ### `FIFO_Queue` -/

/-- `FIFO_Queue<T>`, DMorphoHierarQ.hpp:53-114 (after `initialize`). -/
structure Fifo (τ : Type) where
  data : Nat → τ
  size : Nat
  realSize : Nat
  first : Nat
  last : Nat

namespace Fifo

/-- `initialize`, DMorphoHierarQ.hpp:75-83; `raw` is the uninitialised buffer. -/
def init (raw : Nat → τ) (newSize : Nat) : Fifo τ := ⟨raw, 0, max (newSize + 1) 8, 0, 0⟩

/-- `swap`, DMorphoHierarQ.hpp:88-93 (`memmove` of `last - first` elements). -/
def swap (q : Fifo τ) : Fifo τ :=
  { q with data := fun i => if i < q.last - q.first then q.data (i + q.first) else q.data i,
           first := 0, last := q.size }

/-- `push`, DMorphoHierarQ.hpp:94-100; `none` is the write behind the end of the buffer. -/
def push (q : Fifo τ) (v : τ) : Option (Fifo τ) :=
  let q := if q.last = q.realSize then q.swap else q
  if q.last < q.realSize then
    some { q with data := Function.update q.data q.last v, last := q.last + 1, size := q.size + 1 }
  else none

/-- `front`, DMorphoHierarQ.hpp:101-104; `none` is the read of a cell that holds no element. -/
def front (q : Fifo τ) : Option τ := if q.size = 0 then none else some (q.data q.first)

/-- `pop`, DMorphoHierarQ.hpp:105-109; `none` is the underflow of `_size`. -/
def pop (q : Fifo τ) : Option (Fifo τ) :=
  if q.size = 0 then none else some { q with size := q.size - 1, first := q.first + 1 }

end Fifo

/-! ### `HierarchicalQueue` -/

/-- Constants of a queue: `GRAY_LEVEL_NBR`, `size_t(ImDtTypes<T>::max())` and `reverseOrder`,
DMorphoHierarQ.hpp:140-150, 184-186. -/
structure HQParam where
  nbr : Nat
  gmax : Nat
  rev : Bool

/-- The constants for a pixel type. -/
def hqParam (t : PT) (rev : Bool) : HQParam := ⟨t.card.toNat, t.hi.toNat, rev⟩

/-- `size_t(value) - GRAY_LEVEL_MIN`, DMorphoHierarQ.hpp:235: modular, hence the exact difference
with the minimum of the type. -/
def hqLevel {t : PT} (a : Px t) : Nat := (a.val - t.lo).toNat

/-- State of `HierarchicalQueue<T, TokenType, STD_Queue<TokenType>>` after `initialize`. The
stacks are standard FIFO queues. -/
structure HQ (τ : Type) where
  stk : Nat → List τ
  tokenNbr : Nat → Nat
  size : Nat
  higherLevel : Nat

namespace HQ

/-- `initialize`, DMorphoHierarQ.hpp:176-219. -/
def init (P : HQParam) : HQ τ := ⟨fun _ => [], fun _ => 0, 0, if P.rev then 0 else P.gmax⟩

/-- `push` at a level, DMorphoHierarQ.hpp:233-247; `none` is a level outside of the tables. -/
def push (P : HQParam) (q : HQ τ) (level : Nat) (x : τ) : Option (HQ τ) :=
  if level < P.nbr then
    some { stk := Function.update q.stk level (q.stk level ++ [x]),
           tokenNbr := Function.update q.tokenNbr level (q.tokenNbr level + 1),
           size := q.size + 1,
           higherLevel :=
             if P.rev then (if level > q.higherLevel then level else q.higherLevel)
             else (if level < q.higherLevel then level else q.higherLevel) }
  else none

/-- The upward search of `findNewReferenceLevel`, DMorphoHierarQ.hpp:261-266, from level `i`, for
at most `k` levels. -/
def scanUp (tok : Nat → Nat) : Nat → Nat → Option Nat
  | _, 0 => none
  | i, k + 1 => if tok i > 0 then some i else scanUp tok (i + 1) k

/-- The downward search, DMorphoHierarQ.hpp:254-259: the next level to look at is `n - 1` in
`size_t`. Outer `none`: the index wrapped below zero and is read outside of the table. Inner
`none`: the loop ended without finding a level. -/
def scanDown (gmax : Nat) (tok : Nat → Nat) : Nat → Option (Option Nat)
  | 0 => if gmax = 2 ^ 64 - 1 then some none else none
  | i + 1 => if i = gmax then some none else if tok i > 0 then some (some i) else scanDown gmax tok i

/-- `findNewReferenceLevel`, DMorphoHierarQ.hpp:249-268. -/
def findNew (P : HQParam) (q : HQ τ) : Option (HQ τ) :=
  if P.rev then
    (scanDown P.gmax q.tokenNbr q.higherLevel).map fun o =>
      { q with higherLevel := o.getD q.higherLevel }
  else
    some { q with higherLevel :=
      (scanUp q.tokenNbr (q.higherLevel + 1) (P.nbr - (q.higherLevel + 1))).getD q.higherLevel }

/-- `pop`, DMorphoHierarQ.hpp:270-295; `none` is a level outside of the tables or `front()` of an
empty stack. -/
def pop (P : HQParam) (q : HQ τ) : Option (τ × HQ τ) :=
  if q.higherLevel < P.nbr then
    match q.stk q.higherLevel with
    | [] => none
    | x :: rest =>
      let hlSize := q.tokenNbr q.higherLevel
      let q1 : HQ τ := { q with stk := Function.update q.stk q.higherLevel rest,
                                size := q.size - 1 }
      if hlSize > 1 then
        some (x, { q1 with tokenNbr := Function.update q.tokenNbr q.higherLevel (hlSize - 1) })
      else
        let q2 : HQ τ := { q1 with tokenNbr := Function.update q.tokenNbr q.higherLevel 0 }
        if q1.size > 0 then (q2.findNew P).map fun q3 => (x, q3)
        else some (x, { q2 with higherLevel := if P.rev then 0 else 2 ^ 64 - 1 })
  else none

/-- `isEmpty`, DMorphoHierarQ.hpp:226-229. -/
def isEmpty (q : HQ τ) : Bool := q.size == 0

end HQ

/-- One call on a queue. -/
inductive HQOp (τ : Type) where
  | push (level : Nat) (x : τ)
  | pop

/-- A history of calls; the outputs are the results of the `pop`s. -/
def HQ.run (P : HQParam) : List (HQOp τ) → HQ τ → Option (List τ × HQ τ)
  | [], q => some ([], q)
  | .push l x :: ops, q => (q.push P l x).bind (HQ.run P ops)
  | .pop :: ops, q => (q.pop P).bind fun r => (HQ.run P ops r.2).map fun s => (r.1 :: s.1, s.2)

/-- The same for the preallocated FIFO: outputs of `front` followed by `pop`. -/
def Fifo.run : List (Option τ) → Fifo τ → Option (List τ × Fifo τ)
  | [], q => some ([], q)
  | some x :: ops, q => (q.push x).bind (Fifo.run ops)
  | none :: ops, q => q.front.bind fun x => q.pop.bind fun q' =>
      (Fifo.run ops q').map fun s => (x :: s.1, s.2)

end Smil
