import Verif.PathOp
import Verif.ImgOps

/-!
# Path openings by queues

`ImPathOpening`, Addons/PathOpening/include/MorphoPathOpening/morphoPathOpening.hpp:268-800. The arrays `Lambda`, `IsAlreadyPush` and the queues are kept direction by direction: a
step of a direction reads and writes the entries of this direction only, so that the order in which the two loops of `UpdateLambdaV`, `UpdateLambdaH`, `UpdateLambdaD1` and
`UpdateLambdaD2` alternate does not matter.
-/

namespace Smil
section
variable {u : PT}

/-- The entries of a direction: `Lambda`, `IsAlreadyPush` and the queues. -/
structure DirSt where
  lam : Int × Int → Nat
  push : Int × Int → Bool
  q : Int → List Int

/-- The number of queues of a direction, morphoPathOpening.hpp:650-659. -/
def nRank (W H : Nat) : Nat → Int
  | 0 => H
  | 1 => H
  | 2 => W
  | 3 => W
  | _ => W + H - 1

/-- The queue of a point, morphoPathOpening.hpp:703-724, 757-785, and the pushes of the updates. -/
def rankQ (W _H : Nat) (k : Nat) (p : Int × Int) : Int :=
  match k with
  | 0 => p.2
  | 1 => p.2
  | 2 => p.1
  | 3 => p.1
  | 4 => p.1 + p.2
  | 5 => p.1 + p.2
  | _ => W - 1 - p.1 + p.2

/-- What is pushed for a point, same lines. -/
def encQ (W H : Nat) (k : Nat) (p : Int × Int) : Int :=
  match k with
  | 0 => p.1
  | 1 => p.1
  | 2 => p.2
  | 3 => p.2
  | 4 => if p.1 + p.2 < H then p.1 else H - 1 - p.2
  | 5 => if p.1 + p.2 < H then p.1 else H - 1 - p.2
  | _ => if W - p.1 + p.2 < H then W - 1 - p.1 else H - 1 - p.2

/-- The point of an entry `l` of the queue `r`, morphoPathOpening.hpp:278-283, 356-361, 431-442, 479-490, 534-545, 586-597. -/
def decQ (W H : Nat) (k : Nat) (r l : Int) : Int × Int :=
  match k with
  | 0 => (l, r)
  | 1 => (l, r)
  | 2 => (r, l)
  | 3 => (r, l)
  | 4 => if r < H then (l, r - l) else (r - (H - 1) + l, H - 1 - l)
  | 5 => if r < H then (l, r - l) else (r - (H - 1) + l, H - 1 - l)
  | _ => if r + 1 < H then (W - 1 - l, r - l) else (W - 1 + H - 1 - l - r, H - 1 - l)

/-- The points pushed when a length changes, morphoPathOpening.hpp:289-303, 324-341, 367-384, 403-421, 453-476, 500-522, 556-579, 608-631. -/
def depOffs : Nat → List (Int × Int)
  | 0 => [(0, 1), (-1, 1), (1, 1)]
  | 1 => [(0, -1), (-1, -1), (1, -1)]
  | 2 => [(1, 0), (1, -1), (1, 1)]
  | 3 => [(-1, 0), (-1, -1), (-1, 1)]
  | 4 => [(1, 0), (0, 1), (1, 1)]
  | 5 => [(-1, 0), (0, -1), (-1, -1)]
  | 6 => [(1, 0), (0, -1), (1, -1)]
  | _ => [(-1, 0), (0, 1), (-1, 1)]

/-- The queues of a direction are emptied in increasing order, or in decreasing order. -/
def ascQ : Nat → Bool
  | 0 => true
  | 2 => true
  | 4 => true
  | 7 => true
  | _ => false

/-- `FIFO[rank].push(l)`; `none`: outside of the array of queues. -/
def pushQ (W H k : Nat) (st : DirSt) (p : Int × Int) : Option DirSt :=
  let r := rankQ W H k p
  if 0 ≤ r ∧ r < nRank W H k then some { st with q := Function.update st.q r (st.q r ++ [encQ W H k p]) } else none

/-- The push of a dependent point: inside of the image and not yet pushed. -/
def pushDep (W H k : Nat) (st : DirSt) (p : Int × Int) : Option DirSt :=
  if inWH W H p && !st.push p then pushQ W H k { st with push := Function.update st.push p true } p else some st

/-- The body of the loop `while (!FIFO[r].empty())` for the entry `l`; `none`: a point outside of the image. -/
def popOne (W H k : Nat) (f : Int × Int → Int) (L r : Int) (st : DirSt) (l : Int) : Option DirSt :=
  let p := decQ W H k r l
  if inWH W H p then
    let new := if f p = L - 1 then 0 else computeLambda W H (fun _ => st.lam) k p
    if new ≠ st.lam p then ((depOffs k).map fun o => (p.1 + o.1, p.2 + o.2)).foldlM (pushDep W H k) { st with lam := Function.update st.lam p new }
    else some st
  else none

/-- The loop `while (!FIFO[r].empty())`. The entries that the queue holds at the beginning are treated in their order; `none` if some have been added meanwhile, which the
theorems exclude. -/
def drainQ (W H k : Nat) (f : Int × Int → Int) (L r : Int) (st : DirSt) : Option DirSt :=
  ((st.q r).foldlM (popOne W H k f L r) { st with q := Function.update st.q r [] }).bind fun st' => if st'.q r = [] then some st' else none

/-- The queue emptied at the turn `s`. -/
def rankAt (W H k : Nat) (s : Int) : Int := if ascQ k then s else nRank W H k - 1 - s

/-- One direction of `UpdateLambdaV` (268-343), `UpdateLambdaH` (346-418), `UpdateLambdaD1` (421-523) and `UpdateLambdaD2` (526-634). -/
def updateDir (W H k : Nat) (f : Int × Int → Int) (L : Int) (st : DirSt) : Option DirSt :=
  (List.range (nRank W H k).toNat).foldlM (fun (st : DirSt) (s : Nat) => drainQ W H k f L (rankAt W H k s) st) st

/-- The pixels of value `L` enter the queues, the pixels up to `L` are marked, morphoPathOpening.hpp:696-738 (with `L = 0`) and 749-786. -/
def seedDir (W H k : Nat) (f : Int × Int → Int) (L : Int) (st : DirSt) : Option DirSt :=
  ((List.range (W * H)).map (pt2 W)).foldlM (fun (st : DirSt) p => if f p = L then pushQ W H k st p else some st) { st with push := fun p => decide (f p ≤ L) }

/-- The first values of `Lambda`, morphoPathOpening.hpp:685-693. -/
def initLam (W H : Nat) (k : Nat) (p : Int × Int) : Nat :=
  match k with
  | 0 => (p.2 + 1).toNat
  | 1 => (H - p.2).toNat
  | 2 => (p.1 + 1).toNat
  | 3 => (W - p.1).toNat
  | 4 => (p.1 + p.2 + 1).toNat
  | 5 => (W + H - 1 - (p.1 + p.2)).toNat
  | 6 => (W - p.1 + p.2).toNat
  | _ => (H + p.1 - p.2).toNat

/-- The same step in the eight directions. -/
def eachDir (g : Nat → DirSt → Option DirSt) (d : Nat → DirSt) : Option (Nat → DirSt) :=
  (List.range 8).foldlM (fun d k => (g k (d k)).map (Function.update d k)) d

/-- A turn of the loop over the levels, morphoPathOpening.hpp:743-795. `src` gives the pixels of the input: in place they are those of the output. -/
def fastLevel (W H len : Nat) (src : (Nat → Px u) → Int × Int → Int) (st : (Nat → DirSt) × (Nat → Px u)) (L : Nat) : Option ((Nat → DirSt) × (Nat → Px u)) :=
  (eachDir (fun k => updateDir W H k (src st.2) L) st.1).bind fun d =>
  (eachDir (fun k => seedDir W H k (src st.2) L) d).map fun d' =>
    (d', fun i =>
      let p := pt2 W i
      if i < W * H ∧ ((d 0).lam p + (d 1).lam p > len ∨ (d 2).lam p + (d 3).lam p > len ∨ (d 4).lam p + (d 5).lam p > len ∨ (d 6).lam p + (d 7).lam p > len) then
        u.wrap ((L : Int) - 1) else st.2 i)

/-- `ImPathOpening`, morphoPathOpening.hpp:636-800. The output is filled with zeros first; `inPl`: it is the input. The arrays hold the pixels of one slice, and their indices are
`int` in the updates: `none` with more than one slice and with `W * H * 8` from 2^31 on. -/
def fastPathOpening (auto inPl : Bool) (im : Img (Px UINT8)) (len : Nat) (out : Img (Px u)) : Option (Except Int (Img (Px u))) :=
  match checkOne auto im.dims out.dims with
  | .error c => some (.error c)
  | .ok _ =>
    let W := im.dims.w
    let H := im.dims.h
    if im.dims.d = 1 ∧ W * H * 8 < 2 ^ 31 then
      let src : (Nat → Px u) → Int × Int → Int := fun o p => if inPl then (o (off2 W p)).val else (im.buf (off2 W p)).val
      let z : Nat → Px u := fun _ => u.wrap 0
      (eachDir (fun k => seedDir W H k (src z) 0) fun k => ⟨initLam W H k, fun _ => false, fun _ => []⟩).bind fun d =>
        ((List.range' 1 255).foldlM (fastLevel W H len src) (d, z)).map fun st => .ok ⟨im.dims, st.2⟩
    else none

/-- `ImPathClosing`, Addons/PathOpening/include/DMorphoPathOpening.h:63-77. `imNeg` is an image of its own, the output may be the input. -/
def fastPathClosing (auto : Bool) (im : Img (Px UINT8)) (len : Nat) (out : Img (Px u)) : Option (Except Int (Img (Px u))) :=
  match checkOne auto im.dims out.dims with
  | .error c => some (.error c)
  | .ok _ =>
    (Img.mapK kInv im).bind fun neg =>
    andThen (fastPathOpening auto false neg len ⟨im.dims, out.buf⟩) fun r => (Img.mapK kInv r).map .ok

end
end Smil
