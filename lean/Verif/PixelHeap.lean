import Verif.PathOp

/-!
# The area closing by pixel queue

Addons/PathOpening/include/FastAreaOpening/AreaOpeningPixelQueue.hpp. The arrays are functions of the index; an access outside of an array, and a value read before it is written, are `none`.
-/

namespace Smil

/-- `PixelHeap`, AreaOpeningPixelQueue.hpp:36-39: `heap`, `N` and `HeapMax`. The entries are those of the indices 1 to `N`. -/
structure PHeap where
  heap : Nat → Nat
  n : Nat
  cap : Nat

/-- `InitPixelHeap`, lines 41-46: `heap` has `lambda + 1` entries. -/
def PHeap.init (cap : Nat) : PHeap := ⟨fun _ => 0, 0, cap⟩

/-- The loop of `InsertInPixelHeap` and the assignment after it, lines 60-64. -/
def siftUp (key : Nat → Int) (x : Nat) (h : Nat → Nat) (c : Nat) : Nat → Nat :=
  if c / 2 ≠ 0 ∧ key x < key (h (c / 2)) then siftUp key x (Function.update h c (h (c / 2))) (c / 2) else Function.update h c x
termination_by c
decreasing_by omega

/-- `InsertInPixelHeap`, lines 54-65. `none`: the array is full. -/
def PHeap.insert (key : Nat → Int) (s : PHeap) (x : Nat) : Option PHeap :=
  if s.n + 1 ≤ s.cap then some { s with n := s.n + 1, heap := siftUp key x (Function.update s.heap (s.n + 1) x) (s.n + 1) } else none

/-- The child chosen at lines 74-77. -/
def minChild (key : Nat → Int) (n : Nat) (h : Nat → Nat) (p : Nat) : Nat :=
  if 2 * p < n ∧ key (h (2 * p + 1)) < key (h (2 * p)) then 2 * p + 1 else 2 * p

/-- The loop of `RemoveFromPixelHeap` and the assignment after it, lines 72-83. The loop begins with `p = 1`. -/
def siftDown (key : Nat → Int) (x n : Nat) (h : Nat → Nat) (p : Nat) : Nat → Nat :=
  if 0 < p ∧ p ≤ n / 2 then
    if key x ≤ key (h (minChild key n h p)) then Function.update h p x
    else siftDown key x n (Function.update h p (h (minChild key n h p))) (minChild key n h p)
  else Function.update h p x
termination_by n - p
decreasing_by
  have : 2 * p ≤ minChild key n h p := by unfold minChild; split <;> omega
  omega

/-- `RemoveFromPixelHeap`, lines 67-85. `none`: the heap is empty, `heap[0]` is read and was never written. -/
def PHeap.remove (key : Nat → Int) (s : PHeap) : Option (Nat × PHeap) :=
  if s.n = 0 then none
  else
    let x := s.heap s.n
    some (s.heap 1, { s with n := s.n - 1, heap := siftDown key x (s.n - 1) (Function.update s.heap 1 x) 1 })

/-- The neighbours of a pixel, in the order up, down, left, right; `lim` is the bound of the test for the one below. -/
def pqNbs (W : Nat) (lim : Int) (p : Nat) : List Nat :=
  (if W ≤ p then [p - W] else []) ++ (if (p : Int) < lim then [p + W] else []) ++ (if 0 < p % W then [p - 1] else []) ++ (if p % W + 1 < W then [p + 1] else [])

/-- `label`, `Queue`, `tail`. -/
structure PQSt where
  label : Nat → Int
  queue : Nat → Nat
  tail : Nat

/-- `Queue[tail++] = p` after `label[p] = v`; the queue has `N` entries. -/
def PQSt.push (N : Nat) (s : PQSt) (v : Int) (p : Nat) : Option PQSt :=
  if s.tail < N then some ⟨Function.update s.label p v, Function.update s.queue s.tail p, s.tail + 1⟩ else none

/-- The tests of the four neighbours of `pixel`, AreaOpeningPixelQueue.hpp:164-203; `true`: `break`. -/
def minNbs (N : Nat) (im : Nat → Int) (g cur : Int) (pixel : Nat) : List Nat → PQSt → Option (PQSt × Bool)
  | [], s => some (s, false)
  | a :: l, s =>
    if im a < g then some ({ s with label := Function.update s.label pixel 0 }, true)
    else if im a = g ∧ s.label a = -2 then (s.push N cur a).bind (minNbs N im g cur pixel l)
    else minNbs N im g cur pixel l s

/-- The loop `while (head != tail)`, lines 163-204: `head`, the state and the last pixel. The number of turns is at most `N`, given as fuel; `none` when it is used up. -/
def minFlood (W H : Nat) (im : Nat → Int) (g cur : Int) : Nat → Nat → Nat → PQSt → Option (Nat × Nat × PQSt)
  | 0, _, _, _ => none
  | fuel + 1, head, last, s =>
    if head = s.tail then some (head, last, s)
    else (minNbs (W * H) im g cur (s.queue head) (pqNbs W (((H : Int) - 1) * W - 1) (s.queue head)) s).bind fun r =>
      if r.2 then some (head + 1, s.queue head, r.1) else minFlood W H im g cur fuel (head + 1) (s.queue head) r.1

/-- The loop of lines 218-246: the zone is not a minimum. -/
def unFlood (W H : Nat) (im : Nat → Int) (g : Int) : Nat → Nat → PQSt → Option PQSt
  | 0, _, _ => none
  | fuel + 1, head, s =>
    if head = s.tail then some s
    else
      let pixel := s.queue head
      ((pqNbs W (((H : Int) - 1) * W - 1) pixel).foldlM (fun (s : PQSt) a => if im a = g ∧ s.label a ≠ 0 then s.push (W * H) 0 a else some s)
        { s with label := Function.update s.label pixel 0 }).bind fun s' => unFlood W H im g fuel (head + 1) s'

/-- `label[Queue[j]] = NARM` for `a <= j < b`. -/
def clearLabels (queue : Nat → Nat) (a b : Nat) (label : Nat → Int) : Nat → Int :=
  (List.range' a (b - a)).foldl (fun l j => Function.update l (queue j) 0) label

/-- The turn `i` of `SmallRegionalMinima`, lines 156-248: the state, `*Qmax` and `curlab`. -/
def minTurn (W H : Nat) (im : Nat → Int) (lam : Nat) (st : PQSt × Nat × Int) (i : Nat) : Option (PQSt × Nat × Int) :=
  if st.1.label i = -2 then
    (minFlood W H im (im i) st.2.2 (W * H + 1) st.2.1 i ⟨Function.update st.1.label i st.2.2, Function.update st.1.queue st.2.1 i, st.2.1 + 1⟩).bind fun r =>
      if r.2.2.label r.2.1 ≠ 0 then
        if r.1 - st.2.1 < lam then some (r.2.2, r.1, st.2.2 + 1)
        else some ({ r.2.2 with label := clearLabels r.2.2.queue st.2.1 r.1 r.2.2.label }, st.2.1, st.2.2)
      else
        (unFlood W H im (im i) (2 * (W * H) + 1) (r.1 - 1) { r.2.2 with label := clearLabels r.2.2.queue st.2.1 (r.1 - 1) r.2.2.label }).map fun s => (s, st.2.1, st.2.2)
  else some st

/-- `SmallRegionalMinima`, lines 144-251. -/
def smallMinima (W H : Nat) (im : Nat → Int) (lam : Nat) : Option (PQSt × Nat × Int) :=
  (List.range (W * H)).foldlM (minTurn W H im lam) (⟨fun _ => -2, fun _ => 0, 0⟩, 0, 1)

/-- `FillExtremum`, lines 94-142: `label`, the heap, `fill_list` and `Qpos`. The heap is emptied by the caller of the first turn. -/
def fillMin (W H : Nat) (im : Nat → Int) (lam : Nat) (queue : Nat → Nat) (qmax : Nat) (mark : Int) : Nat → Nat → (Nat → Int) → PHeap → List Nat → Option ((Nat → Int) × PHeap × List Nat × Nat)
  | 0, _, _, _, _ => none
  | fuel + 1, i, label, hp, fill =>
    if fill.length < lam then
      ((pqNbs W (((H : Int) - 1) * W) (queue i)).foldlM (fun (s : (Nat → Int) × PHeap) a =>
        if s.1 a ≠ mark ∧ s.1 a ≠ -mark then (s.2.insert im a).map fun hp => (Function.update s.1 a (-mark), hp) else some s)
        (Function.update label (queue i) (-mark), hp)).bind fun s =>
          if i + 1 = qmax ∨ s.1 (queue (i + 1)) ≠ mark then some (s.1, s.2, fill ++ [queue i], i + 1)
          else fillMin W H im lam queue qmax mark fuel (i + 1) s.1 s.2 (fill ++ [queue i])
    else none

/-- The tests of the four neighbours of the pixel taken out of the heap, lines 271-302; `true`: `break`. -/
def growNbs (im : Nat → Int) (g mark : Int) : List Nat → (Nat → Int) × PHeap → Option (((Nat → Int) × PHeap) × Bool)
  | [], s => some (s, false)
  | a :: l, s =>
    if s.1 a ≠ mark then
      if g ≤ im a then (s.2.insert im a).bind fun hp => growNbs im g mark l (Function.update s.1 a mark, hp)
      else some (s, true)
    else growNbs im g mark l s

/-- The loop `while (maxarea < lambda)`, lines 267-303: `label`, `fill_list` and `gval`. `g` is the value of `gval` before the loop. -/
def grow (W H : Nat) (im : Nat → Int) (lam : Nat) (mark : Int) : Nat → Option Int → (Nat → Int) → PHeap → List Nat → Option ((Nat → Int) × List Nat × Option Int)
  | 0, _, _, _, _ => none
  | fuel + 1, g, label, hp, fill =>
    if fill.length < lam then
      (hp.remove im).bind fun r =>
      (growNbs im (im r.1) mark (pqNbs W (((H : Int) - 1) * W) r.1) (label, r.2)).bind fun s =>
        if s.2 then some (s.1.1, fill ++ [r.1], some (im r.1)) else grow W H im lam mark fuel (some (im r.1)) s.1.1 s.1.2 (fill ++ [r.1])
    else some (label, fill, g)

/-- The loop `while (Qpos < Qmax)` of `VincentAreaClosing`, lines 263-308. `none` if `gval` is used before it is set. -/
def pqLoop (W H lam : Nat) (queue : Nat → Nat) (qmax : Nat) : Nat → Nat → Int → Option Int → (Nat → Int) → (Nat → Int) → Option (Nat → Int)
  | 0, _, _, _, _, _ => none
  | fuel + 1, qpos, mark, g, label, im =>
    if qpos < qmax then
      (fillMin W H im lam queue qmax (label (queue qpos)) (W * H + 1) qpos label (PHeap.init (2 * (lam + 1))) []).bind fun r =>
      (grow W H im lam (-mark) (lam + 1) g r.1 r.2.1 r.2.2.1).bind fun s =>
      s.2.2.bind fun g' =>
        pqLoop W H lam queue qmax fuel r.2.2.2 (s.1 (queue r.2.2.2)) (some g') s.1 (fun p => if p ∈ s.2.1 then g' else im p)
    else some im

/-- `VincentAreaClosing`, lines 253-309. -/
def vincentClosing (W H lam : Nat) (im : Nat → Int) : Option (Nat → Int) :=
  (smallMinima W H im lam).bind fun s => pqLoop W H lam s.1.queue s.2.1 (W * H + 1) 0 (s.1.label (s.1.queue 0)) none s.1.label im

/-- `ImAreaClosing_PixelQueue`, lines 338-392, between images of the same type: the output is filled with zeros, then the pixels are copied into an image of `INT32` and back. Only the first
slice is treated. `inPl`: the output is the input. -/
def areaClosingPQ {t : PT} (auto inPl : Bool) (im : Img (Px t)) (lam : Nat) (out : Img (Px t)) : Option (Except Int (Img (Px t))) :=
  match checkOne auto im.dims out.dims with
  | .error c => some (.error c)
  | .ok _ => (vincentClosing im.dims.w im.dims.h lam fun i => if inPl then (t.wrap 0).val else (im.buf i).val).map fun r => .ok ⟨im.dims, fun i => t.wrap (r i)⟩

end Smil
