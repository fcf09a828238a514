import Verif.PixelHeapLemmas
import Verif.PropsPathOp
import Mathlib.Data.List.Perm.Basic

/-!
# C113: the heap of pixels and the area closing by pixel queue
-/

namespace Smil

/-! ### Specification -/

/-- An operation of a priority queue of pixels. -/
inductive HeapOp
  | ins (x : Nat)
  | rem

/-- The runs of a priority queue: from what it holds, through the operations, with the pixels removed, to what it holds at the end. Each removal takes a pixel of least value. -/
inductive QueueRun (key : Nat → Int) : Multiset Nat → List HeapOp → List Nat → Multiset Nat → Prop
  | nil (q) : QueueRun key q [] [] q
  | ins {q ops outs q'} (x : Nat) : QueueRun key (x ::ₘ q) ops outs q' → QueueRun key q (.ins x :: ops) outs q'
  | rem {q ops outs q'} (m : Nat) : (∀ a ∈ m ::ₘ q, key m ≤ key a) → QueueRun key q ops outs q' → QueueRun key (m ::ₘ q) (.rem :: ops) (m :: outs) q'

/-- The number of entries, from `n` on, never passes `cap`, and nothing is removed from an empty queue. -/
def SizesOK (cap : Nat) : Nat → List HeapOp → Prop
  | _, [] => True
  | n, .ins _ :: ops => n + 1 ≤ cap ∧ SizesOK cap (n + 1) ops
  | n, .rem :: ops => 0 < n ∧ SizesOK cap (n - 1) ops

/-- The operations on the heap of the code, with the pixels removed. -/
def heapRun (key : Nat → Int) : PHeap → List HeapOp → Option (List Nat × PHeap)
  | s, [] => some ([], s)
  | s, .ins x :: ops => (s.insert key x).bind fun s' => heapRun key s' ops
  | s, .rem :: ops => (s.remove key).bind fun r => (heapRun key r.2 ops).map fun o => (r.1 :: o.1, o.2)

/-- The checks succeed. -/
structure PQArgs (auto : Bool) (di dout : Dims) : Prop where
  alloc : di.count ≠ 0
  size : dout = di ∨ auto = true

/-! ### The heap -/

theorem heapRun_ok (key : Nat → Int) : ∀ (ops : List HeapOp) (s : PHeap) (outs : List Nat) (s' : PHeap), s.OK key → heapRun key s ops = some (outs, s') →
    QueueRun key s.bag ops outs s'.bag ∧ s'.OK key := by
  intro ops
  induction ops with
  | nil =>
    intro s outs s' h e
    simp only [heapRun, Option.some.injEq, Prod.mk.injEq] at e
    obtain ⟨rfl, rfl⟩ := e
    exact ⟨.nil _, h⟩
  | cons op ops ih =>
    intro s outs s' h e
    cases op with
    | ins x =>
      rw [heapRun] at e
      obtain ⟨s1, e1, e2⟩ := Option.bind_eq_some_iff.mp e
      obtain ⟨h1, h2, -⟩ := PHeap.insert_ok h e1
      obtain ⟨k1, k2⟩ := ih s1 outs s' h1 e2
      rw [h2] at k1
      exact ⟨.ins x k1, k2⟩
    | rem =>
      rw [heapRun] at e
      obtain ⟨⟨m, s1⟩, e1, e2⟩ := Option.bind_eq_some_iff.mp e
      obtain ⟨⟨o, s2⟩, e3, e4⟩ := Option.map_eq_some_iff.mp e2
      obtain ⟨rfl, rfl⟩ := Prod.mk.inj e4
      obtain ⟨h1, h2, h3, -⟩ := PHeap.remove_ok h e1
      obtain ⟨k1, k2⟩ := ih s1 o s2 h1 e3
      rw [h2] at h3 ⊢
      exact ⟨.rem m h3 k1, k2⟩

theorem heapRun_isSome (key : Nat → Int) : ∀ (ops : List HeapOp) (s : PHeap), (heapRun key s ops).isSome ↔ SizesOK s.cap s.n ops := by
  intro ops
  induction ops with
  | nil => intro s; simp [heapRun, SizesOK]
  | cons op ops ih =>
    intro s
    cases op with
    | ins x =>
      rw [heapRun, SizesOK]
      unfold PHeap.insert
      by_cases h : s.n + 1 ≤ s.cap
      · rw [if_pos h, Option.bind_some, ih]
        exact ⟨fun k => ⟨h, k⟩, fun k => k.2⟩
      · rw [if_neg h]
        exact ⟨fun k => absurd k (by simp), fun k => absurd k.1 h⟩
    | rem =>
      rw [heapRun, SizesOK]
      unfold PHeap.remove
      by_cases h : s.n = 0
      · rw [if_pos h]
        exact ⟨fun k => absurd k (by simp), fun k => by omega⟩
      · rw [if_neg h, Option.bind_some, Option.isSome_map, ih]
        exact ⟨fun k => ⟨by omega, k⟩, fun k => k.2⟩

/-- **C113.** The heap of pixels is a priority queue: through any sequence of insertions and removals from an empty heap, each removal gives a pixel inserted and not yet removed, of least value, and
what remains is what was inserted and not removed. The run is undefined exactly when the heap of `cap` entries overflows or a pixel is removed from an empty heap. -/
theorem C113_queue (key : Nat → Int) (cap : Nat) (ops : List HeapOp) :
    ((heapRun key (PHeap.init cap) ops).isSome ↔ SizesOK cap 0 ops) ∧
    ∀ outs s, heapRun key (PHeap.init cap) ops = some (outs, s) → QueueRun key 0 ops outs s.bag ∧ s.bag.card = s.n := by
  refine ⟨heapRun_isSome key ops (PHeap.init cap), fun outs s e => ?_⟩
  refine ⟨(heapRun_ok key ops _ _ _ (PHeap.Lt.init key 0 cap).ok e).1, ?_⟩
  unfold PHeap.bag heapBag
  rw [Multiset.card_sum]
  simp

example : (heapRun (fun p => [5, 2, 7, 3, 9, 2].getD p 0) (PHeap.init 4) [.ins 0, .ins 1, .ins 4, .rem, .ins 3, .rem, .ins 2, .rem]).map Prod.fst = some [1, 3, 0] := by decide +kernel

theorem queueRun_rems {key : Nat → Int} : ∀ (n : Nat) (q : Multiset Nat) (outs : List Nat) (q' : Multiset Nat), QueueRun key q (List.replicate n .rem) outs q' →
    q = (outs : Multiset Nat) + q' ∧ outs.length = n ∧ outs.Pairwise (fun a b => key a ≤ key b) ∧ ∀ a ∈ outs, ∀ b ∈ q', key a ≤ key b := by
  intro n
  induction n with
  | zero =>
    intro q outs q' h
    cases h
    exact ⟨(zero_add _).symm, rfl, .nil, fun a ha => absurd ha List.not_mem_nil⟩
  | succ n ih =>
    intro q outs q' h
    rw [List.replicate_succ] at h
    cases h with
    | rem m hm h =>
      obtain ⟨k1, k2, k3, k4⟩ := ih _ _ _ h
      rw [k1] at hm ⊢
      refine ⟨?_, ?_, ?_, ?_⟩
      · rw [← Multiset.cons_coe, Multiset.cons_add]
      · rw [List.length_cons, k2]
      · rw [List.pairwise_cons]
        exact ⟨fun b hb => hm b (Multiset.mem_cons_of_mem (Multiset.mem_add.mpr (.inl (Multiset.mem_coe.mpr hb)))), k3⟩
      · intro a ha b hb
        rw [List.mem_cons] at ha
        rcases ha with rfl | ha
        · exact hm b (Multiset.mem_cons_of_mem (Multiset.mem_add.mpr (.inr hb)))
        · exact k4 a ha b hb

theorem queueRun_inss {key : Nat → Int} : ∀ (l : List Nat) (q : Multiset Nat) (ops : List HeapOp) (outs : List Nat) (q' : Multiset Nat), QueueRun key q (l.map .ins ++ ops) outs q' →
    QueueRun key ((l : Multiset Nat) + q) ops outs q' := by
  intro l
  induction l with
  | nil => intro q ops outs q' h; rw [Multiset.coe_nil, zero_add]; exact h
  | cons x l ih =>
    intro q ops outs q' h
    rw [List.map_cons, List.cons_append] at h
    cases h with
    | ins _ h =>
      have := ih _ _ _ _ h
      rwa [← Multiset.cons_coe, Multiset.cons_add, ← Multiset.add_cons]

/-- **C113.** The pixels of a list, inserted and then all removed, come out sorted by value, each as often as it was inserted. -/
theorem C113_sorted (key : Nat → Int) (l : List Nat) :
    ∃ outs s, heapRun key (PHeap.init l.length) (l.map .ins ++ List.replicate l.length .rem) = some (outs, s) ∧ outs.Perm l ∧ outs.Pairwise (fun a b => key a ≤ key b) := by
  have hrem : ∀ n k cap, k ≤ n → SizesOK cap n (List.replicate k .rem) := by
    intro n k
    induction k generalizing n with
    | zero => intro cap _; trivial
    | succ k ih =>
      intro cap hk
      rw [List.replicate_succ, SizesOK]
      exact ⟨by omega, ih (n - 1) cap (by omega)⟩
  have hins : ∀ (l' : List Nat) n, n + l'.length ≤ l.length → SizesOK l.length (n + l'.length) (List.replicate l.length .rem) → SizesOK l.length n (l'.map .ins ++ List.replicate l.length .rem) := by
    intro l'
    induction l' with
    | nil => intro n _ h; exact h
    | cons x l' ih =>
      intro n hn h
      rw [List.length_cons] at hn h
      rw [List.map_cons, List.cons_append, SizesOK]
      exact ⟨by omega, ih (n + 1) (by omega) (by rwa [Nat.add_right_comm, Nat.add_assoc])⟩
  have hs := (C113_queue key l.length (l.map .ins ++ List.replicate l.length .rem)).1.mpr
    (hins l 0 (by omega) (hrem _ _ _ (by omega)))
  obtain ⟨⟨outs, s⟩, e⟩ := Option.isSome_iff_exists.mp hs
  refine ⟨outs, s, e, ?_⟩
  have h := queueRun_inss _ _ _ _ _ ((C113_queue key l.length _).2 outs s e).1
  rw [add_zero] at h
  obtain ⟨k1, k2, k3, -⟩ := queueRun_rems _ _ _ _ h
  refine ⟨?_, k3⟩
  have hc := congrArg Multiset.card k1
  rw [Multiset.card_add, Multiset.coe_card, Multiset.coe_card, k2] at hc
  have hz : s.bag = 0 := Multiset.card_eq_zero.mp (by omega)
  rw [hz, add_zero] at k1
  exact (Multiset.coe_eq_coe.mp k1).symm

/-! ### The closing -/

theorem pq_checkOne {auto : Bool} {di dout : Dims} (h : PQArgs auto di dout) : checkOne auto di dout = .ok () := by
  unfold checkOne
  rw [if_neg h.alloc]
  rcases h.size with e | e
  · rw [if_pos e]
  · split
    · rfl
    · simp [e]

/-- **C113, part.** When the area closing returns, each pixel of the first slice has the value of some pixel of the first slice of the input, and the other slices are copied.
What is missing: that the result is the area closing, which is false (`C113_decrease_bug`). -/
theorem C113_values_partial {t : PT} (auto : Bool) (im : Img (Px t)) (lam : Nat) (out r : Img (Px t)) (h : PQArgs auto im.dims out.dims)
    (e : areaClosingPQ auto false im lam out = some (.ok r)) :
    r.dims = im.dims ∧ (∀ i < im.dims.w * im.dims.h, ∃ j < im.dims.w * im.dims.h, r.buf i = im.buf j) ∧ ∀ i, im.dims.w * im.dims.h ≤ i → r.buf i = im.buf i := by
  unfold areaClosingPQ at e
  rw [pq_checkOne h] at e
  obtain ⟨v, e1, e2⟩ := Option.map_eq_some_iff.mp e
  have hN : 0 < im.dims.w * im.dims.h := by
    have := h.alloc
    unfold Dims.count at this
    rcases Nat.eq_zero_or_pos (im.dims.w * im.dims.h) with h0 | h0
    · rw [Nat.mul_assoc, Nat.mul_comm im.dims.h, h0] at this
      simp at this
    · exact h0
  obtain ⟨k1, k2⟩ := vincentClosing_vals hN e1
  have hw : ∀ p : Px t, t.wrap p.val = p := fun p => Px.ext (t.wrap_of_mem p.lo_le p.le_hi)
  rw [← Except.ok.inj e2]
  refine ⟨rfl, fun i hi => ?_, fun i hi => ?_⟩
  · obtain ⟨j, hj, hv⟩ := k2 i hi
    refine ⟨j, hj, ?_⟩
    show t.wrap (v i) = im.buf j
    rw [hv]
    exact hw _
  · show t.wrap (v i) = im.buf i
    rw [k1 i hi]
    exact hw _

/-- **C113 fails in place.** Whatever the image, when the closing in place returns, all the pixels are zero: the output is filled with zeros before the input is read. -/
theorem C113_inplace_bug {t : PT} (auto : Bool) (im : Img (Px t)) (lam : Nat) (r : Img (Px t)) (ha : im.dims.count ≠ 0)
    (e : areaClosingPQ auto true im lam im = some (.ok r)) : ∀ i, (r.buf i).val = (t.wrap 0).val := by
  unfold areaClosingPQ at e
  rw [pq_checkOne ⟨ha, .inl rfl⟩] at e
  obtain ⟨v, e1, e2⟩ := Option.map_eq_some_iff.mp e
  have hN : 0 < im.dims.w * im.dims.h := by
    unfold Dims.count at ha
    rcases Nat.eq_zero_or_pos (im.dims.w * im.dims.h) with h0 | h0
    · rw [Nat.mul_assoc, Nat.mul_comm im.dims.h, h0] at ha
      simp at ha
    · exact h0
  obtain ⟨k1, k2⟩ := vincentClosing_vals hN e1
  have hv : ∀ i, v i = (t.wrap 0).val := by
    intro i
    by_cases hi : i < im.dims.w * im.dims.h
    · obtain ⟨j, -, hj⟩ := k2 i hi
      rw [hj]
      rfl
    · rw [k1 i (by omega)]
      rfl
  intro i
  rw [← Except.ok.inj e2]
  show (t.wrap (v i)).val = _
  rw [hv i]
  exact congrArg Px.val (Px.ext (t.wrap_of_mem (t.wrap 0).lo_le (t.wrap 0).le_hi))

/-- The pixels of the result. -/
def pqRes (auto inPl : Bool) (im : Img (Px UINT8)) (lam : Nat) : Option (List Int) :=
  match areaClosingPQ auto inPl im lam im with
  | some (.ok r) => some ((List.range r.dims.count).map fun i => (r.buf i).val)
  | _ => none

set_option maxRecDepth 100000 in
/-- A closing of size 3 on a row, which meets the hypotheses of `C113_values_partial`. -/
example : pqRes false false (im8 ⟨4, 1, 1⟩ [5, 2, 3, 7]) 3 = some [5, 5, 5, 7] := by decide +kernel

set_option maxRecDepth 100000 in
/-- A minimum of `lam` pixels is left as it is. -/
example : pqRes false false (im8 ⟨4, 1, 1⟩ [5, 2, 2, 7]) 2 = some [5, 2, 2, 7] := by decide +kernel

set_option maxRecDepth 100000 in
/-- In place the hypotheses of `C113_inplace_bug` are met. -/
example : pqRes false true (im8 ⟨3, 1, 1⟩ [5, 2, 7]) 2 = some [0, 0, 0] := by decide +kernel

set_option maxRecDepth 100000 in
/-- **C113 fails.** A closing never makes a pixel smaller; here the pixel of value 1 becomes 0: the search for minima does not look below the last pixel of the row before the last. -/
theorem C113_decrease_bug : pqRes false false (im8 ⟨2, 2, 1⟩ [2, 1, 0, 0]) 2 = some [2, 0, 0, 0] := by decide +kernel

set_option maxRecDepth 100000 in
/-- **C113 fails.** On this image of six pixels the queue of six entries overflows: pixels of a zone that is not a minimum are entered twice. -/
theorem C113_overflow_bug : (areaClosingPQ false false (im8 ⟨3, 2, 1⟩ [0, 1, 1, 0, 1, 1]) 3 (im8 ⟨3, 2, 1⟩ [0, 0, 0, 0, 0, 0])).isNone := by decide +kernel

set_option maxRecDepth 100000 in
/-- **C113 fails.** A pixel is removed from an empty heap: on a constant column of two pixels, and on any image of fewer pixels than the size, as here. -/
theorem C113_empty_bug : (areaClosingPQ false false (im8 ⟨1, 2, 1⟩ [0, 0]) 2 (im8 ⟨1, 2, 1⟩ [0, 0])).isNone ∧
    (areaClosingPQ false false (im8 ⟨3, 1, 1⟩ [5, 5, 5]) 4 (im8 ⟨3, 1, 1⟩ [0, 0, 0])).isNone := by decide +kernel

set_option maxRecDepth 100000 in
/-- **C113 fails on volumes.** The second slice keeps a minimum of one pixel. -/
theorem C113_volume_bug : pqRes false false (im8 ⟨3, 1, 2⟩ [5, 2, 7, 5, 2, 7]) 2 = some [5, 5, 7, 5, 2, 7] := by decide +kernel

/-- The errors: an image without pixels, an output of another size. -/
theorem C113_errors {t : PT} (auto : Bool) (im : Img (Px t)) (lam : Nat) (out : Img (Px t)) :
    (im.dims.count = 0 → areaClosingPQ auto false im lam out = some (.error errBadAllocation)) ∧
    (im.dims.count ≠ 0 → out.dims ≠ im.dims → areaClosingPQ false false im lam out = some (.error errBadSize)) := by
  unfold areaClosingPQ checkOne
  refine ⟨fun h => by rw [if_pos h], fun h1 h2 => ?_⟩
  rw [if_neg h1, if_neg h2]
  simp

end Smil
