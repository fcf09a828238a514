import Mathlib.Data.List.Basic
import Mathlib.Algebra.Order.Ring.Rat
import Mathlib.Order.Bounds.Defs

/-!
# Filters on the max-tree of the area openings of the addon

Addons/PathOpening/include/FastAreaOpening/AreaOpeningMaxTree.hpp:598-722, the four decisions on a tree already built. The construction of the tree (`MaxTreeFlood`) is not modelled here.
Attributes are rationals instead of `double`; the template image is nonzero everywhere, as in the callers (lines 790-792).
-/

namespace Smil

/-- `MaxTree`, AreaOpeningMaxTree.hpp:76-107: `NumPixelsBelowLevel`, `NumNodesAtLevel`, and of the nodes `Parent`, `Level` and the value of the attribute. -/
structure AMTree where
  below : Nat → Nat
  cnt : Nat → Nat
  parent : Nat → Nat
  level : Nat → Nat
  attr : Nat → ℚ

/-- The indices `NumPixelsBelowLevel[l] + i` in the order of the loops at lines 607-609. -/
def AMTree.order (T : AMTree) : List Nat := (List.range 256).flatMap fun l => (List.range (T.cnt l)).map (T.below l + ·)

/-- The indices in the order of the second loops of `MaxTreeFilterMax`, lines 675-677: from the level 255 down to 1. -/
def AMTree.orderDown (T : AMTree) : List Nat := (List.range 255).reverse.flatMap fun l => (List.range (T.cnt (l + 1))).map (T.below (l + 1) + ·)

/-- A pass that sets `NewLevel` of each node; the nodes are allocated by `calloc` (line 518), so that `NewLevel` is zero before. -/
def AMTree.pass (T : AMTree) (step : (Nat → Nat) → Nat → Nat) : Nat → Nat := T.order.foldl (fun nw i => Function.update nw i (step nw i)) fun _ => 0

/-- `MaxTreeFilterMin`, lines 607-619. -/
def AMTree.minStep (T : AMTree) (lam : ℚ) (nw : Nat → Nat) (i : Nat) : Nat :=
  if i ≠ T.parent i ∧ (T.attr i < lam ∨ T.level (T.parent i) ≠ nw (T.parent i)) then nw (T.parent i) else T.level i

/-- `MaxTreeFilterDirect`, lines 637-647, and the first loops of `MaxTreeFilterMax`, lines 665-674. -/
def AMTree.directStep (T : AMTree) (lam : ℚ) (nw : Nat → Nat) (i : Nat) : Nat :=
  if i ≠ T.parent i ∧ T.attr i < lam then nw (T.parent i) else T.level i

/-- `MaxTreeFilterSubtractive`, lines 703-715: the sum is converted to `ubyte`. -/
def AMTree.subStep (T : AMTree) (lam : ℚ) (nw : Nat → Nat) (i : Nat) : Nat :=
  if i ≠ T.parent i ∧ T.attr i < lam then nw (T.parent i) else (((T.level i : Int) + nw (T.parent i) - T.level (T.parent i)) % 256).toNat

/-- The body of the second loops of `MaxTreeFilterMax`, lines 678-683. -/
def AMTree.maxStep (T : AMTree) (nw : Nat → Nat) (i : Nat) : Nat → Nat :=
  if i ≠ T.parent i ∧ nw i = T.level i then Function.update nw (T.parent i) (T.level (T.parent i)) else nw

def AMTree.filterMin (T : AMTree) (lam : ℚ) : Nat → Nat := T.pass (T.minStep lam)
def AMTree.filterDirect (T : AMTree) (lam : ℚ) : Nat → Nat := T.pass (T.directStep lam)
def AMTree.filterSub (T : AMTree) (lam : ℚ) : Nat → Nat := T.pass (T.subStep lam)
/-- `MaxTreeFilterMax`, lines 656-685. -/
def AMTree.filterMax (T : AMTree) (lam : ℚ) : Nat → Nat := T.orderDown.foldl T.maxStep (T.filterDirect lam)

/-- The last loop of the four filters, lines 620-625: the pixels of the result. -/
def AMTree.output (T : AMTree) (nw : Nat → Nat) (status pix : Nat → Nat) (i : Nat) : Nat := nw (T.below (pix i) + status i)

/-! ### Trees -/

/-- The nodes. -/
def AMTree.Node (T : AMTree) (n : Nat) : Prop := ∃ l < 256, ∃ i < T.cnt l, n = T.below l + i

/-- The tree is one: the nodes of a level have this level and come before those of the next one, and the parent of a node is at a lower level; a root is its own parent. -/
structure AMTree.OK (T : AMTree) : Prop where
  lev : ∀ l < 256, ∀ i < T.cnt l, T.level (T.below l + i) = l
  sep : ∀ l, T.below l + T.cnt l ≤ T.below (l + 1)
  par : ∀ n, T.Node n → T.parent n = n ∨ T.Node (T.parent n) ∧ T.level (T.parent n) < T.level n

theorem AMTree.mem_order {T : AMTree} {n : Nat} : n ∈ T.order ↔ T.Node n := by
  unfold AMTree.order AMTree.Node
  simp only [List.mem_flatMap, List.mem_range, List.mem_map]
  exact ⟨fun ⟨l, h1, i, h2, h3⟩ => ⟨l, h1, i, h2, h3.symm⟩, fun ⟨l, h1, i, h2, h3⟩ => ⟨l, h1, i, h2, h3.symm⟩⟩

theorem AMTree.mem_orderDown {T : AMTree} {n : Nat} : n ∈ T.orderDown ↔ ∃ l < 255, ∃ i < T.cnt (l + 1), n = T.below (l + 1) + i := by
  unfold AMTree.orderDown
  simp only [List.mem_flatMap, List.mem_range, List.mem_map, List.mem_reverse]
  exact ⟨fun ⟨l, h1, i, h2, h3⟩ => ⟨l, h1, i, h2, h3.symm⟩, fun ⟨l, h1, i, h2, h3⟩ => ⟨l, h1, i, h2, h3.symm⟩⟩

theorem AMTree.OK.below_le {T : AMTree} (h : T.OK) {l m : Nat} (hlm : l < m) : T.below l + T.cnt l ≤ T.below m := by
  induction m with
  | zero => omega
  | succ m ih =>
    have h1 := h.sep m
    by_cases e : l = m
    · rw [e]; exact h1
    · have := ih (by omega)
      omega

theorem AMTree.OK.level_lt {T : AMTree} (h : T.OK) {n : Nat} (hn : T.Node n) : T.level n < 256 := by
  obtain ⟨l, hl, i, hi, rfl⟩ := hn
  rw [h.lev l hl i hi]
  exact hl

theorem AMTree.OK.lt_of_level {T : AMTree} (h : T.OK) {m n : Nat} (hm : T.Node m) (hn : T.Node n) (hl : T.level m < T.level n) : m < n := by
  obtain ⟨l, h1, i, h2, rfl⟩ := hm
  obtain ⟨k, h3, j, h4, rfl⟩ := hn
  rw [h.lev l h1 i h2, h.lev k h3 j h4] at hl
  have := h.below_le hl
  omega

theorem AMTree.OK.order_lt {T : AMTree} (h : T.OK) : T.order.Pairwise (· < ·) := by
  unfold AMTree.order
  rw [List.pairwise_flatMap]
  refine ⟨fun l _ => ?_, ?_⟩
  · rw [List.pairwise_map]
    exact List.pairwise_lt_range.imp fun hab => by omega
  · refine List.pairwise_lt_range.imp fun hab x hx y hy => ?_
    rw [List.mem_map] at hx hy
    obtain ⟨i, hi, rfl⟩ := hx
    obtain ⟨j, hj, rfl⟩ := hy
    rw [List.mem_range] at hi hj
    have := h.below_le hab
    omega

/-- An increasing list, and a step that reads only at smaller numbers or is applied to its own old value: the result is a solution of the recursion. -/
theorem foldl_update_eq (step : (Nat → Nat) → Nat → Nat) : ∀ (L : List Nat) (nw : Nat → Nat), L.Pairwise (· < ·) →
    (∀ n, n ∉ L → L.foldl (fun nw i => Function.update nw i (step nw i)) nw n = nw n) := by
  intro L
  induction L with
  | nil => intro nw _ n _; rfl
  | cons a L ih =>
    intro nw hL n hn
    rw [List.foldl_cons, ih _ (List.pairwise_cons.mp hL).2 n (fun h => hn (List.mem_cons_of_mem _ h)), Function.update_of_ne (fun h => hn (by rw [h]; exact List.mem_cons_self))]

theorem AMTree.pass_eq {T : AMTree} (h : T.OK) (step : (Nat → Nat) → Nat → Nat) {n : Nat} (hn : T.Node n) :
    ∃ nw : Nat → Nat, T.pass step n = step nw n ∧ nw n = 0 ∧ (∀ m, T.Node m → m < n → nw m = T.pass step m) := by
  have hp := h.order_lt
  obtain ⟨L1, L2, e⟩ := List.append_of_mem (AMTree.mem_order.mpr hn)
  have hp' := hp
  rw [e, List.pairwise_append, List.pairwise_cons] at hp'
  obtain ⟨p1, ⟨p2, p3⟩, p4⟩ := hp'
  have n1 : n ∉ L1 := fun hh => absurd (p4 n hh n List.mem_cons_self) (lt_irrefl n)
  have n2 : n ∉ L2 := fun hh => absurd (p2 n hh) (lt_irrefl n)
  refine ⟨L1.foldl (fun nw i => Function.update nw i (step nw i)) fun _ => 0, ?_, ?_, ?_⟩
  · unfold AMTree.pass
    rw [e, List.foldl_append, List.foldl_cons, foldl_update_eq step L2 _ p3 n n2, Function.update_self]
  · rw [foldl_update_eq step L1 _ p1 n n1]
  · intro m hm hmn
    have m2 : m ∉ L2 := fun hh => by have := p2 m hh; omega
    unfold AMTree.pass
    rw [e, List.foldl_append, List.foldl_cons, foldl_update_eq step L2 _ p3 m m2, Function.update_of_ne (by omega)]

end Smil
