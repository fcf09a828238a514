import Verif.PropsStrElt
import Mathlib.Dynamics.PeriodicPts.Defs

/-!
# Rotations of composite structuring elements (C24)

The specification is geometric: one step on the square grid is the eighth of a turn on the ring of
the eight neighbours; one step on the hexagonal grid is the rotation of 60 degrees.
-/

namespace Smil
open StrElt

/-- One eighth of a turn counterclockwise (the `y` axis points down) on the ring of the unit
square. -/
def rot8 (p : IntPoint) : IntPoint := ⟨(p.x + p.y).sign, (p.y - p.x).sign, 0⟩

/-- Rotation of 60 degrees counterclockwise in physical (half pixel) coordinates. -/
def rot60 (v : Int × Int × Int) : Int × Int × Int := ((v.1 + 3 * v.2.1) / 2, (v.2.1 - v.1) / 2, 0)

/-- The points on which composite elements are built: the origin and its neighbours. -/
def unitNeighbours (odd : Bool) : List IntPoint := if odd then hexIndices else squPlane 0

theorem rotatePoint_mod_squ (p : IntPoint) (hp : p ∈ squPlane 0) (n : Nat) :
    rotatePoint p n false = rotatePoint p ((n % 8 : Nat) : Int) false := by
  have key : ∀ i : Nat, ((i : Int) + n).tmod 8 = ((i : Int) + ((n % 8 : Nat) : Int)).tmod 8 := by
    intro i
    rw [Int.tmod_eq_emod_of_nonneg (by omega), Int.tmod_eq_emod_of_nonneg (by omega)]
    omega
  have e : ∀ q ∈ squPlane 0, ∃ i : Nat, i < 9 ∧ getSEPointIndice q false = some i := by decide
  obtain ⟨i, hi, h⟩ := e p hp
  unfold rotatePoint
  simp only [h]
  by_cases hz : (i : Int) = 0
  · simp [hz]
  · have hk := key (i - 1)
    have : ((i - 1 : Nat) : Int) = (i : Int) - 1 := by omega
    rw [this] at hk
    simp only [hz, if_false, hk, if_true, Bool.false_eq_true]

theorem rotatePoint_mod_hex (p : IntPoint) (hp : p ∈ hexIndices) (n : Nat) :
    rotatePoint p n true = rotatePoint p ((n % 6 : Nat) : Int) true := by
  have key : ∀ i : Nat, ((i : Int) + n).tmod 6 = ((i : Int) + ((n % 6 : Nat) : Int)).tmod 6 := by
    intro i
    rw [Int.tmod_eq_emod_of_nonneg (by omega), Int.tmod_eq_emod_of_nonneg (by omega)]
    omega
  have e : ∀ q ∈ hexIndices, ∃ i : Nat, i < 7 ∧ getSEPointIndice q true = some i := by decide
  obtain ⟨i, hi, h⟩ := e p hp
  unfold rotatePoint
  simp only [h]
  by_cases hz : (i : Int) = 0
  · simp [hz]
  · have hk := key (i - 1)
    have : ((i - 1 : Nat) : Int) = (i : Int) - 1 := by omega
    rw [this] at hk
    simp only [hz, if_false, hk, if_true, Bool.false_eq_true]

/-- C24: on the square grid, rotating a neighbour by any non-negative number of steps never reads
outside the tables and turns it that many eighths of a turn. -/
theorem C24_point_square (p : IntPoint) (hp : p ∈ unitNeighbours false) (n : Nat) :
    rotatePoint p n false = some (rot8^[n] p) := by
  have hp' : p ∈ squPlane 0 := hp
  rw [rotatePoint_mod_squ p hp']
  have per : ∀ q ∈ squPlane 0, Function.IsPeriodicPt rot8 8 q := by
    have : ∀ q ∈ squPlane 0, rot8^[8] q = q := by decide +kernel
    exact this
  rw [← (per p hp').iterate_mod_apply n]
  have hlt : n % 8 < 8 := Nat.mod_lt _ (by omega)
  generalize n % 8 = r at hlt
  have : ∀ q ∈ squPlane 0, ∀ r < 8, rotatePoint q (r : Nat) false = some (rot8^[r] q) := by
    decide +kernel
  exact this p hp' r hlt

/-- C24: on the hexagonal grid, it turns it that many times 60 degrees. -/
theorem C24_point_hex (p : IntPoint) (hp : p ∈ unitNeighbours true) (n : Nat) :
    ∃ q ∈ unitNeighbours true, rotatePoint p n true = some q ∧
      phys true q = rot60^[n] (phys true p) := by
  have hp' : p ∈ hexIndices := hp
  rw [rotatePoint_mod_hex p hp']
  have per : ∀ q ∈ hexIndices, Function.IsPeriodicPt rot60 6 (phys true q) := by
    have : ∀ q ∈ hexIndices, rot60^[6] (phys true q) = phys true q := by decide +kernel
    exact this
  rw [← (per p hp').iterate_mod_apply n]
  have hlt : n % 6 < 6 := Nat.mod_lt _ (by omega)
  generalize n % 6 = r at hlt
  have : ∀ q ∈ hexIndices, ∀ r < 6, ∃ q' ∈ hexIndices, rotatePoint q (r : Nat) true = some q' ∧
      phys true q' = rot60^[r] (phys true q) := by
    decide +kernel
  exact this p hp' r hlt

example : rotatePoint ⟨1, 0, 0⟩ 11 false = some ⟨-1, -1, 0⟩ ∧
    rotatePoint ⟨1, 0, 0⟩ 8 true = some ⟨-1, -1, 0⟩ := by decide

/-- A composite element made of unit neighbours of the grid of its foreground. -/
def UnitComp (c : CompStrElt) : Prop :=
  (∀ p ∈ c.fg.points, p ∈ unitNeighbours c.fg.odd) ∧
  (∀ p ∈ c.bg.points, p ∈ unitNeighbours c.fg.odd)

theorem rotatePoint_unit (odd : Bool) (p : IntPoint) (hp : p ∈ unitNeighbours odd) (n : Nat) :
    ∃ q ∈ unitNeighbours odd, rotatePoint p n odd = some q := by
  cases odd
  · have hp' : p ∈ squPlane 0 := hp
    rw [rotatePoint_mod_squ p hp']
    have hlt : n % 8 < 8 := Nat.mod_lt _ (by omega)
    generalize n % 8 = r at hlt
    have : ∀ q ∈ squPlane 0, ∀ r < 8, ∃ q' ∈ squPlane 0,
        rotatePoint q (r : Nat) false = some q' := by decide +kernel
    exact this p hp' r hlt
  · obtain ⟨q, h1, h2, _⟩ := C24_point_hex p hp n
    exact ⟨q, h1, h2⟩

theorem rotatePoint_add (odd : Bool) (p : IntPoint) (hp : p ∈ unitNeighbours odd) (a b : Nat) :
    (rotatePoint p a odd).bind (fun q => rotatePoint q b odd) =
      rotatePoint p ((a + b : Nat) : Int) odd := by
  cases odd
  · obtain ⟨q, hq, h⟩ := rotatePoint_unit false p hp a
    rw [h, Option.bind_some, C24_point_square q hq, C24_point_square p hp]
    rw [C24_point_square p hp, Option.some.injEq] at h
    rw [← h, ← Function.iterate_add_apply, add_comm]
  · obtain ⟨q, hq, h, hph⟩ := C24_point_hex p hp a
    rw [h, Option.bind_some]
    obtain ⟨r, hr, h', hph'⟩ := C24_point_hex q hq b
    obtain ⟨r2, hr2, h2', hph2'⟩ := C24_point_hex p hp (a + b)
    rw [h', h2']
    congr 1
    apply phys_inj true
    rw [hph', hph2', hph, ← Function.iterate_add_apply, add_comm]

theorem rotatePoint_full (odd : Bool) (p : IntPoint) (hp : p ∈ unitNeighbours odd) (k : Nat) :
    rotatePoint p (((if odd then 6 else 8) * k : Nat) : Int) odd = some p := by
  cases odd
  · have hp' : p ∈ squPlane 0 := hp
    rw [rotatePoint_mod_squ p hp']
    simp only [Bool.false_eq_true, if_false, Nat.mul_mod_right]
    have : ∀ q ∈ squPlane 0, rotatePoint q (0 : Nat) false = some q := by decide
    exact this p hp'
  · have hp' : p ∈ hexIndices := hp
    rw [rotatePoint_mod_hex p hp']
    simp only [if_true, Nat.mul_mod_right]
    have : ∀ q ∈ hexIndices, rotatePoint q (0 : Nat) true = some q := by decide
    exact this p hp'

theorem mapM_unit (odd : Bool) (l : List IntPoint) (hl : ∀ p ∈ l, p ∈ unitNeighbours odd)
    (a : Nat) : ∃ m, (l.mapM fun p => rotatePoint p a odd) = some m ∧
      (∀ p ∈ m, p ∈ unitNeighbours odd) ∧ ∀ b : Nat,
      (m.mapM fun p => rotatePoint p b odd) =
        l.mapM fun p => rotatePoint p ((a + b : Nat) : Int) odd := by
  induction l with
  | nil => exact ⟨[], rfl, by simp, fun b => rfl⟩
  | cons p l ih =>
    obtain ⟨m, h1, h2, h3⟩ := ih fun q hq => hl q (by simp [hq])
    obtain ⟨q, hq, hpq⟩ := rotatePoint_unit odd p (hl p (by simp)) a
    refine ⟨q :: m, by simp [hpq, h1], ?_, ?_⟩
    · intro r hr
      rcases List.mem_cons.mp hr with rfl | hr
      · exact hq
      · exact h2 r hr
    · intro b
      have := rotatePoint_add odd p (hl p (by simp)) a b
      rw [hpq, Option.bind_some] at this
      rw [List.mapM_cons, List.mapM_cons, h3 b, this]

theorem mapM_full (odd : Bool) (l : List IntPoint) (hl : ∀ p ∈ l, p ∈ unitNeighbours odd)
    (k : Nat) :
    (l.mapM fun p => rotatePoint p (((if odd then 6 else 8) * k : Nat) : Int) odd) = some l := by
  induction l with
  | nil => rfl
  | cons p l ih =>
    rw [List.mapM_cons, rotatePoint_full odd p (hl p (by simp)),
      ih fun q hq => hl q (by simp [hq])]
    rfl

/-- C24: on composite elements made of unit neighbours, rotation by non-negative steps is a group
action: it never fails, `a` then `b` steps are `a + b` steps, and any number of full turns is the
identity. -/
theorem C24_action (c : CompStrElt) (hc : UnitComp c) (a b k : Nat) :
    (∃ c', c.rotate a = some c' ∧ UnitComp c' ∧ c'.fg.odd = c.fg.odd ∧ c'.bg.odd = c.bg.odd) ∧
    (c.rotate a).bind (fun c' => c'.rotate b) = c.rotate ((a + b : Nat) : Int) ∧
    c.rotate (((if c.fg.odd then 6 else 8) * k : Nat) : Int) = some c := by
  obtain ⟨mf, f1, f2, f3⟩ := mapM_unit c.fg.odd c.fg.points hc.1 a
  obtain ⟨mb, b1, b2, b3⟩ := mapM_unit c.fg.odd c.bg.points hc.2 a
  refine ⟨⟨⟨{ c.fg with points := mf }, { c.bg with points := mb }⟩, ?_, ⟨f2, b2⟩, rfl, rfl⟩, ?_, ?_⟩
  · unfold CompStrElt.rotate
    rw [f1, b1]; rfl
  · have f3' := f3 b
    have b3' := b3 b
    unfold CompStrElt.rotate
    rw [f1, b1]
    simp only [Option.bind_some]
    rw [f3', b3']
  · unfold CompStrElt.rotate
    rw [mapM_full _ _ hc.1, mapM_full _ _ hc.2]; rfl

example : UnitComp ⟨(SquSE0 1), (SquSE 1)⟩ ∧ UnitComp ⟨(HexSE0 1), (HexSE 1)⟩ := by
  constructor <;> constructor <;> decide

/-- C24: the list of `nrot` rotations contains exactly the element turned `k * (8 / nrot)` steps
(`6 / nrot` on the hexagonal grid), in this order. -/
theorem C24_list (c : CompStrElt) (hc : UnitComp c) (nrot : Nat) (hn : nrot ≠ 0)
    (l : List CompStrElt) :
    ∃ r, c.addRot l nrot = some (l ++ r) ∧ r.length = nrot ∧ ∀ k (hk : k < r.length),
      c.rotate ((k * ((if c.fg.odd then 6 else 8) / nrot) : Nat) : Int) = some r[k] := by
  have h0 : c.rotate ((0 : Nat) : Int) = some c := by
    have := (C24_action c hc 0 0 0).2.2
    simpa using this
  have main : ∀ (st n : Nat) (c : CompStrElt), UnitComp c → ∃ r,
      c.rotations (st : Int) n = some r ∧ r.length = n ∧ ∀ k (hk : k < r.length),
        c.rotate (((k + 1) * st : Nat) : Int) = some r[k] := by
    intro st n
    induction n with
    | zero => exact fun c hc => ⟨[], rfl, rfl, fun k hk => absurd hk (by simp)⟩
    | succ n ih =>
      intro c hc
      obtain ⟨⟨c', h1, h2, h3, h4⟩, _, _⟩ := C24_action c hc st 0 0
      obtain ⟨r, g1, g2, g3⟩ := ih c' h2
      refine ⟨c' :: r, ?_, by simp [g2], ?_⟩
      · simp only [CompStrElt.rotations, h1, Option.bind_some, g1, Option.map_some]
      · intro k hk
        cases k with
        | zero => simpa using h1
        | succ k =>
          have hk' : k < r.length := by simpa using hk
          have := (C24_action c hc st ((k + 1) * st) 0).2.1
          rw [h1, Option.bind_some, g3 k hk'] at this
          simp only [List.getElem_cons_succ]
          rw [this]
          congr 2
          ring
  unfold CompStrElt.addRot
  rw [if_neg hn]
  obtain ⟨r, g1, g2, g3⟩ := main ((if c.fg.odd then 6 else 8) / nrot) (nrot - 1) c hc
  refine ⟨c :: r, by rw [g1]; rfl, by simp [g2]; omega, ?_⟩
  intro k hk
  cases k with
  | zero => simpa using h0
  | succ k => simpa using g3 k (by simpa using hk)

example : ∃ r, CompStrElt.addRot [] ⟨(⟨false, .generic, 1, [⟨1, 0, 0⟩]⟩ : StrElt),
    (⟨false, .generic, 1, [⟨-1, 0, 0⟩]⟩ : StrElt)⟩ 4 = some r ∧
    (r.map fun c => c.fg.points) = [[⟨1, 0, 0⟩], [⟨0, -1, 0⟩], [⟨-1, 0, 0⟩], [⟨0, 1, 0⟩]] := by
  refine ⟨_, rfl, by decide⟩

/-- C24: `nrot = 0` divides by zero. -/
theorem C24_nrot_zero_bug (l : List CompStrElt) (c : CompStrElt) : c.addRot l 0 = none := rfl

/-- C24: complementing twice is the identity, and complementing commutes with rotation when both
parts live on the same grid. -/
theorem C24_compl (c : CompStrElt) (n : Int) (h : c.fg.odd = c.bg.odd) :
    c.compl.compl = c ∧ (c.compl.rotate n) = (c.rotate n).map CompStrElt.compl := by
  refine ⟨rfl, ?_⟩
  unfold CompStrElt.rotate CompStrElt.compl
  simp only
  rw [h]
  cases (c.fg.points.mapM fun p => rotatePoint p n c.bg.odd) <;>
    cases (c.bg.points.mapM fun p => rotatePoint p n c.bg.odd) <;> rfl

/-- C24 fails for negative steps: one step back sends the right neighbour to the origin instead of
the lower right neighbour, and two steps back read before the table. -/
theorem C24_negative_bug :
    rotatePoint ⟨1, 0, 0⟩ (-1) false = some ⟨0, 0, 0⟩ ∧ rot8^[7] ⟨1, 0, 0⟩ = ⟨1, 1, 0⟩ ∧
    rotatePoint ⟨1, 0, 0⟩ (-2) false = none ∧
    ((rotatePoint ⟨1, 0, 0⟩ (-1) false).bind fun q => rotatePoint q 1 false) ≠
      rotatePoint ⟨1, 0, 0⟩ 0 false := by decide

/-- `HMT_hS2`, DCompositeSE.h:327-335: the background is built on the square grid. -/
def HMT_hS2 : Option CompStrElt :=
  (ofIndices true [2, 4, 5, 6]).bind fun fg => (ofIndices false [0, 1, 3]).map fun bg => ⟨fg, bg⟩

/-- The couple `HMT_hS2` is not disjoint: the point `(0,-1)` is required both in the foreground
and in the background, whereas with the indices of the hexagonal grid it would be disjoint. -/
theorem C24_hS2_bug : ∃ c, HMT_hS2 = some c ∧ (⟨0, -1, 0⟩ : IntPoint) ∈ c.fg.points ∧
    (⟨0, -1, 0⟩ : IntPoint) ∈ c.bg.points := ⟨_, rfl, by decide, by decide⟩

end Smil
