import Verif.StrEltLemmas
import Mathlib.Data.Finset.Prod
import Mathlib.Data.Int.Interval
import Mathlib.Order.Interval.Finset.Nat
import Mathlib.Algebra.Order.Group.Int

/-!
# Properties of structuring elements (C22, C23, C24)

The specification is geometric: on the square grid a point is its coordinate vector; on the
hexagonal grid the odd lines are drawn half a pixel to the right, so the abscissa of a
displacement starting on an even line is `2x + [y odd]` half pixels.
-/

namespace Smil
open StrElt

/-- Position in half pixels of the pixel reached from the origin by the displacement `p`. -/
def phys (odd : Bool) (p : IntPoint) : Int × Int × Int :=
  (2 * p.x + (if odd = true ∧ p.y % 2 = 1 then 1 else 0), p.y, p.z)

/-- Vector sum of the physical displacements of a list of points. -/
def physSum (odd : Bool) (l : List IntPoint) : Int × Int × Int :=
  ((l.map fun p => (phys odd p).1).sum, (l.map fun p => (phys odd p).2.1).sum,
   (l.map fun p => (phys odd p).2.2).sum)

theorem phys_inj (odd : Bool) (p q : IntPoint) (h : phys odd p = phys odd q) : p = q := by
  cases p with | mk x y z => cases q with | mk x' y' z' =>
  simp only [phys, Prod.mk.injEq] at h
  obtain ⟨h1, h2, h3⟩ := h
  subst h2; subst h3
  have : x = x' := by split at h1 <;> omega
  subst this; rfl

/-- Every element reachable by user edits from an empty element. -/
inductive SEReach : StrElt → Prop where
  | init (odd : Bool) (s : Nat) : SEReach ⟨odd, .generic, s, []⟩
  | step (se se' : StrElt) (op : SEOp) : SEReach se → op.exec se = some se' → SEReach se'

/-- C22: whatever edits are made, an element never holds a point twice. -/
theorem C22_nodup (se : StrElt) (h : SEReach se) : se.points.Nodup := by
  induction h with
  | init => simp
  | step se se' op _ he ih =>
    cases op with
    | addPt p =>
      simp only [SEOp.exec, Option.some.injEq] at he; subst he
      exact nodup_addPoint _ _ ih
    | addIdx i =>
      simp only [SEOp.exec, addIndex, Option.map_eq_some_iff] at he
      obtain ⟨p, _, rfl⟩ := he
      exact nodup_addPoint _ _ ih
    | transpose =>
      simp only [SEOp.exec, Option.some.injEq] at he; subst he
      exact nodup_addPoints _ _ (by simp)
    | noCenter =>
      simp only [SEOp.exec, Option.some.injEq] at he; subst he
      exact nodup_addPoints _ _ (by simp)
    | homothety s =>
      simp only [SEOp.exec, Option.some.injEq] at he; subst he
      exact iterate_nodup _ _ _ ih
    | resize s =>
      simp only [SEOp.exec, Option.some.injEq] at he; subst he
      exact ih

example : ∃ se, SEReach se ∧ se.points = [⟨1, 0, 0⟩, ⟨0, 0, 0⟩] := by
  refine ⟨_, .step _ _ (.addIdx 1) (.step _ _ (.addIdx 0) (.step _ _ (.addIdx 1)
    (.init false 1) rfl) rfl) rfl, by decide⟩

/-- C22: adding the points of a list (for instance those of another element) gives the union
and changes nothing else. -/
theorem C22_union (se : StrElt) (l : List IntPoint) :
    (∀ p, p ∈ (se.addPoints l).points ↔ p ∈ se.points ∨ p ∈ l) ∧
    (se.addPoints l).odd = se.odd ∧ (se.addPoints l).seT = se.seT ∧
    (se.addPoints l).size = se.size :=
  ⟨mem_addPoints l se, addPoints_odd l se, addPoints_seT l se, addPoints_size l se⟩

/-- C22: an index adds the indexed neighbour; an index outside the table of the grid is an
out-of-bounds read. -/
theorem C22_addIndex (se : StrElt) (i : Nat) :
    (se.addIndex i = none ↔ (if se.odd then 7 else 27) ≤ i) ∧
    ∀ se', se.addIndex i = some se' → ∃ q, (if se.odd then hexIndices[i]? else squIndices[i]?) =
      some q ∧ ∀ p, p ∈ se'.points ↔ p ∈ se.points ∨ p = q := by
  have h7 : hexIndices.length = 7 := by decide
  have h27 : squIndices.length = 27 := by decide
  constructor
  · unfold addIndex
    rw [Option.map_eq_none_iff]
    split <;> rw [List.getElem?_eq_none_iff] <;> omega
  · intro se' h
    unfold addIndex at h
    rw [Option.map_eq_some_iff] at h
    obtain ⟨q, hq, rfl⟩ := h
    exact ⟨q, hq, mem_addPoint se q⟩

example : (mk0 1).addIndex 27 = none ∧ (mk0 1).addIndex 26 ≠ none := by decide

theorem transpose_mem (se : StrElt) (p : IntPoint) :
    p ∈ se.transpose.points ↔ transposePt se.odd p ∈ se.points := by
  unfold transpose
  rw [mem_addPoints]
  simp only [List.not_mem_nil, false_or, List.mem_map]
  constructor
  · rintro ⟨q, hq, rfl⟩; rwa [transposePt_invol]
  · intro h; exact ⟨_, h, transposePt_invol _ _⟩

theorem phys_transposePt (odd : Bool) (p : IntPoint) :
    phys odd (transposePt odd p) = -(phys odd p) := by
  have := cOdd_iff p.y
  unfold phys transposePt
  cases odd
  · simp [mul_comm]
  · by_cases h : p.y % 2 = 1
    · have h' : cOdd p.y = true := this.mpr h
      have h2 : (-p.y) % 2 = 1 := by omega
      simp [h', h, h2]; ring
    · have h' : cOdd p.y = false := by
        cases hc : cOdd p.y
        · rfl
        · exact absurd (this.mp hc) h
      have h2 : ¬ (-p.y) % 2 = 1 := by omega
      simp [h', h]

/-- C22: `transpose` is the central symmetry: the transposed element contains exactly the points
whose physical displacement is the opposite of one of the element, keeps grid, type and size,
and transposing twice gives back the same set; on an element without duplicates it is the same
list. -/
theorem C22_transpose (se : StrElt) :
    (∀ p, p ∈ se.transpose.points ↔ ∃ q ∈ se.points, phys se.odd p = -(phys se.odd q)) ∧
    (∀ p, p ∈ se.transpose.transpose.points ↔ p ∈ se.points) ∧
    se.transpose.odd = se.odd ∧ se.transpose.seT = se.seT ∧ se.transpose.size = se.size ∧
    (se.points.Nodup → se.transpose.transpose = se) := by
  have hodd : se.transpose.odd = se.odd := addPoints_odd _ _
  refine ⟨?_, ?_, hodd, addPoints_seT _ _, addPoints_size _ _, ?_⟩
  · intro p
    rw [transpose_mem]
    constructor
    · intro h
      exact ⟨_, h, by rw [phys_transposePt]; simp⟩
    · rintro ⟨q, hq, h⟩
      have : transposePt se.odd p = q := by
        apply phys_inj se.odd
        rw [phys_transposePt, h]; simp
      rwa [this]
  · intro p
    rw [transpose_mem, transpose_mem, hodd, transposePt_invol]
  · intro hn
    have hinj : Function.Injective (transposePt se.odd) := fun a b h => by
      rw [← transposePt_invol se.odd a, h, transposePt_invol]
    have h1 : se.transpose = ⟨se.odd, se.seT, se.size, se.points.map (transposePt se.odd)⟩ := by
      unfold transpose
      rw [addPoints_append _ _ (hn.map hinj) (by simp)]; simp
    rw [h1]
    unfold transpose
    rw [addPoints_append]
    · simp only [List.map_map, List.nil_append]
      have : (transposePt se.odd ∘ transposePt se.odd) = id := by
        funext p; exact transposePt_invol _ _
      rw [this]; simp
    · exact (hn.map hinj).map hinj
    · simp

example : (HexSE 2).transpose ≠ HexSE 2 ∧ (HexSE 2).transpose.transpose = HexSE 2 := by decide

/-- C22: `noCenter` removes exactly the origin. -/
theorem C22_noCenter (se : StrElt) :
    (∀ p, p ∈ se.noCenter.points ↔ p ∈ se.points ∧ p ≠ ⟨0, 0, 0⟩) ∧
    se.noCenter.odd = se.odd ∧ se.noCenter.seT = se.seT ∧ se.noCenter.size = se.size := by
  refine ⟨?_, addPoints_odd _ _, addPoints_seT _ _, addPoints_size _ _⟩
  intro p
  unfold noCenter
  rw [mem_addPoints]
  cases p with | mk x y z =>
  simp only [List.not_mem_nil, false_or, List.mem_filter, ne_eq, IntPoint.mk.injEq,
    Bool.or_eq_true, bne_iff_ne]
  constructor
  · rintro ⟨h, h2⟩; exact ⟨h, by tauto⟩
  · rintro ⟨h, h2⟩; exact ⟨h, by tauto⟩

example : (SquSE 1).noCenter.points = (SquSE0 1).points := by decide

/-- Central symmetry of an element, in physical coordinates. -/
def SymmetricSE (se : StrElt) : Prop :=
  ∀ p ∈ se.points, ∃ q ∈ se.points, phys se.odd q = -(phys se.odd p)

/-- C22: the built-in shapes are symmetric, hold no duplicate, and have the advertised number of
points. -/
theorem C22_builtin (s : Nat) : ∀ c ∈ [(SquSE s, 9), (SquSE0 s, 8), (HexSE s, 7), (HexSE0 s, 6),
      (CrossSE s, 5), (HorizSE s, 3), (VertSE s, 3), (CubeSE s, 27), (Cross3DSE s, 7),
      (RhombicuboctahedronSE s, 81)],
    SymmetricSE c.1 ∧ c.1.points.Nodup ∧ c.1.points.length = c.2 ∧ c.1.size = s := by
  have key : ∀ se : StrElt, (∀ p ∈ se.points, transposePt se.odd p ∈ se.points) →
      SymmetricSE se := by
    intro se h p hp
    exact ⟨_, h p hp, phys_transposePt _ _⟩
  have pts : ∀ (l : List IntPoint) (a b : StrElt), a.points = b.points →
      (addPoints a l).points = (addPoints b l).points := by
    intro l
    induction l with
    | nil => exact fun a b h => h
    | cons p l ih =>
      intro a b h
      rw [addPoints_cons, addPoints_cons]
      refine ih _ _ ?_
      unfold addPoint
      rw [h]
      split <;> simp [h]
  have red : ∀ (se se1 : StrElt) (n : Nat), se.points = se1.points → se.odd = se1.odd →
      se.size = s →
      ((∀ p ∈ se1.points, transposePt se1.odd p ∈ se1.points) ∧ se1.points.Nodup ∧
        se1.points.length = n) →
      SymmetricSE se ∧ se.points.Nodup ∧ se.points.length = n ∧ se.size = s := by
    intro se se1 n h1 h2 h3 ⟨h4, h5, h6⟩
    refine ⟨key se (by rw [h1, h2]; exact h4), by rw [h1]; exact h5, by rw [h1]; exact h6, h3⟩
  intro c hc
  simp only [List.mem_cons, List.not_mem_nil, or_false] at hc
  rcases hc with h | h | h | h | h | h | h | h | h | h <;> subst h
  · exact red _ (SquSE 1) 9 rfl rfl rfl (by decide +kernel)
  · exact red _ (SquSE0 1) 8 rfl rfl rfl (by decide +kernel)
  · exact red _ (HexSE 1) 7 rfl rfl rfl (by decide +kernel)
  · exact red _ (HexSE0 1) 6 rfl rfl rfl (by decide +kernel)
  · exact red _ (CrossSE 1) 5 rfl rfl rfl (by decide +kernel)
  · exact red _ (HorizSE 1) 3 rfl rfl rfl (by decide +kernel)
  · exact red _ (VertSE 1) 3 rfl rfl rfl (by decide +kernel)
  · exact red _ (CubeSE 1) 27 (by unfold CubeSE; dsimp only; exact pts _ _ _ rfl)
      (by unfold CubeSE; simp only [addPoints_odd]; rfl)
      (by unfold CubeSE; simp only [addPoints_size]; rfl) (by decide +kernel)
  · exact red _ (Cross3DSE 1) 7 (by unfold Cross3DSE; dsimp only; exact pts _ _ _ rfl)
     
      (by unfold Cross3DSE; simp only [addPoints_odd]; rfl)
      (by unfold Cross3DSE; simp only [addPoints_size]; rfl) (by decide +kernel)
  · exact red _ (RhombicuboctahedronSE 1) 81 (by unfold RhombicuboctahedronSE; dsimp only; exact pts _ _ _ rfl)
     
      (by unfold RhombicuboctahedronSE; simp only [addPoints_odd]; rfl)
      (by unfold RhombicuboctahedronSE; simp only [addPoints_size]; rfl) (by decide +kernel)

end Smil
