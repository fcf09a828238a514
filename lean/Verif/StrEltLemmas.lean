import Verif.StrElt
import Mathlib.Data.List.Nodup
import Mathlib.Tactic.Ring

/-! # Lemmas on structuring elements -/

namespace Smil
namespace StrElt

theorem mem_addPoint (se : StrElt) (p q : IntPoint) :
    q ∈ (se.addPoint p).points ↔ q ∈ se.points ∨ q = p := by
  unfold addPoint
  split
  · constructor
    · exact Or.inl
    · rintro (h | rfl) <;> assumption
  · simp

theorem addPoint_odd (se : StrElt) (p : IntPoint) : (se.addPoint p).odd = se.odd := by
  unfold addPoint; split <;> rfl

theorem addPoint_seT (se : StrElt) (p : IntPoint) : (se.addPoint p).seT = se.seT := by
  unfold addPoint; split <;> rfl

theorem addPoint_size (se : StrElt) (p : IntPoint) : (se.addPoint p).size = se.size := by
  unfold addPoint; split <;> rfl

theorem nodup_addPoint (se : StrElt) (p : IntPoint) (h : se.points.Nodup) :
    (se.addPoint p).points.Nodup := by
  unfold addPoint
  split
  · exact h
  · rename_i hp
    refine List.Nodup.append h (by simp) ?_
    simpa using hp

theorem addPoints_cons (se : StrElt) (p : IntPoint) (l : List IntPoint) :
    se.addPoints (p :: l) = (se.addPoint p).addPoints l := rfl

theorem mem_addPoints (l : List IntPoint) (se : StrElt) (q : IntPoint) :
    q ∈ (se.addPoints l).points ↔ q ∈ se.points ∨ q ∈ l := by
  induction l generalizing se with
  | nil => simp [addPoints]
  | cons p l ih => rw [addPoints_cons, ih, mem_addPoint]; simp [or_assoc]

theorem addPoints_odd (l : List IntPoint) (se : StrElt) : (se.addPoints l).odd = se.odd := by
  induction l generalizing se with
  | nil => rfl
  | cons p l ih => rw [addPoints_cons, ih, addPoint_odd]

theorem addPoints_seT (l : List IntPoint) (se : StrElt) : (se.addPoints l).seT = se.seT := by
  induction l generalizing se with
  | nil => rfl
  | cons p l ih => rw [addPoints_cons, ih, addPoint_seT]

theorem addPoints_size (l : List IntPoint) (se : StrElt) : (se.addPoints l).size = se.size := by
  induction l generalizing se with
  | nil => rfl
  | cons p l ih => rw [addPoints_cons, ih, addPoint_size]

theorem nodup_addPoints (l : List IntPoint) (se : StrElt) (h : se.points.Nodup) :
    (se.addPoints l).points.Nodup := by
  induction l generalizing se with
  | nil => exact h
  | cons p l ih => rw [addPoints_cons]; exact ih _ (nodup_addPoint _ _ h)

/-- Adding the points of a list without duplicates, none of them present, appends the list. -/
theorem addPoints_append (l : List IntPoint) (se : StrElt) (hl : l.Nodup)
    (hd : ∀ p ∈ l, p ∉ se.points) : se.addPoints l = { se with points := se.points ++ l } := by
  induction l generalizing se with
  | nil => simp [addPoints]
  | cons p l ih =>
    rw [addPoints_cons]
    have hp : p ∉ se.points := hd p (by simp)
    have h1 : se.addPoint p = { se with points := se.points ++ [p] } := by
      simp [addPoint, hp]
    rw [h1, ih _ (List.nodup_cons.mp hl).2]
    · simp
    · intro q hq
      have := (List.nodup_cons.mp hl).1
      have h2 := hd q (List.mem_cons_of_mem _ hq)
      simp only [List.mem_append, List.mem_singleton, not_or]
      exact ⟨h2, fun e => this (e ▸ hq)⟩

theorem homothetyStep_odd (pts : List IntPoint) (se : StrElt) :
    (homothetyStep pts se).odd = se.odd := addPoints_odd _ _

theorem mem_homothetyStep (pts : List IntPoint) (se : StrElt) (q : IntPoint) :
    q ∈ (homothetyStep pts se).points ↔
      q ∈ se.points ∨ ∃ p ∈ se.points, ∃ p2 ∈ pts, hsum se.odd p p2 = q := by
  unfold homothetyStep
  rw [mem_addPoints]
  simp

theorem iterate_odd (pts : List IntPoint) (n : Nat) (se : StrElt) :
    (Nat.iterate (homothetyStep pts) n se).odd = se.odd := by
  induction n generalizing se with
  | zero => rfl
  | succ n ih => rw [Function.iterate_succ_apply, ih, homothetyStep_odd]

theorem iterate_nodup (pts : List IntPoint) (n : Nat) (se : StrElt) (h : se.points.Nodup) :
    (Nat.iterate (homothetyStep pts) n se).points.Nodup := by
  induction n generalizing se with
  | zero => exact h
  | succ n ih => rw [Function.iterate_succ_apply]; exact ih _ (nodup_addPoints _ _ h)

theorem cOdd_neg (y : Int) : cOdd (-y) = cOdd y := by
  unfold cOdd
  rw [Int.neg_tmod]
  generalize y.tmod 2 = a
  by_cases h : a = 0 <;> simp [h, bne]

theorem cOdd_iff (y : Int) : cOdd y = true ↔ y % 2 = 1 := by
  unfold cOdd
  rw [bne_iff_ne]
  have := Int.tmod_eq_emod (a := y) (b := 2)
  split at this
  · omega
  · rw [this]; omega

theorem transposePt_invol (odd : Bool) (p : IntPoint) :
    transposePt odd (transposePt odd p) = p := by
  unfold transposePt
  cases p with
  | mk x y z =>
    simp only [cOdd_neg]
    split <;> simp

end StrElt
end Smil
