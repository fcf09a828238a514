import Mathlib.Data.List.Basic
import Mathlib.Algebra.Order.Group.Unbundled.Int

/-!
# Paths of pixels
-/

namespace Smil

/-- `b` may follow `a` on a path, in one of the four orientations: down, right, right and down, right and up. -/
def PathStep (o : Fin 4) (a b : Int × Int) : Prop :=
  match o with
  | 0 => b.2 = a.2 + 1 ∧ |b.1 - a.1| ≤ 1
  | 1 => b.1 = a.1 + 1 ∧ |b.2 - a.2| ≤ 1
  | 2 => (b.1 = a.1 + 1 ∧ b.2 = a.2) ∨ (b.1 = a.1 ∧ b.2 = a.2 + 1) ∨ (b.1 = a.1 + 1 ∧ b.2 = a.2 + 1)
  | 3 => (b.1 = a.1 + 1 ∧ b.2 = a.2) ∨ (b.1 = a.1 ∧ b.2 = a.2 - 1) ∨ (b.1 = a.1 + 1 ∧ b.2 = a.2 - 1)

/-- A path of points of `S`. -/
def IsPathIn (R : Int × Int → Int × Int → Prop) (S : Int × Int → Prop) (l : List (Int × Int)) : Prop :=
  l.IsChain R ∧ ∀ p ∈ l, S p

/-- `p` lies on a path of at least `n` points of `S`. -/
def OnLongPath (S : Int × Int → Prop) (p : Int × Int) (n : Nat) : Prop :=
  ∃ o l, IsPathIn (PathStep o) S l ∧ p ∈ l ∧ n ≤ l.length

end Smil
