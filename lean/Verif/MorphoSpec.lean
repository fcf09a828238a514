import Verif.Img
import Verif.PropsStrElt
import Mathlib.Order.Bounds.Basic
import Mathlib.Order.BoundedOrder.Basic
import Mathlib.Order.Hom.Basic

/-!
# Specification of dilation and erosion

Independent of the algorithms: a value is the least upper bound (greatest lower bound) of the
pixels seen through the structuring element. The element is placed geometrically: `q` is seen from
`p` through `b` when the physical positions satisfy `q + b = p` (see `phys`: on the hexagonal grid
odd lines are drawn half a pixel to the right).
-/

namespace Smil
variable {α : Type}

/-- The pixels of `im` from which the structuring element carries a value to `p`. -/
def dilSet (se : StrElt) (im : Img α) (p : IntPoint) : Set α :=
  { u | ∃ q, ∃ b ∈ se.points, phys se.odd q + phys se.odd b = phys se.odd p ∧ im.at? q = some u }

/-- The pixels of `im` to which the structuring element carries `p`. -/
def eroSet (se : StrElt) (im : Img α) (p : IntPoint) : Set α :=
  { u | ∃ q, ∃ b ∈ se.points, phys se.odd p + phys se.odd b = phys se.odd q ∧ im.at? q = some u }

/-- `out` is the dilation of `im` by one copy of `se`: the least upper bound, hence the smallest
value of the type where no pixel is seen. -/
def IsDil [Preorder α] (se : StrElt) (im out : Img α) : Prop :=
  out.dims = im.dims ∧ ∀ p, Img.In im.dims p → ∃ v, out.at? p = some v ∧ IsLUB (dilSet se im p) v

/-- `out` is the erosion of `im` by one copy of `se`. -/
def IsEro [Preorder α] (se : StrElt) (im out : Img α) : Prop :=
  out.dims = im.dims ∧ ∀ p, Img.In im.dims p → ∃ v, out.at? p = some v ∧ IsGLB (eroSet se im p) v

/-- `n` successive applications of a relation between images. -/
def IterRel (R : Img α → Img α → Prop) : Nat → Img α → Img α → Prop
  | 0, a, b => Img.Same a b
  | n + 1, a, b => ∃ m, R a m ∧ IterRel R n m b

/-- Pixelwise order between images of the same size. -/
def Img.Le [LE α] (a b : Img α) : Prop :=
  a.dims = b.dims ∧ ∀ p u v, a.at? p = some u → b.at? p = some v → u ≤ v

/-- `out` is the pixelwise combination of `a` and `b`. -/
def Img.IsMap2 {β γ : Type} (F : α → β → γ) (a : Img α) (b : Img β) (out : Img γ) : Prop :=
  out.dims = a.dims ∧ b.dims = a.dims ∧
    ∀ p u v, a.at? p = some u → b.at? p = some v → out.at? p = some (F u v)

/-- `out` is the pixelwise image of `a`. -/
def Img.IsMap {β : Type} (F : α → β) (a : Img α) (out : Img β) : Prop :=
  out.dims = a.dims ∧ ∀ p u, a.at? p = some u → out.at? p = some (F u)

end Smil
