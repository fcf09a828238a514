import Verif.Img

/-!
# What drawing should do
-/

namespace Smil
variable {α : Type}

/-- The image `r` is the image `im` with the points of `S` painted with `v`; the points of `S` outside of the image are ignored. -/
def IsPainted (im : Img α) (v : α) (S : IntPoint → Prop) (r : Img α) : Prop :=
  r.dims = im.dims ∧ (∀ q, Img.In im.dims q → S q → r.at? q = some v) ∧ ∀ q, ¬ S q → r.at? q = im.at? q

/-- The length of a segment: the larger of the two absolute increments. -/
def segLen (p q : IntPoint) : Int := max |q.x - p.x| |q.y - p.y|

/-- A digital segment from `p` to `q`: the shortest possible list of points, in single steps, that starts at `p` and ends at `q`, each at no more
than half a pixel of the true line (measured along the smaller increment) and in the box of the ends. -/
structure IsSegment (p q : IntPoint) (l : List IntPoint) : Prop where
  len : (l.length : Int) = segLen p q + 1
  first : l[0]? = some p
  last : l[l.length - 1]? = some q
  step : ∀ i a b, l[i]? = some a → l[i + 1]? = some b → a ≠ b ∧ |b.x - a.x| ≤ 1 ∧ |b.y - a.y| ≤ 1
  near : ∀ a ∈ l, 2 * |(q.x - p.x) * (a.y - p.y) - (q.y - p.y) * (a.x - p.x)| ≤ segLen p q
  box : ∀ a ∈ l, min p.x q.x ≤ a.x ∧ a.x ≤ max p.x q.x ∧ min p.y q.y ≤ a.y ∧ a.y ≤ max p.y q.y
  plane : ∀ a ∈ l, a.z = 0

/-- A box of pixels. -/
def InBox (x0 y0 z0 : Int) (w h d : Nat) (q : IntPoint) : Prop :=
  x0 ≤ q.x ∧ q.x < x0 + w ∧ y0 ≤ q.y ∧ q.y < y0 + h ∧ z0 ≤ q.z ∧ q.z < z0 + d

/-- The sides of a rectangle. -/
def OnSides (x0 y0 : Int) (w h : Nat) (q : IntPoint) : Prop :=
  q.x = x0 ∨ q.x = x0 + w - 1 ∨ q.y = y0 ∨ q.y = y0 + h - 1

/-- An eighth of a digital circle: it starts at the top, goes one column at a time without leaving the octant, down by at most one,
up to the diagonal; each point is at most `r` above and `3 r / 2` below `r ^ 2` in squared distance. -/
structure IsOctant (r : Int) (l : List (Int × Int)) : Prop where
  first : l[0]? = some (0, r)
  step : ∀ i a b, l[i]? = some a → l[i + 1]? = some b → b.1 = a.1 + 1 ∧ (b.2 = a.2 ∨ b.2 = a.2 - 1)
  inside : ∀ a ∈ l, 0 ≤ a.1 ∧ a.1 ≤ a.2 ∧ a.2 ≤ r
  last : ∀ a, l[l.length - 1]? = some a → a.2 ≤ a.1 + 1
  near : ∀ a ∈ l, -(3 * r) ≤ 2 * (a.1 * a.1 + a.2 * a.2 - r * r) ∧ a.1 * a.1 + a.2 * a.2 - r * r ≤ r

/-- The eight images of an octant around a centre. -/
def EightFold (l : List (Int × Int)) (x0 y0 : Int) (q : IntPoint) : Prop :=
  ∃ a ∈ l, (|q.x - x0| = a.1 ∧ |q.y - y0| = a.2) ∨ (|q.x - x0| = a.2 ∧ |q.y - y0| = a.1)

end Smil
