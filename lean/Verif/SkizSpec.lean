import Verif.Skiz
import Verif.PropsArith

/-!
# Zones of influence: specification

Paths of steps of the element that leave a labelled pixel and stay in the mask; the label that a pixel
receives is that of the nearest labelled pixels when they agree. Nothing here refers to the algorithm.
-/

namespace Smil
variable {t : PT}

/-- There is a path of `n` steps from a pixel of label `k` to `p`; all pixels after the first one are in the mask. -/
inductive InflPath (N : IntPoint → IntPoint → Prop) (lab ms : Img (Px t)) : Nat → Px t → IntPoint → Prop
  | start {p k} : lab.at? p = some k → k ≠ Px.zero → InflPath N lab ms 0 k p
  | step {n k q p m} : InflPath N lab ms n k q → N q p → ms.at? p = some m → m ≠ Px.zero → InflPath N lab ms (n + 1) k p

/-- The labelled pixels nearest to `p` are `n` steps away. -/
def NearestAt (N : IntPoint → IntPoint → Prop) (lab ms : Img (Px t)) (n : Nat) (p : IntPoint) : Prop :=
  (∃ k, InflPath N lab ms n k p) ∧ ∀ j < n, ∀ k, ¬ InflPath N lab ms j k p

/-- `l1`, `l2` are the zones of influence of the labels: pixels without any path are left at zero; if the nearest
labelled pixels all have label `k`, the pixel gets `k` in the first image and `max - k` in the second one; if they do not
agree, `l1` is at least the greatest of the nearest labels, `l2` at least `max` minus the least one, hence their sum exceeds `max`. All
labels of `l1` come from a labelled pixel with a path. -/
structure IsSkiz (N : IntPoint → IntPoint → Prop) (lab ms l1 l2 : Img (Px t)) : Prop where
  dims1 : l1.dims = lab.dims
  dims2 : l2.dims = lab.dims
  none : ∀ p, Img.In lab.dims p → (∀ n k, ¬ InflPath N lab ms n k p) →
    l1.at? p = some Px.zero ∧ l2.at? p = some Px.zero
  one : ∀ n p k, NearestAt N lab ms n p → (∀ k', InflPath N lab ms n k' p ↔ k' = k) →
    l1.at? p = some k ∧ ∃ v, l2.at? p = some v ∧ v.val = t.hi - k.val
  tie : ∀ n p k k', NearestAt N lab ms n p → InflPath N lab ms n k p → InflPath N lab ms n k' p →
    ∃ u v, l1.at? p = some u ∧ l2.at? p = some v ∧ k ≤ u ∧ t.hi - k'.val ≤ v.val
  src : ∀ p k, l1.at? p = some k → k ≠ Px.zero → ∃ n, InflPath N lab ms n k p

end Smil
