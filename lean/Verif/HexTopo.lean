import Mathlib.Logic.Relation
import Mathlib.Data.Set.Basic
import Mathlib.Tactic.Abel

/-!
# Thinnings that keep the components of a set and of its complement

The six neighbours of a point of the hexagonal grid are `a, b, b - a, -a, -b, a - b` for two adjacent directions `a` and `b`. The two templates used by `skiz` (`HMT_hL`: `a, b` set and `-a, -b` not;
`HMT_hM`: `a` set and `b - a, -a, -b` not) are treated for all such pairs, all the points matching the template being removed at the same time.
-/

namespace Smil

/-- A path in the set `S`, for the adjacency `A`. -/
def ConnIn {V : Type} (A : V → V → Prop) (S : Set V) : V → V → Prop := Relation.ReflTransGen fun x y => A x y ∧ x ∈ S ∧ y ∈ S

variable {V : Type} {A : V → V → Prop}

theorem ConnIn.symm (hA : ∀ x y, A x y → A y x) {S : Set V} {x y : V} (h : ConnIn A S x y) : ConnIn A S y x := by
  unfold ConnIn at *
  induction h with
  | refl => exact .refl
  | tail _ h ih => exact Relation.ReflTransGen.head ⟨hA _ _ h.1, h.2.2, h.2.1⟩ ih

theorem ConnIn.mono {S S' : Set V} (hS : S ⊆ S') {x y : V} (h : ConnIn A S x y) : ConnIn A S' x y := by
  unfold ConnIn at *
  induction h with
  | refl => exact .refl
  | tail _ h ih => exact ih.tail ⟨h.1, hS h.2.1, hS h.2.2⟩

/-- A set is reduced to a smaller one without change of the components of the set and of the rest of the domain `D`. -/
structure Homotopic (A : V → V → Prop) (D X X' : Set V) : Prop where
  sub : X' ⊆ X
  fgEx : ∀ x ∈ X, ∃ y ∈ X', ConnIn A X x y
  fgInj : ∀ x ∈ X', ∀ y ∈ X', ConnIn A X x y → ConnIn A X' x y
  bgEx : ∀ x ∈ D \ X', ∃ y ∈ D \ X, ConnIn A (D \ X') x y
  bgInj : ∀ x ∈ D \ X, ∀ y ∈ D \ X, ConnIn A (D \ X') x y → ConnIn A (D \ X) x y

theorem Homotopic.refl (D X : Set V) : Homotopic A D X X :=
  ⟨fun _ h => h, fun x h => ⟨x, h, .refl⟩, fun _ _ _ _ h => h, fun x h => ⟨x, h, .refl⟩, fun _ _ _ _ h => h⟩

theorem Homotopic.trans {D X Y Z : Set V} (h : Homotopic A D X Y) (h' : Homotopic A D Y Z) : Homotopic A D X Z := by
  have hYX : D \ X ⊆ D \ Y := fun x hx => ⟨hx.1, fun hc => hx.2 (h.sub hc)⟩
  have hZY : D \ Y ⊆ D \ Z := fun x hx => ⟨hx.1, fun hc => hx.2 (h'.sub hc)⟩
  refine ⟨fun x hx => h.sub (h'.sub hx), fun x hx => ?_, fun x hx y hy hc => ?_, fun x hx => ?_, fun x hx y hy hc => ?_⟩
  · obtain ⟨y, hy, hc⟩ := h.fgEx x hx
    obtain ⟨z, hz, hc'⟩ := h'.fgEx y hy
    exact ⟨z, hz, Relation.ReflTransGen.trans hc (hc'.mono h.sub)⟩
  · exact h'.fgInj x hx y hy (h.fgInj x (h'.sub hx) y (h'.sub hy) hc)
  · obtain ⟨y, hy, hc⟩ := h'.bgEx x hx
    obtain ⟨z, hz, hc'⟩ := h.bgEx y hy
    exact ⟨z, hz, Relation.ReflTransGen.trans hc (hc'.mono hZY)⟩
  · exact h.bgInj x hx y hy (h'.bgInj x (hYX hx) y (hYX hy) hc)

theorem ConnIn.lift {S S' : Set V} (f : V → V) (hf : ∀ x y, x ∈ S → y ∈ S → A x y → ConnIn A S' (f x) (f y)) {x y : V}
    (h : ConnIn A S x y) : ConnIn A S' (f x) (f y) := by
  unfold ConnIn at h
  induction h with
  | refl => exact .refl
  | tail _ h ih => exact Relation.ReflTransGen.trans ih (hf _ _ h.2.1 h.2.2 h.1)

section
variable {V : Type} [AddCommGroup V]

/-- The six directions. -/
def HexDir (a b v : V) : Prop := v = a ∨ v = b ∨ v = b - a ∨ v = -a ∨ v = -b ∨ v = a - b

theorem hexDir_neg {a b v : V} (h : HexDir a b v) : HexDir a b (-v) := by
  rcases h with h | h | h | h | h | h <;> subst h
  · exact Or.inr (Or.inr (Or.inr (Or.inl rfl)))
  · exact Or.inr (Or.inr (Or.inr (Or.inr (Or.inl rfl))))
  · exact Or.inr (Or.inr (Or.inr (Or.inr (Or.inr (by abel)))))
  · exact Or.inl (by abel)
  · exact Or.inr (Or.inl (by abel))
  · exact Or.inr (Or.inr (Or.inl (by abel)))

variable {A : V → V → Prop} {a b : V}

theorem hexAdj_symm (hA : ∀ x y, A x y ↔ HexDir a b (y - x)) (x y : V) (h : A x y) : A y x := by
  rw [hA] at *
  have := hexDir_neg h
  rwa [neg_sub] at this

theorem hexEdge (hA : ∀ x y, A x y ↔ HexDir a b (y - x)) {S : Set V} {x y : V} (hx : x ∈ S) (hy : y ∈ S)
    (h : y - x = a ∨ y - x = b ∨ y - x = b - a ∨ y - x = -a ∨ y - x = -b ∨ y - x = a - b) : ConnIn A S x y :=
  .single ⟨(hA x y).mpr h, hx, hy⟩

/-- The points matching `HMT_hL`. -/
def MatchL (D X : Set V) (a b x : V) : Prop := x + a ∈ X ∧ x + b ∈ X ∧ x - a ∈ D \ X ∧ x - b ∈ D \ X

/-- The points matching `HMT_hM`. -/
def MatchM (D X : Set V) (a b x : V) : Prop := x + a ∈ X ∧ x + b - a ∈ D \ X ∧ x - a ∈ D \ X ∧ x - b ∈ D \ X

omit [AddCommGroup V] in
/-- A map is compatible with the adjacency if it is for the pairs with the first point in `R`, those in `R` for both, and is the identity off `R`. -/
theorem lift_cases (hs : ∀ x y, A x y → A y x) {S S' R : Set V} (f : V → V) (hid : ∀ x ∈ S, x ∉ R → f x = x ∧ x ∈ S')
    (h1 : ∀ x y, x ∈ S → y ∈ S → x ∈ R → y ∉ R → A x y → ConnIn A S' (f x) (f y))
    (h2 : ∀ x y, x ∈ S → y ∈ S → x ∈ R → y ∈ R → A x y → ConnIn A S' (f x) (f y)) (x y : V) (hx : x ∈ S) (hy : y ∈ S) (h : A x y) :
    ConnIn A S' (f x) (f y) := by
  by_cases hxR : x ∈ R
  · by_cases hyR : y ∈ R
    · exact h2 x y hx hy hxR hyR h
    · exact h1 x y hx hy hxR hyR h
  · by_cases hyR : y ∈ R
    · exact (h1 y x hy hx hyR hxR (hs _ _ h)).symm hs
    · rw [(hid x hx hxR).1, (hid y hy hyR).1]
      exact .single ⟨h, (hid x hx hxR).2, (hid y hy hyR).2⟩

open Classical in
theorem matchL_homotopic (hA : ∀ x y, A x y ↔ HexDir a b (y - x)) (D X : Set V) :
    Homotopic A D X {x | x ∈ X ∧ ¬ MatchL D X a b x} := by
  set R : Set V := {x | x ∈ X ∧ MatchL D X a b x} with hR
  set X' : Set V := {x | x ∈ X ∧ ¬ MatchL D X a b x} with hX'
  have hs := hexAdj_symm hA
  have ka : ∀ x ∈ R, x + a ∈ X' := by
    intro x hx
    refine ⟨hx.2.1, fun hc => hc.2.2.1.2 ?_⟩
    rw [add_sub_cancel_right]; exact hx.1
  have kb : ∀ x ∈ R, x + b ∈ X' := by
    intro x hx
    refine ⟨hx.2.2.1, fun hc => hc.2.2.2.2 ?_⟩
    rw [add_sub_cancel_right]; exact hx.1
  have hkeep : ∀ x ∈ X, x ∉ R → x ∈ X' := fun x hx h => ⟨hx, fun hc => h ⟨hx, hc⟩⟩
  have hrem : ∀ x ∈ D \ X', x ∉ R → x ∈ D \ X := fun x hx h => ⟨hx.1, fun hc => hx.2 (hkeep x hc h)⟩
  have hbg : D \ X ⊆ D \ X' := fun x hx => ⟨hx.1, fun hc => hx.2 hc.1⟩
  have hR' : ∀ x ∈ R, x ∉ X' := fun x hx hc => hc.2 hx.2
  refine ⟨fun x hx => hx.1, fun x hx => ?_, fun x hx y hy hc => ?_, fun x hx => ?_, fun x hx y hy hc => ?_⟩
  · by_cases h : x ∈ R
    · exact ⟨x + a, ka x h, hexEdge hA hx (ka x h).1 (Or.inl (by abel))⟩
    · exact ⟨x, hkeep x hx h, .refl⟩
  · have key : ∀ x y, x ∈ X → y ∈ X → A x y → ConnIn A X' (if x ∈ R then x + a else x) (if y ∈ R then y + a else y) := by
      refine lift_cases (R := R) hs (fun x => if x ∈ R then x + a else x) (fun x hx h => ⟨if_neg h, hkeep x hx h⟩) ?_ ?_
      · intro x y hx hy hxR hyR h
        simp only [if_pos hxR, if_neg hyR]
        have hy' := hkeep y hy hyR
        rcases (hA x y).mp h with h | h | h | h | h | h
        · rw [show y = x + a by rw [← h]; abel]; exact .refl
        · exact hexEdge hA (ka x hxR) hy' (Or.inr (Or.inr (Or.inl (by rw [← h]; abel))))
        · refine Relation.ReflTransGen.trans (hexEdge hA (ka x hxR) (kb x hxR) (Or.inr (Or.inr (Or.inl (by abel))))) ?_
          exact hexEdge hA (kb x hxR) hy' (Or.inr (Or.inr (Or.inr (Or.inl (by rw [← sub_sub, h]; abel)))))
        · exact absurd hy (by rw [show y = x - a by rw [sub_eq_add_neg, ← h]; abel]; exact hxR.2.2.2.1.2)
        · exact absurd hy (by rw [show y = x - b by rw [sub_eq_add_neg, ← h]; abel]; exact hxR.2.2.2.2.2)
        · exact hexEdge hA (ka x hxR) hy' (Or.inr (Or.inr (Or.inr (Or.inr (Or.inl (by rw [← sub_sub, h]; abel))))))
      · intro x y hx hy hxR hyR h
        simp only [if_pos hxR, if_pos hyR]
        rcases (hA x y).mp h with h | h | h | h | h | h
        · exact absurd (ka x hxR) (by rw [show x + a = y by rw [← h]; abel]; exact hR' y hyR)
        · exact absurd (kb x hxR) (by rw [show x + b = y by rw [← h]; abel]; exact hR' y hyR)
        · exact hexEdge hA (ka x hxR) (ka y hyR) (Or.inr (Or.inr (Or.inl (by rw [← h]; abel))))
        · exact absurd hy (by rw [show y = x - a by rw [sub_eq_add_neg, ← h]; abel]; exact hxR.2.2.2.1.2)
        · exact absurd hy (by rw [show y = x - b by rw [sub_eq_add_neg, ← h]; abel]; exact hxR.2.2.2.2.2)
        · exact hexEdge hA (ka x hxR) (ka y hyR) (Or.inr (Or.inr (Or.inr (Or.inr (Or.inr (by rw [← h]; abel))))))
    have := ConnIn.lift (fun x => if x ∈ R then x + a else x) key hc
    simpa only [if_neg (fun h => hR' x h hx), if_neg (fun h => hR' y h hy)] using this
  · by_cases h : x ∈ R
    · exact ⟨x - a, h.2.2.2.1, hexEdge hA hx (hbg h.2.2.2.1) (Or.inr (Or.inr (Or.inr (Or.inl (by abel)))))⟩
    · exact ⟨x, hrem x hx h, .refl⟩
  · have key : ∀ x y, x ∈ D \ X' → y ∈ D \ X' → A x y →
        ConnIn A (D \ X) (if x ∈ R then x - a else x) (if y ∈ R then y - a else y) := by
      refine lift_cases (R := R) hs (fun x => if x ∈ R then x - a else x) (fun x hx h => ⟨if_neg h, hrem x hx h⟩) ?_ ?_
      · intro x y hx hy hxR hyR h
        simp only [if_pos hxR, if_neg hyR]
        have hy' := hrem y hy hyR
        rcases (hA x y).mp h with h | h | h | h | h | h
        · exact absurd (ka x hxR).1 (by rw [show x + a = y by rw [← h]; abel]; exact hy'.2)
        · exact absurd (kb x hxR).1 (by rw [show x + b = y by rw [← h]; abel]; exact hy'.2)
        · exact hexEdge hA hxR.2.2.2.1 hy' (Or.inr (Or.inl (by rw [sub_sub_eq_add_sub, add_sub_right_comm, h]; abel)))
        · rw [show y = x - a by rw [sub_eq_add_neg, ← h]; abel]; exact .refl
        · exact hexEdge hA hxR.2.2.2.1 hy' (Or.inr (Or.inr (Or.inr (Or.inr (Or.inr (by
            rw [sub_sub_eq_add_sub, add_sub_right_comm, h]; abel))))))
        · refine Relation.ReflTransGen.trans (hexEdge hA hxR.2.2.2.1 hxR.2.2.2.2 (Or.inr (Or.inr (Or.inr (Or.inr (Or.inr (by abel))))))) ?_
          exact hexEdge hA hxR.2.2.2.2 hy' (Or.inl (by rw [sub_sub_eq_add_sub, add_sub_right_comm, h]; abel))
      · intro x y hx hy hxR hyR h
        simp only [if_pos hxR, if_pos hyR]
        rcases (hA x y).mp h with h | h | h | h | h | h
        · exact absurd (ka x hxR) (by rw [show x + a = y by rw [← h]; abel]; exact hR' y hyR)
        · exact absurd (kb x hxR) (by rw [show x + b = y by rw [← h]; abel]; exact hR' y hyR)
        · exact hexEdge hA hxR.2.2.2.1 hyR.2.2.2.1 (Or.inr (Or.inr (Or.inl (by rw [← h]; abel))))
        · exact absurd hyR.1 (by rw [show y = x - a by rw [sub_eq_add_neg, ← h]; abel]; exact hxR.2.2.2.1.2)
        · exact absurd hyR.1 (by rw [show y = x - b by rw [sub_eq_add_neg, ← h]; abel]; exact hxR.2.2.2.2.2)
        · exact hexEdge hA hxR.2.2.2.1 hyR.2.2.2.1 (Or.inr (Or.inr (Or.inr (Or.inr (Or.inr (by rw [← h]; abel))))))
    have := ConnIn.lift (fun x => if x ∈ R then x - a else x) key hc
    simpa only [if_neg (fun h : x ∈ R => hx.2 h.1), if_neg (fun h : y ∈ R => hy.2 h.1)] using this

open Classical in
theorem matchM_homotopic (hA : ∀ x y, A x y ↔ HexDir a b (y - x)) (D X : Set V) :
    Homotopic A D X {x | x ∈ X ∧ ¬ MatchM D X a b x} := by
  set R : Set V := {x | x ∈ X ∧ MatchM D X a b x} with hR
  set X' : Set V := {x | x ∈ X ∧ ¬ MatchM D X a b x} with hX'
  have hs := hexAdj_symm hA
  have ka : ∀ x ∈ R, x + a ∈ X' := by
    intro x hx
    refine ⟨hx.2.1, fun hc => hc.2.2.1.2 ?_⟩
    rw [add_sub_cancel_right]; exact hx.1
  have hkeep : ∀ x ∈ X, x ∉ R → x ∈ X' := fun x hx h => ⟨hx, fun hc => h ⟨hx, hc⟩⟩
  have hrem : ∀ x ∈ D \ X', x ∉ R → x ∈ D \ X := fun x hx h => ⟨hx.1, fun hc => hx.2 (hkeep x hc h)⟩
  have hbg : D \ X ⊆ D \ X' := fun x hx => ⟨hx.1, fun hc => hx.2 hc.1⟩
  have hR' : ∀ x ∈ R, x ∉ X' := fun x hx hc => hc.2 hx.2
  have hno : ∀ x y, x ∈ R → y ∈ R → ¬ A x y := by
    intro x y hx hy h
    rcases (hA x y).mp h with h | h | h | h | h | h
    · exact hR' y hy (by rw [show y = x + a by rw [← h]; abel]; exact ka x hx)
    · exact hy.2.2.2.2.2 (by rw [show y - b = x by rw [← h]; abel]; exact hx.1)
    · exact hx.2.2.1.2 (by rw [show x + b - a = y by rw [add_sub_assoc, ← h]; abel]; exact hy.1)
    · exact hx.2.2.2.1.2 (by rw [show x - a = y by rw [sub_eq_add_neg, ← h]; abel]; exact hy.1)
    · exact hx.2.2.2.2.2 (by rw [show x - b = y by rw [sub_eq_add_neg, ← h]; abel]; exact hy.1)
    · exact hy.2.2.1.2 (by rw [show y + b - a = x by rw [add_sub_assoc, ← neg_sub a b, ← h]; abel]; exact hx.1)
  refine ⟨fun x hx => hx.1, fun x hx => ?_, fun x hx y hy hc => ?_, fun x hx => ?_, fun x hx y hy hc => ?_⟩
  · by_cases h : x ∈ R
    · exact ⟨x + a, ka x h, hexEdge hA hx (ka x h).1 (Or.inl (by abel))⟩
    · exact ⟨x, hkeep x hx h, .refl⟩
  · have key : ∀ x y, x ∈ X → y ∈ X → A x y → ConnIn A X' (if x ∈ R then x + a else x) (if y ∈ R then y + a else y) := by
      refine lift_cases (R := R) hs (fun x => if x ∈ R then x + a else x) (fun x hx h => ⟨if_neg h, hkeep x hx h⟩) ?_
        fun x y _ _ hx hy h => absurd h (hno x y hx hy)
      intro x y hx hy hxR hyR h
      simp only [if_pos hxR, if_neg hyR]
      have hy' := hkeep y hy hyR
      rcases (hA x y).mp h with h | h | h | h | h | h
      · rw [show y = x + a by rw [← h]; abel]; exact .refl
      · exact hexEdge hA (ka x hxR) hy' (Or.inr (Or.inr (Or.inl (by rw [← h]; abel))))
      · exact absurd hy (by rw [show y = x + b - a by rw [add_sub_assoc, ← h]; abel]; exact hxR.2.2.1.2)
      · exact absurd hy (by rw [show y = x - a by rw [sub_eq_add_neg, ← h]; abel]; exact hxR.2.2.2.1.2)
      · exact absurd hy (by rw [show y = x - b by rw [sub_eq_add_neg, ← h]; abel]; exact hxR.2.2.2.2.2)
      · exact hexEdge hA (ka x hxR) hy' (Or.inr (Or.inr (Or.inr (Or.inr (Or.inl (by rw [← sub_sub, h]; abel))))))
    have := ConnIn.lift (fun x => if x ∈ R then x + a else x) key hc
    simpa only [if_neg (fun h => hR' x h hx), if_neg (fun h => hR' y h hy)] using this
  · by_cases h : x ∈ R
    · exact ⟨x - a, h.2.2.2.1, hexEdge hA hx (hbg h.2.2.2.1) (Or.inr (Or.inr (Or.inr (Or.inl (by abel)))))⟩
    · exact ⟨x, hrem x hx h, .refl⟩
  · have key : ∀ x y, x ∈ D \ X' → y ∈ D \ X' → A x y →
        ConnIn A (D \ X) (if x ∈ R then x - a else x) (if y ∈ R then y - a else y) := by
      refine lift_cases (R := R) hs (fun x => if x ∈ R then x - a else x) (fun x hx h => ⟨if_neg h, hrem x hx h⟩) ?_
        fun x y _ _ hx hy h => absurd h (hno x y hx hy)
      intro x y hx hy hxR hyR h
      simp only [if_pos hxR, if_neg hyR]
      have hy' := hrem y hy hyR
      rcases (hA x y).mp h with h | h | h | h | h | h
      · exact absurd (ka x hxR).1 (by rw [show x + a = y by rw [← h]; abel]; exact hy'.2)
      · refine Relation.ReflTransGen.trans (hexEdge hA hxR.2.2.2.1 hxR.2.2.1 (Or.inr (Or.inl (by abel)))) ?_
        exact hexEdge hA hxR.2.2.1 hy' (Or.inl (by rw [show y = x + b by rw [← h]; abel]; abel))
      · exact hexEdge hA hxR.2.2.2.1 hy' (Or.inr (Or.inl (by rw [sub_sub_eq_add_sub, add_sub_right_comm, h]; abel)))
      · rw [show y = x - a by rw [sub_eq_add_neg, ← h]; abel]; exact .refl
      · exact hexEdge hA hxR.2.2.2.1 hy' (Or.inr (Or.inr (Or.inr (Or.inr (Or.inr (by
          rw [sub_sub_eq_add_sub, add_sub_right_comm, h]; abel))))))
      · refine Relation.ReflTransGen.trans (hexEdge hA hxR.2.2.2.1 hxR.2.2.2.2 (Or.inr (Or.inr (Or.inr (Or.inr (Or.inr (by abel))))))) ?_
        exact hexEdge hA hxR.2.2.2.2 hy' (Or.inl (by rw [sub_sub_eq_add_sub, add_sub_right_comm, h]; abel))
    have := ConnIn.lift (fun x => if x ∈ R then x - a else x) key hc
    simpa only [if_neg (fun h : x ∈ R => hx.2 h.1), if_neg (fun h : y ∈ R => hy.2 h.1)] using this

end
end Smil
