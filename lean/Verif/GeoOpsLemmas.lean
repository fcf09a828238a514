import Verif.GeoOps
import Verif.PropsBuild

/-!
# Geodesic dilations and levelings: specification and lemmas
-/

namespace Smil
open StrElt
variable {α : Type} {t : PT}

/-! ### Specification -/

/-- The level `v` is brought to `p` by exactly `n` steps of `N` from a pixel where the marker is at least
`v`, the mask being at least `v` all along. -/
inductive CarriedIn [LE α] (N : IntPoint → IntPoint → Prop) (mk ms : Img α) (v : α) :
    Nat → IntPoint → Prop
  | base {p a b} : mk.at? p = some a → ms.at? p = some b → v ≤ a → v ≤ b → CarriedIn N mk ms v 0 p
  | step {n q p b} : CarriedIn N mk ms v n q → N q p → ms.at? p = some b → v ≤ b →
      CarriedIn N mk ms v (n + 1) p

/-- `r` is the geodesic dilation of size `n`: the largest level brought in `n` steps, the least value of
the order where there is none. -/
def IsGeoDil [LE α] [Bot α] (N : IntPoint → IntPoint → Prop) (n : Nat) (mk ms r : Img α) : Prop :=
  r.dims = mk.dims ∧ ∀ p, Img.In mk.dims p → ∃ v, r.at? p = some v ∧
    (v = ⊥ ∨ CarriedIn N mk ms v n p) ∧ ∀ u, CarriedIn N mk ms u n p → u ≤ v

/-- `g` is a leveling of `f`: between neighbours `g` has no other contours than `f`, in the same direction
and between the values of `f`. -/
def IsLeveling [LinearOrder α] (N : IntPoint → IntPoint → Prop) (f g : Img α) : Prop :=
  g.dims = f.dims ∧ ∀ p q a b c d, N p q → f.at? p = some a → f.at? q = some b → g.at? p = some c →
    g.at? q = some d → c < d → a ≤ c ∧ d ≤ b

/-! ### Geodesic dilations -/

section
variable [LinearOrder α] {N : IntPoint → IntPoint → Prop} {mk ms : Img α}

theorem CarriedIn.mono_level {v w : α} (h : v ≤ w) {n : Nat} {p : IntPoint} (hc : CarriedIn N mk ms w n p) :
    CarriedIn N mk ms v n p := by
  induction hc with
  | base h1 h2 h3 h4 => exact .base h1 h2 (h.trans h3) (h.trans h4)
  | step _ h1 h2 h3 ih => exact .step ih h1 h2 (h.trans h3)

theorem CarriedIn.carried {v : α} {n : Nat} {p : IntPoint} (hc : CarriedIn N mk ms v n p) :
    Carried N mk ms v p := by
  induction hc with
  | base h1 h2 h3 h4 => exact .base h1 h2 h3 h4
  | step _ h1 h2 h3 ih => exact .step ih h1 h2 h3

theorem Carried.counted {v : α} {p : IntPoint} (hc : Carried N mk ms v p) : ∃ n, CarriedIn N mk ms v n p := by
  induction hc with
  | base h1 h2 h3 h4 => exact ⟨0, .base h1 h2 h3 h4⟩
  | step _ h1 h2 h3 ih => obtain ⟨n, ih⟩ := ih; exact ⟨n + 1, .step ih h1 h2 h3⟩

theorem CarriedIn.wait (hr : ∀ p, N p p) {v : α} {n : Nat} {p : IntPoint} (hc : CarriedIn N mk ms v n p) :
    CarriedIn N mk ms v (n + 1) p := by
  obtain ⟨b, hb, hle⟩ := hc.carried.mask
  exact .step hc (hr p) hb hle

theorem CarriedIn.wait_le (hr : ∀ p, N p p) {v : α} {n m : Nat} (hnm : n ≤ m) {p : IntPoint}
    (hc : CarriedIn N mk ms v n p) : CarriedIn N mk ms v m p := by
  induction hnm with
  | refl => exact hc
  | step _ ih => exact ih.wait hr

variable [OrderBot α]

theorem IsGeoDil.at {n : Nat} {r : Img α} (h : IsGeoDil N n mk ms r) {p : IntPoint} {v : α}
    (hv : r.at? p = some v) : (v = ⊥ ∨ CarriedIn N mk ms v n p) ∧ ∀ u, CarriedIn N mk ms u n p → u ≤ v := by
  obtain ⟨w, hw, h1⟩ := h.2 p (h.1 ▸ Img.at?_eq_some_in _ _ _ hv)
  rw [hv] at hw; cases hw; exact h1

theorem isGeoDil_zero (hm : ms.dims = mk.dims) : IsGeoDil N 0 mk ms (Img.zipF min mk ms) := by
  have hz := zipF_map2 (min : α → α → α) hm
  refine ⟨rfl, fun p hp => ?_⟩
  have ha := Img.at?_some mk p hp
  have hb := Img.at?_some ms p (hm.symm ▸ hp)
  refine ⟨_, hz.2.2 p _ _ ha hb, Or.inr (.base ha hb (min_le_left _ _) (min_le_right _ _)), fun u hu => ?_⟩
  cases hu with
  | base h1 h2 h3 h4 =>
    rw [ha] at h1; rw [hb] at h2; cases h1; cases h2
    exact le_min h3 h4

theorem isGeoDil_succ (hm : ms.dims = mk.dims) {n : Nat} {a d : Img α} (ha : IsGeoDil N n mk ms a)
    (hd : IsDilBy N a d) : IsGeoDil N (n + 1) mk ms (Img.zipF min d ms) := by
  have hdd : d.dims = mk.dims := hd.1.trans ha.1
  have hz := zipF_map2 (min : α → α → α) (a := d) (b := ms) (hm.trans hdd.symm)
  refine ⟨hdd, fun p hp => ?_⟩
  have hb := Img.at?_some ms p (hm.symm ▸ hp)
  obtain ⟨x, hx, hl⟩ := hd.2 p (ha.1.symm ▸ hp)
  refine ⟨_, hz.2.2 p _ _ hx hb, ?_, fun u hu => ?_⟩
  · -- the supremum is attained
    have hfin : (({u | ∃ q, N q p ∧ a.at? q = some u} : Set α)).Finite := by
      apply Set.Finite.subset (Set.finite_range fun i : Fin a.dims.count => a.buf i)
      rintro u ⟨q, _, hu⟩
      obtain ⟨i, hi, e, _⟩ := Img.at?_buf a q u hu
      exact ⟨⟨i, hi⟩, e⟩
    by_cases hne : ({u | ∃ q, N q p ∧ a.at? q = some u} : Set α).Nonempty
    · obtain ⟨u, hu, hmax⟩ := hfin.exists_maximal hne
      have hxu : x ≤ u := hl.2 (fun w hw => by
        rcases le_total w u with h | h
        · exact h
        · exact hmax hw h)
      obtain ⟨q, hq, hu⟩ := hu
      rcases (ha.at hu).1 with e | hc
      · left
        rw [e, le_bot_iff] at hxu
        rw [hxu]; exact min_eq_left bot_le
      · right
        exact .step (hc.mono_level ((min_le_left _ _).trans hxu)) hq hb (min_le_right _ _)
    · left
      have hxb : x ≤ ⊥ := hl.2 (fun w hw => absurd ⟨w, hw⟩ hne)
      rw [le_bot_iff] at hxb
      rw [hxb]; exact min_eq_left bot_le
  · cases hu with
    | @step _ q _ b hc hq hb' hle =>
      rw [hb] at hb'; cases hb'
      obtain ⟨c, hc', _⟩ := hc.carried.mask
      have hav := Img.at?_some a q (by rw [ha.1, ← hm]; exact Img.at?_eq_some_in _ _ _ hc')
      exact le_min (((ha.at hav).2 u hc).trans (hl.1 ⟨q, hq, hav⟩)) hle

theorem geoSteps_spec {morph : Img α → Option (Except Int (Img α))}
    (hmo : ∀ a : Img α, a.dims = mk.dims → ∃ d, morph a = some (.ok d) ∧ IsDilBy N a d)
    (hm : ms.dims = mk.dims) (n : Nat) : ∀ (k : Nat) (a : Img α), IsGeoDil N k mk ms a →
      ∃ r, geoSteps morph min ms false n a = some (.ok r) ∧ IsGeoDil N (k + n) mk ms r := by
  induction n with
  | zero => intro k a ha; exact ⟨a, rfl, ha⟩
  | succ n ih =>
    intro k a ha
    obtain ⟨d, h1, h2⟩ := hmo a ha.1
    obtain ⟨r, h3, h4⟩ := ih (k + 1) _ (isGeoDil_succ hm ha h2)
    refine ⟨r, ?_, by rw [show k + (n + 1) = k + 1 + n by omega]; exact h4⟩
    unfold geoSteps
    simp only [andThen, h1, Option.bind_some, Bool.false_eq_true, if_false]
    exact h3

theorem geoSteps_alias {morph : Img α → Option (Except Int (Img α))}
    (hmo : ∀ a : Img α, a.dims = mk.dims → ∃ d, morph a = some (.ok d) ∧ IsDilBy N a d)
    (n : Nat) : ∀ a : Img α, a.dims = mk.dims →
      ∃ r, geoSteps morph min ms true n a = some (.ok r) ∧ IterRel (IsDilBy N) n a r := by
  induction n with
  | zero => intro a _; exact ⟨a, rfl, Img.Same.refl a⟩
  | succ n ih =>
    intro a ha
    obtain ⟨d, h1, h2⟩ := hmo a ha
    have hz : Img.zipF min d d = d := by
      unfold Img.zipF; simp only [min_self]
    obtain ⟨r, h3, h4⟩ := ih d (h2.1.trans ha)
    refine ⟨r, ?_, d, h2, h4⟩
    unfold geoSteps
    simp only [andThen, h1, Option.bind_some, if_true, hz]
    exact h3

end

theorem dilate_one [LinearOrder α] [BoundedOrder α] (E : Env α) (se : StrElt) {D : Dims} (hse : SEOk D (se.resize 1))
    (hD : D.count ≠ 0) (a : Img α) (ha : a.dims = D) :
    ∃ d, dilate E true (se.resize 1) a a = some (.ok d) ∧ IsDilBy (seRel se) a d := by
  have hal : a.alloc = true := by unfold Img.alloc; rw [ha]; simpa using hD
  obtain ⟨d, h1, m, h2, h3⟩ := dilate_spec E true (se.resize 1) a a (accepts_of_dims E hal rfl) (ha.symm ▸ hse)
  exact ⟨d, h1, IsDilBy.of_same (Img.Same.refl a) h3 h2⟩

theorem erode_one [LinearOrder α] [BoundedOrder α] (E : Env α) (se : StrElt) {D : Dims} (hse : SEOk D (se.resize 1))
    (hD : D.count ≠ 0) (a : Img α) (ha : a.dims = D) :
    ∃ d, erode E true (se.resize 1) a a = some (.ok d) ∧ IsEroBy (seRel se) a d := by
  have hal : a.alloc = true := by unfold Img.alloc; rw [ha]; simpa using hD
  obtain ⟨d, h1, m, h2, h3⟩ := erode_spec E true (se.resize 1) a a (accepts_of_dims E hal rfl) (ha.symm ▸ hse)
  exact ⟨d, h1, IsDilBy.of_same (α := αᵒᵈ) (Img.Same.refl a) h3 h2⟩

/-! ### Levelings -/

section
variable [LinearOrder α] {N : IntPoint → IntPoint → Prop}

theorem IsLeveling.refl (f : Img α) : IsLeveling N f f :=
  ⟨rfl, fun p q a b c d _ ha hb hc hd _ => by
    rw [ha] at hc; rw [hb] at hd; cases hc; cases hd; exact ⟨le_refl _, le_refl _⟩⟩

theorem IsLeveling.trans {f g k : Img α} (h : IsLeveling N f g) (h' : IsLeveling N g k) : IsLeveling N f k := by
  refine ⟨h'.1.trans h.1, fun p q a b c d hn ha hb hc hd hlt => ?_⟩
  have hp := Img.at?_some g p (h.1 ▸ Img.at?_eq_some_in _ _ _ ha)
  have hq := Img.at?_some g q (h.1 ▸ Img.at?_eq_some_in _ _ _ hb)
  obtain ⟨h1, h2⟩ := h'.2 p q _ _ c d hn hp hq hc hd hlt
  obtain ⟨h3, h4⟩ := h.2 p q a b _ _ hn ha hb hp hq (lt_of_le_of_lt h1 (lt_of_lt_of_le hlt h2))
  exact ⟨h3.trans h1, h2.trans h4⟩

theorem IsBuild.leveling (hN : ∀ p q, N p q → N q p) {mk f g : Img α} (h : IsBuild N mk f g) : IsLeveling N f g := by
  refine ⟨h.2.1.trans h.1.symm, fun p q a b c d hn ha hb hc hd hlt => ⟨?_, h.le_mask.2 q d b hd hb⟩⟩
  by_contra hlt'
  have := h.closed (hN _ _ hn) hd ha hc
  exact absurd this (not_le.mpr (lt_min hlt (not_le.mp hlt')))

theorem IsLeveling.dual (hN : ∀ p q, N p q → N q p) {f g : Img α} (h : IsLeveling (α := αᵒᵈ) N f g) :
    IsLeveling N f g :=
  ⟨h.1, fun p q a b c d hn ha hb hc hd hlt => (h.2 q p b a d c (hN _ _ hn) hb ha hd hc hlt).symm⟩

end

/-- The loop of an alternate sequential filter keeps a reflexive and transitive relation that both
filters satisfy. -/
theorem asfLoop_rel {first second : StrElt → Img α → Img α → Option (Except Int (Img α))} {se : StrElt}
    (R : Img α → Img α → Prop) (D : Dims) (hr : ∀ a, R a a) (htr : ∀ a b c, R a b → R b c → R a c)
    (hd : ∀ a b, R a b → b.dims = a.dims)
    (h1 : ∀ i a o, a.dims = D → o.dims = D → ∃ b, first (se.resize i) a o = some (.ok b) ∧ R a b)
    (h2 : ∀ i a o, a.dims = D → o.dims = D → ∃ b, second (se.resize i) a o = some (.ok b) ∧ R a b) (n : Nat) :
    ∀ i a o, a.dims = D → o.dims = D → ∃ r, asfLoop first second se n i a o = some (.ok r) ∧ R a r := by
  induction n with
  | zero => intro i a o _ _; exact ⟨a, rfl, hr a⟩
  | succ n ih =>
    intro i a o ha ho
    obtain ⟨b, e1, e2⟩ := h1 i a o ha ho
    have hb : b.dims = D := (hd _ _ e2).trans ha
    obtain ⟨c, e3, e4⟩ := h2 i b a hb ha
    have hc : c.dims = D := (hd _ _ e4).trans hb
    obtain ⟨r, e5, e6⟩ := ih (i + 1) c b hc hb
    refine ⟨r, ?_, htr _ _ _ (htr _ _ _ e2 e4) e6⟩
    unfold asfLoop
    simp only [andThen, e1, e3, Option.bind_some, e5]

/-- … and is increasing if both filters are. -/
theorem asfLoop_mono [LE α] {first second first' second' : StrElt → Img α → Img α → Option (Except Int (Img α))}
    {se : StrElt} (D : Dims)
    (h1 : ∀ i a o, a.dims = D → ∀ b, first (se.resize i) a o = some (.ok b) → b.dims = D)
    (h2 : ∀ i a o, a.dims = D → ∀ b, second (se.resize i) a o = some (.ok b) → b.dims = D)
    (m1 : ∀ i a a' o o' b b', a.dims = D → Img.Le a a' → first (se.resize i) a o = some (.ok b) →
      first' (se.resize i) a' o' = some (.ok b') → Img.Le b b')
    (m2 : ∀ i a a' o o' b b', a.dims = D → Img.Le a a' → second (se.resize i) a o = some (.ok b) →
      second' (se.resize i) a' o' = some (.ok b') → Img.Le b b') (n : Nat) :
    ∀ i a a' o o' r r', a.dims = D → Img.Le a a' → asfLoop first second se n i a o = some (.ok r) →
      asfLoop first' second' se n i a' o' = some (.ok r') → Img.Le r r' := by
  induction n with
  | zero =>
    intro i a a' o o' r r' _ hle h h'
    simp only [asfLoop, Option.some.injEq, Except.ok.injEq] at h h'
    rw [← h, ← h']; exact hle
  | succ n ih =>
    intro i a a' o o' r r' ha hle h h'
    have key : ∀ {x : Option (Except Int (Img α))} {k : Img α → Option (Except Int (Img α))} {r : Img α},
        andThen x k = some (.ok r) → ∃ b, x = some (.ok b) ∧ k b = some (.ok r) := by
      intro x k r hx
      unfold andThen at hx
      match x, hx with
      | some (.ok b), hx => exact ⟨b, rfl, hx⟩
    unfold asfLoop at h h'
    obtain ⟨b, e1, h⟩ := key h
    obtain ⟨c, e2, h⟩ := key h
    obtain ⟨b', e1', h'⟩ := key h'
    obtain ⟨c', e2', h'⟩ := key h'
    have hb := h1 i a o ha b e1
    exact ih (i + 1) c c' b b' r r' (h2 i b a hb c e2) (m2 i b b' a a' c c' hb (m1 i a a' o o' b b' ha hle e1 e1') e2 e2')
      h h'

end Smil
