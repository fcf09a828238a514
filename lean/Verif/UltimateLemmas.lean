import Verif.Ultimate
import Verif.MaxTreeUse

/-!
# The residues along a branch of the max-tree
-/

namespace Smil
open Relation

/-- From the level `w` (excluded) to the level `v` the attribute never falls by more than `δ` at a time. -/
def Merged (A : Int → Nat) (δ : Nat) (w v : Int) : Prop := ∀ u, w < u → u < v → A u ≤ A (u + 1) + δ

/-- The levels `w < v` give a residue: they are between `m` and `a`, the attribute at `v` is below `stop`, and it falls
slowly between them. -/
structure Adm (A : Int → Nat) (δ : Nat) (stop m a w v : Int) : Prop where
  lo : m ≤ w
  lt : w < v
  hi : v ≤ a
  small : (A v : Int) < stop
  merged : Merged A δ w v

/-- `r` is the greatest residue, and `i` is 0 if there is none, otherwise 1 more than the attribute of the first level
whose residue exceeds those below its run. -/
structure IsUltResidue (A : Int → Nat) (δ : Nat) (stop m a r i : Int) : Prop where
  ub : ∀ w v, Adm A δ stop m a w v → v - w ≤ r
  wit : (r = 0 ∧ i = 0) ∨ (0 < r ∧ ∃ w v v0, Adm A δ stop m a w v ∧ v - w = r ∧ Adm A δ stop m a w v0 ∧ v0 ≤ v ∧
    i = A v0 + 1 ∧ (∀ w' v', Adm A δ stop m a w' v' → v' ≤ w → v' - w' < v0 - w) ∧
    ∀ v', Adm A δ stop m a w v' → A v0 < A v' → ∃ w' v1, Adm A δ stop m a w' v1 ∧ v1 ≤ w ∧ v' - w ≤ v1 - w')

/-- The state of the recursion at a node of level `l`. -/
structure UO (A : Int → Nat) (δ : Nat) (stop m l b r i : Int) (up : Bool) : Prop where
  mb : m ≤ b
  bl : b ≤ l
  root : b = l → l = m
  anti : ∀ u v, m < u → u ≤ v → v ≤ l → A v ≤ A u
  merged : Merged A δ b l
  bmax : b = m ∨ A (b + 1) + δ < A b
  res : IsUltResidue A δ stop m l r i
  yes : up = true → m < l ∧ (A l : Int) < stop ∧ r = l - b ∧ ∃ v0, Adm A δ stop m l b v0 ∧ i = A v0 + 1 ∧
    (∀ w' v', Adm A δ stop m l w' v' → v' ≤ b → v' - w' < v0 - b) ∧
    ∀ v', Adm A δ stop m l b v' → A v0 < A v' → ∃ w' v1, Adm A δ stop m l w' v1 ∧ v1 ≤ b ∧ v' - b ≤ v1 - w'
  no : up = false → r = 0 ∨ ∃ w v, Adm A δ stop m l w v ∧ v - w = r ∧ v ≤ b

section
variable {A A' : Int → Nat} {δ : Nat} {stop m l l' b r i : Int} {up : Bool} {a : Nat}

theorem Adm.congr {w v : Int} (hA : ∀ u, m < u → u ≤ l → A' u = A u) (hl : l ≤ l') (hv : v ≤ l) :
    Adm A' δ stop m l' w v ↔ Adm A δ stop m l w v := by
  constructor
  · intro h
    have h1 := h.lo; have h2 := h.lt
    refine ⟨h.lo, h.lt, hv, by rw [← hA v (by omega) hv]; exact h.small, fun u h3 h4 => ?_⟩
    rw [← hA u (by omega) (by omega), ← hA (u + 1) (by omega) (by omega)]
    exact h.merged u h3 h4
  · intro h
    have h1 := h.lo; have h2 := h.lt
    refine ⟨h.lo, h.lt, hv.trans hl, by rw [hA v (by omega) hv]; exact h.small, fun u h3 h4 => ?_⟩
    rw [hA u (by omega) (by omega), hA (u + 1) (by omega) (by omega)]
    exact h.merged u h3 h4

/-- One step of the recursion, from a node of level `l` to a child of level `l'` and attribute `a`. -/
theorem UO.step (h : UO A δ stop m l b r i up) (hll : l < l') (hA : ∀ u, m < u → u ≤ l → A' u = A u)
    (ha : ∀ u, l < u → u ≤ l' → A' u = a) (hm : m < l → a ≤ A l) {flag : Bool}
    (hf : m < l → (flag = true ↔ A l ≤ a + δ)) {b' res r' i' : Int} {up' : Bool}
    (eb : b' = if flag then b else l) (er : res = l' - b')
    (eu : up' = decide ((a : Int) < stop ∧ r < res)) (er' : r' = if up' then res else r)
    (ei : i' = if (a : Int) < stop then (if up' && !(up && flag) then (a : Int) + 1 else i) else 0) :
    UO A' δ stop m l' b' r' i' up' := by
  have hmb := h.mb
  have hbl := h.bl
  have hroot := h.root
  have hml : m ≤ l := by omega
  have ha' : A' l' = a := ha l' hll (le_refl _)
  -- the attribute is decreasing
  have hlow : ∀ u, m < u → u ≤ l → a ≤ A' u := by
    intro u h1 h2
    rw [hA u h1 h2]
    exact (hm (by omega)).trans (h.anti u l h1 h2 (le_refl _))
  have hanti : ∀ u v, m < u → u ≤ v → v ≤ l' → A' v ≤ A' u := by
    intro u v h1 h2 h3
    by_cases hv : v ≤ l
    · rw [hA v (by omega) hv, hA u h1 (by omega)]
      exact h.anti u v h1 h2 hv
    · rw [ha v (by omega) h3]
      by_cases hu : u ≤ l
      · exact hlow u h1 hu
      · rw [ha u (by omega) (by omega)]
  have hb' : m ≤ b' ∧ b' < l' ∧ b' ≤ l := by rw [eb]; split <;> omega
  have hbb : flag = true → b' = b := fun hfl => by rw [eb, if_pos hfl]
  have hbn : flag = false → b' = l := fun hfl => by rw [eb, hfl]; simp
  -- the run
  have hmerged : Merged A' δ b' l' := by
    intro u h1 h2
    by_cases hu : u < l
    · cases hfl : flag with
      | true =>
        rw [hbb hfl] at h1
        rw [hA u (by omega) (by omega), hA (u + 1) (by omega) (by omega)]
        exact h.merged u h1 hu
      | false => rw [hbn hfl] at h1; omega
    · by_cases hu' : u = l
      · subst hu'
        cases hfl : flag with
        | true =>
          rw [hbb hfl] at h1
          rw [hA u (by omega) (le_refl _), ha (u + 1) (by omega) (by omega)]
          exact (hf (by omega)).mp hfl
        | false => rw [hbn hfl] at h1; omega
      · rw [ha u (by omega) (by omega), ha (u + 1) (by omega) (by omega)]
        omega
  have hbmax : b' = m ∨ A' (b' + 1) + δ < A' b' := by
    cases hfl : flag with
    | true =>
      rw [hbb hfl]
      rcases h.bmax with h1 | h1
      · exact .inl h1
      · by_cases hbm : b = m
        · exact .inl hbm
        · right
          have : b < l := by
            rcases lt_or_eq_of_le hbl with h2 | h2
            · exact h2
            · have := hroot h2; omega
          rw [hA b (by omega) hbl, hA (b + 1) (by omega) (by omega)]
          exact h1
    | false =>
      rw [hbn hfl]
      by_cases hlm : l = m
      · exact .inl hlm
      · right
        have h1 : m < l := by omega
        rw [hA l h1 (le_refl _), ha (l + 1) (by omega) (by omega)]
        have := (hf h1).not
        rw [hfl] at this
        simpa using this
  -- the pairs that end above the parent
  have hnew : ∀ w v, Adm A' δ stop m l' w v → l < v → (a : Int) < stop ∧ b' ≤ w := by
    intro w v hw hv
    refine ⟨by have := hw.small; rw [ha v hv hw.hi] at this; exact this, ?_⟩
    by_contra hlt
    rcases hbmax with h1 | h1
    · have := hw.lo; omega
    · have := hw.merged b' (by omega) (by omega)
      omega
  have hold : ∀ {w v}, Adm A' δ stop m l' w v → v ≤ l → Adm A δ stop m l w v :=
    fun hw hv => (Adm.congr hA hll.le hv).mp hw
  have hwd : ∀ {w v}, Adm A δ stop m l w v → Adm A' δ stop m l' w v :=
    fun hw => (Adm.congr hA hll.le hw.hi).mpr hw
  have hadm : (a : Int) < stop → Adm A' δ stop m l' b' l' :=
    fun hs => ⟨hb'.1, hb'.2.1, le_refl _, by rw [ha']; exact hs, hmerged⟩
  have hAv : ∀ {w v}, Adm A δ stop m l w v → A' v = A v := fun hw => by
    have := hw.lo; have := hw.lt
    exact hA _ (by omega) hw.hi
  have hav : ∀ {w v}, Adm A δ stop m l w v → a ≤ A v := fun hw => by
    have h1 := hw.lo; have h2 := hw.lt
    rw [← hAv hw]
    exact hlow _ (by omega) hw.hi
  have hup' : up' = true ↔ (a : Int) < stop ∧ r < res := by rw [eu]; simp
  -- what is kept of a witness when `r` does not change
  have hkeep : (0 < r ∧ ∃ w v v0, Adm A δ stop m l w v ∧ v - w = r ∧ Adm A δ stop m l w v0 ∧ v0 ≤ v ∧
      i = A v0 + 1 ∧ (∀ w' v', Adm A δ stop m l w' v' → v' ≤ w → v' - w' < v0 - w) ∧
      ∀ v', Adm A δ stop m l w v' → A v0 < A v' → ∃ w' v1, Adm A δ stop m l w' v1 ∧ v1 ≤ w ∧ v' - w ≤ v1 - w') →
      (0 < r ∧ ∃ w v v0, Adm A' δ stop m l' w v ∧ v - w = r ∧ Adm A' δ stop m l' w v0 ∧ v0 ≤ v ∧
      i = A' v0 + 1 ∧ (∀ w' v', Adm A' δ stop m l' w' v' → v' ≤ w → v' - w' < v0 - w) ∧
      ∀ v', Adm A' δ stop m l' w v' → A' v0 < A' v' →
        ∃ w' v1, Adm A' δ stop m l' w' v1 ∧ v1 ≤ w ∧ v' - w ≤ v1 - w') := by
    rintro ⟨h0, w, v, v0, h1, h2, h3, h4, h5, h6, h7⟩
    have hw := h1.lt
    have hv := h1.hi
    refine ⟨h0, w, v, v0, hwd h1, h2, hwd h3, h4, by rw [hAv h3]; exact h5, fun w' v' h8 h9 =>
      h6 w' v' (hold h8 (by omega)) h9, fun v' h8 h9 => ?_⟩
    by_cases hv' : v' ≤ l
    · have h10 := hold h8 hv'
      rw [hAv h3, hAv h10] at h9
      obtain ⟨w', v1, h11, h12, h13⟩ := h7 v' h10 h9
      exact ⟨w', v1, hwd h11, h12, h13⟩
    · rw [ha v' (by omega) h8.hi, hAv h3] at h9
      have := hav h3
      omega
  have hub : ∀ w v, Adm A' δ stop m l' w v → v - w ≤ r' := by
    intro w v hw
    by_cases hv : v ≤ l
    · have h1 := h.res.ub w v (hold hw hv)
      rw [er']
      split
      · rename_i hu
        have := (hup'.mp hu).2
        omega
      · exact h1
    · obtain ⟨h1, h2⟩ := hnew w v hw (by omega)
      have h3 := hw.hi
      rw [er']
      split
      · omega
      · rename_i hu
        have : ¬ r < res := fun h4 => hu (hup'.mpr ⟨h1, h4⟩)
        omega
  cases hu : up' with
  | true =>
    obtain ⟨hs, hr⟩ := hup'.mp hu
    rw [hu] at er' ei
    simp only [if_true] at er'
    rw [if_pos hs] at ei
    simp only [Bool.true_and] at ei
    have hr0 : 0 ≤ r := by
      rcases h.res.wit with ⟨h1, _⟩ | ⟨h1, _⟩ <;> omega
    have hdata : ∃ v0, Adm A' δ stop m l' b' v0 ∧ i' = A' v0 + 1 ∧
        (∀ w' v', Adm A' δ stop m l' w' v' → v' ≤ b' → v' - w' < v0 - b') ∧
        ∀ v', Adm A' δ stop m l' b' v' → A' v0 < A' v' →
          ∃ w' v1, Adm A' δ stop m l' w' v1 ∧ v1 ≤ b' ∧ v' - b' ≤ v1 - w' := by
      cases hfl : flag with
      | true =>
        have hbe := hbb hfl
        cases hup : up with
        | true =>
          obtain ⟨hml', _, _, v0, h1, h2, h3, h4⟩ := h.yes hup
          rw [hup, hfl] at ei
          simp at ei
          refine ⟨v0, by rw [hbe]; exact hwd h1, by rw [ei, hAv h1]; exact h2, fun w' v' h5 h6 => ?_, fun v' h5 h6 => ?_⟩
          · rw [hbe] at h6 ⊢
            exact h3 w' v' (hold h5 (by omega)) h6
          · rw [hbe] at h5 ⊢
            by_cases hv' : v' ≤ l
            · have h7 := hold h5 hv'
              rw [hAv h1, hAv h7] at h6
              obtain ⟨w', v1, h8, h9, h10⟩ := h4 v' h7 h6
              exact ⟨w', v1, hwd h8, h9, h10⟩
            · rw [ha v' (by omega) h5.hi, hAv h1] at h6
              have := hav h1
              omega
        | false =>
          rw [hup] at ei
          simp at ei
          refine ⟨l', hadm hs, by rw [ei, ha'], fun w' v' h5 h6 => ?_, fun v' h5 h6 => ?_⟩
          · have := h.res.ub w' v' (hold h5 (by omega))
            omega
          · by_cases hv' : v' ≤ l
            · have h7 := hold h5 hv'
              have h8 := h.res.ub _ _ h7
              have h9 := h7.lt
              rcases h.no hup with h10 | ⟨w, v, h10, h11, h12⟩
              · omega
              · exact ⟨w, v, hwd h10, by omega, by omega⟩
            · rw [ha v' (by omega) h5.hi, ha'] at h6
              omega
      | false =>
        have hbe := hbn hfl
        rw [hfl] at ei
        simp at ei
        refine ⟨l', hadm hs, by rw [ei, ha'], fun w' v' h5 h6 => ?_, fun v' h5 h6 => ?_⟩
        · have := h.res.ub w' v' (hold h5 (by omega))
          omega
        · have h7 := h5.lt
          rw [ha v' (by omega) h5.hi, ha'] at h6
          omega
    refine ⟨hb'.1, hb'.2.1.le, fun e => by omega, hanti, hmerged, hbmax, ⟨by rwa [hu] at *, .inr ⟨by omega, ?_⟩⟩,
      fun _ => ⟨by omega, by rw [ha']; exact hs, by omega, hdata⟩, fun e => by simp at e⟩
    obtain ⟨v0, h1, h2, h3, h4⟩ := hdata
    exact ⟨b', l', v0, hadm hs, by omega, h1, h1.hi, h2, h3, h4⟩
  | false =>
    rw [hu] at er' ei
    simp at er'
    simp only [Bool.false_and, Bool.false_eq_true, if_false] at ei
    have hnu : ¬ ((a : Int) < stop ∧ r < res) := fun h1 => by simp [hup'.mpr h1] at hu
    have hbig : ¬ (a : Int) < stop → r = 0 ∧ i = 0 := by
      intro hs
      rcases h.res.wit with h1 | ⟨_, w, v, _, h1, _⟩
      · exact h1
      · have h2 := h1.small
        have h3 := hav h1
        omega
    refine ⟨hb'.1, hb'.2.1.le, fun e => by omega, hanti, hmerged, hbmax, ⟨by rwa [hu] at *, ?_⟩,
      fun e => by simp at e, fun _ => ?_⟩
    · rw [er']
      by_cases hs : (a : Int) < stop
      · rw [if_pos hs] at ei
        rw [ei]
        exact h.res.wit.imp id hkeep
      · rw [if_neg hs] at ei
        exact .inl ⟨(hbig hs).1, ei⟩
    · rw [er']
      cases hup : up with
      | true =>
        obtain ⟨h1, h2, h3, _⟩ := h.yes hup
        have h4 := hm h1
        have hs : (a : Int) < stop := by omega
        have h5 : ¬ r < res := fun h6 => hnu ⟨hs, h6⟩
        cases hfl : flag with
        | true => have := hbb hfl; omega
        | false =>
          rcases h.res.wit with h6 | ⟨_, w, v, _, h6, h7, _⟩
          · exact .inl h6.1
          · exact .inr ⟨w, v, hwd h6, h7, by rw [hbn hfl]; exact h6.hi⟩
      | false =>
        rcases h.no hup with h6 | ⟨w, v, h6, h7, h8⟩
        · exact .inl h6
        · exact .inr ⟨w, v, hwd h6, h7, by rw [eb]; split <;> omega⟩

/-- At the root. -/
theorem UO.start (A : Int → Nat) (δ : Nat) (stop m : Int) : UO A δ stop m m m 0 0 false := by
  refine ⟨le_refl _, le_refl _, fun _ => rfl, fun u v h1 h2 h3 => by omega, fun u h1 h2 => by omega, .inl rfl,
    ⟨fun w v h => ?_, .inl ⟨rfl, rfl⟩⟩, fun e => by simp at e, fun _ => .inl rfl⟩
  have := h.lo; have := h.lt; have := h.hi
  omega

/-- Without merging, the indicator of a run is that of any of its levels. -/
theorem UO.same (h : UO A 0 stop m l b r i true) : i = A l + 1 := by
  obtain ⟨h1, _, _, v0, h2, h3, _⟩ := h.yes rfl
  have hA : ∀ n : Nat, ∀ v, b < v → v + n = l → A v ≤ A l := by
    intro n
    induction n with
    | zero => intro v _ e; rw [show v = l by omega]
    | succ n ih =>
      intro v hv e
      have := h.merged v hv (by omega)
      have := ih (v + 1) (by omega) (by omega)
      omega
  have h4 := h2.lt
  have h5 := h2.hi
  have h6 := hA (l - v0).toNat v0 h4 (by omega)
  have h7 := h.anti v0 l (by have := h.mb; omega) h5 (le_refl _)
  omega

end
end Smil
