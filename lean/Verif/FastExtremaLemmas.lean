import Verif.FastExtrema
import Verif.PropsArrow
import Verif.PropsLabel
import Mathlib.Data.Finset.Card
import Mathlib.Logic.Relation

/-! # Lemmas on the propagation along arrows -/

namespace Smil
open StrElt
variable {n : Nat}

section prop
variable {β : Type} [DecidableEq β]

/-- Pixels which do not have the value. -/
def unset (N : Nat) (v : β) (f : Nat → β) : Nat := ((Finset.range N).filter fun i => f i ≠ v).card

theorem unset_put {N : Nat} {v : β} {f : Nat → β} {j : Nat} (hj : j < N) (hv : f j ≠ v) :
    unset N v (fun i => if i = j then v else f i) + 1 = unset N v f := by
  unfold unset
  have e : (Finset.range N).filter (fun i => (if i = j then v else f i) ≠ v) =
      ((Finset.range N).filter fun i => f i ≠ v).erase j := by
    ext i
    simp only [Finset.mem_filter, Finset.mem_range, Finset.mem_erase]
    by_cases e : i = j
    · simp [e]
    · simp [e]
  rw [e]
  exact Finset.card_erase_add_one (by simp [hj, hv])

theorem arrowVisit_spec (N : Nat) (v : β) (l : List Nat) (hl : ∀ j ∈ l, j < N) :
    ∀ (q : List Nat) (f : Nat → β),
      (∀ i, (arrowVisit v l (q, f)).2 i = if i ∈ l then v else f i) ∧
      (∀ i, i ∈ (arrowVisit v l (q, f)).1 ↔ i ∈ q ∨ (i ∈ l ∧ f i ≠ v)) ∧
      (arrowVisit v l (q, f)).1.length + unset N v (arrowVisit v l (q, f)).2 = q.length + unset N v f := by
  induction l with
  | nil => intro q f; simp [arrowVisit]
  | cons j l ih =>
    intro q f
    have hl' : ∀ j ∈ l, j < N := fun i hi => hl i (by simp [hi])
    unfold arrowVisit
    by_cases h : f j ≠ v
    · rw [if_pos h]
      obtain ⟨h1, h2, h3⟩ := ih hl' (q ++ [j]) (fun i => if i = j then v else f i)
      refine ⟨fun i => ?_, fun i => ?_, ?_⟩
      · rw [h1]
        by_cases e : i = j <;> by_cases e' : i ∈ l <;> simp [e, e']
      · rw [h2]
        by_cases e : i = j
        · subst e; simp [h]
        · simp [e]
      · rw [h3]
        have := unset_put (N := N) (hl j (by simp)) h
        simp only [List.length_append, List.length_singleton]
        omega
    · rw [if_neg h]
      obtain ⟨h1, h2, h3⟩ := ih hl' q f
      push Not at h
      refine ⟨fun i => ?_, fun i => ?_, h3⟩
      · rw [h1]
        by_cases e : i = j
        · subst e; simp [h]
        · simp [e]
      · rw [h2]
        by_cases e : i = j
        · subst e; simp [h]
        · simp [e]

/-- The propagation ends; it gives the value to pixels reached by arrows from the queue, and the arrows from the
queue and from the new pixels lead to pixels with the value. -/
theorem arrowQueue_spec (N : Nat) (nb : Nat → List Nat) (hnb : ∀ o, ∀ j ∈ nb o, j < N) (v : β) :
    ∀ (k : Nat) (q : List Nat) (f : Nat → β), q.length + unset N v f ≤ k →
      ∃ g, arrowQueue nb v k q f = some g ∧
        (∀ i, g i = f i ∨ (g i = v ∧ ∃ o ∈ q, Relation.TransGen (fun a b => b ∈ nb a) o i)) ∧
        (∀ i, f i = v → g i = v) ∧
        (∀ i, (i ∈ q ∨ (g i = v ∧ f i ≠ v)) → ∀ j ∈ nb i, g j = v) := by
  intro k
  induction k with
  | zero =>
    intro q f h
    have hq : q = [] := List.length_eq_zero_iff.mp (by omega)
    subst hq
    exact ⟨f, rfl, fun i => .inl rfl, fun i h => h, fun i h => by rcases h with h | ⟨h, h'⟩; simp at h; exact absurd h h'⟩
  | succ k ih =>
    intro q f h
    match q with
    | [] =>
      exact ⟨f, rfl, fun i => .inl rfl, fun i h => h,
        fun i h => by rcases h with h | ⟨h, h'⟩; simp at h; exact absurd h h'⟩
    | o :: q =>
      unfold arrowQueue
      simp only
      obtain ⟨h1, h2, h3⟩ := arrowVisit_spec N v (nb o) (hnb o) q f
      generalize arrowVisit v (nb o) (q, f) = st at h1 h2 h3
      obtain ⟨g, hg, ha, hb, hc⟩ := ih st.1 st.2 (by simp only [List.length_cons] at h; omega)
      refine ⟨g, hg, fun i => ?_, fun i hi => ?_, fun i hi j hj => ?_⟩
      · have base : ∀ a, a ∈ nb o → Relation.TransGen (fun a b => b ∈ nb a) o a :=
          fun a h => Relation.TransGen.single h
        rcases ha i with e | ⟨e, a, ha, hr⟩
        · rw [h1] at e
          by_cases hi : i ∈ nb o
          · rw [if_pos hi] at e
            exact .inr ⟨e, o, by simp, base i hi⟩
          · rw [if_neg hi] at e; exact .inl e
        · right
          refine ⟨e, ?_⟩
          rcases (h2 a).mp ha with h | ⟨h, _⟩
          · exact ⟨a, by simp [h], hr⟩
          · exact ⟨o, by simp, (base a h).trans hr⟩
      · apply hb; rw [h1]; split <;> simp [hi]
      · rcases hi with hi | ⟨hi, hi'⟩
        · rcases List.mem_cons.mp hi with rfl | hi
          · apply hb; rw [h1, if_pos hj]
          · exact hc i (.inl ((h2 i).mpr (.inl hi))) j hj
        · by_cases e : st.2 i = v
          · have : i ∈ nb o := by
              by_contra hn
              rw [h1, if_neg hn] at e; exact hi' e
            exact hc i (.inl ((h2 i).mpr (.inr ⟨this, hi'⟩))) j hj
          · exact hc i (.inr ⟨hi, e⟩) j hj

end prop

/-! ### The scan -/

theorem arrowNb_lt {D : Dims} {se : StrElt} {a : BitVec n} {o : Nat} (ho : o < D.count) :
    ∀ j ∈ arrowNb D se a o, j < D.count := by
  intro j hj
  unfold arrowNb at hj
  rw [List.mem_filterMap] at hj
  obtain ⟨⟨b, k⟩, hb, h⟩ := hj
  simp only at h
  split at h
  · apply nbOffsets_lt (se := se) ho
    unfold nbOffsets
    rw [List.mem_filterMap]
    exact ⟨b, (List.mem_zipIdx' hb).2 ▸ List.getElem_mem _, h⟩
  · simp at h

section scan
variable (sg : Bool) (D : Dims) (se : StrElt) (arrows : Nat → BitVec n) (M : Nat → Prop) (mx : BitVec n)

/-- Arrow from a pixel to another one. -/
def ArrowTo (a b : Nat) : Prop := a < D.count ∧ b ∈ arrowNb D se (arrows a) a

/-- Reached by arrows from a pixel of the image out of `M`. -/
def ArrowReach (i : Nat) : Prop :=
  ∃ j, j < D.count ∧ ¬ M j ∧ Relation.ReflTransGen (ArrowTo D se arrows) j i

/-- All the arrows of the pixel lead to 1. -/
def ArrowClosed (f : Nat → BitVec n) (i : Nat) : Prop := ∀ j, ArrowTo D se arrows i j → f j = 1

/-- Invariant of the scan. -/
structure FastInv (f : Nat → BitVec n) : Prop where
  cls : ∀ i, i < D.count →
    (f i = 0 ∧ ¬ M i) ∨ (f i = 1 ∧ ArrowReach D se arrows M i) ∨ (f i = mx ∧ M i)
  cl : ∀ i, f i = 1 → ArrowClosed D se arrows f i

variable {D se arrows M mx}

theorem arrowPropagate_spec {β : Type} [DecidableEq β] (v : β) {o : Nat} (ho : o < D.count) (f : Nat → β) :
    ∃ g, arrowPropagate D se arrows v o f = some g ∧
      (∀ i, g i = f i ∨ (g i = v ∧ Relation.TransGen (ArrowTo D se arrows) o i)) ∧
      (∀ i, f i = v → g i = v) ∧ (∀ j, ArrowTo D se arrows o j → g j = v) ∧
      (∀ i, g i = v → f i ≠ v → ∀ j, ArrowTo D se arrows i j → g j = v) := by
  -- only pixels of the image are met
  let nb := fun i => if i < D.count then arrowNb D se (arrows i) i else []
  have hlt : ∀ o, ∀ j ∈ nb o, j < D.count := by
    intro o j hj
    simp only [nb] at hj
    split at hj
    · rename_i h; exact arrowNb_lt h j hj
    · simp at hj
  have hle : unset D.count v f ≤ D.count := by
    unfold unset
    exact (Finset.card_filter_le _ _).trans (by simp)
  obtain ⟨g, hg, h1, h2, h3⟩ := arrowQueue_spec D.count nb hlt v (D.count + 1) [o] f
    (by simp only [List.length_singleton]; omega)
  have hE : ∀ a b, b ∈ nb a ↔ ArrowTo D se arrows a b := by
    intro a b
    simp only [nb, ArrowTo]
    split <;> simp [*]
  have heq : ∀ (k : Nat) (q : List Nat) (f : Nat → β), (∀ i ∈ q, i < D.count) →
      arrowQueue (fun i => arrowNb D se (arrows i) i) v k q f = arrowQueue nb v k q f := by
    intro k
    induction k with
    | zero => intro q f _; cases q <;> rfl
    | succ k ih =>
      intro q f hq
      cases q with
      | nil => rfl
      | cons a q =>
        have ha : a < D.count := hq a (by simp)
        have hn : nb a = arrowNb D se (arrows a) a := by simp only [nb]; rw [if_pos ha]
        unfold arrowQueue
        simp only
        rw [hn]
        apply ih
        intro i hi
        rw [(arrowVisit_spec D.count v (arrowNb D se (arrows a) a) (arrowNb_lt ha) q f).2.1] at hi
        rcases hi with hi | ⟨hi, _⟩
        · exact hq i (by simp [hi])
        · exact arrowNb_lt ha i hi
  refine ⟨g, ?_, fun i => ?_, h2, fun j hj => h3 o (.inl (by simp)) j ((hE _ _).mpr hj),
    fun i hi hi' j hj => h3 i (.inr ⟨hi, hi'⟩) j ((hE _ _).mpr hj)⟩
  · unfold arrowPropagate
    rw [heq _ _ _ (by simpa using ho)]
    exact hg
  · rcases h1 i with h | ⟨h, a, ha, hr⟩
    · exact .inl h
    · simp only [List.mem_singleton] at ha
      subst ha
      refine .inr ⟨h, ?_⟩
      have : (fun a b => b ∈ nb a) = ArrowTo D se arrows := by
        funext a b; exact propext (hE a b)
      rw [this] at hr
      exact hr

theorem FastInv.step {f : Nat → BitVec n} {o : Nat} (hI : FastInv D se arrows M mx f) (ho : o < D.count)
    (h10 : (1 : BitVec n) ≠ 0) (hmx : mx ≠ 0)
    (hpos : ¬ 0 < bvVal sg (arrows o) → ∀ j, ¬ ArrowTo D se arrows o j) :
    ∃ g, fastScanStep sg D se arrows f o = some g ∧ FastInv D se arrows M mx g ∧
      (∀ i, f i = 1 → g i = 1) ∧ (¬ M o → ArrowClosed D se arrows g o) := by
  unfold fastScanStep
  by_cases h : f o = 0 ∧ 0 < bvVal sg (arrows o)
  · rw [if_pos h]
    obtain ⟨g, hg, h1, h2, h3, h4⟩ := arrowPropagate_spec (se := se) (arrows := arrows) (1 : BitVec n) ho f
    have hM : ¬ M o := by
      rcases hI.cls o ho with ⟨_, h'⟩ | ⟨e, _⟩ | ⟨e, _⟩
      · exact h'
      · rw [h.1] at e; exact absurd e.symm h10
      · rw [h.1] at e; exact absurd e.symm hmx
    refine ⟨g, hg, ⟨fun i hi => ?_, fun i hi => ?_⟩, h2, fun _ => h3⟩
    · rcases h1 i with e | ⟨e, hr⟩
      · rw [e]; exact hI.cls i hi
      · exact .inr (.inl ⟨e, o, ho, hM, hr.to_reflTransGen⟩)
    · by_cases e : f i = 1
      · exact fun j hj => h2 j (hI.cl i e j hj)
      · exact h4 i hi e
  · rw [if_neg h]
    refine ⟨f, rfl, hI, fun i h => h, fun hM j hj => ?_⟩
    rcases hI.cls o ho with ⟨e, _⟩ | ⟨e, _⟩ | ⟨_, h'⟩
    · exact absurd hj (hpos (fun hp => h ⟨e, hp⟩) j)
    · exact hI.cl o e j hj
    · exact absurd h' hM

theorem FastInv.scan (h10 : (1 : BitVec n) ≠ 0) (hmx : mx ≠ 0)
    (hpos : ∀ o, o < D.count → ¬ 0 < bvVal sg (arrows o) → ∀ j, ¬ ArrowTo D se arrows o j) (l : List Nat) :
    ∀ (f : Nat → BitVec n), FastInv D se arrows M mx f → (∀ o ∈ l, o < D.count) →
      ∃ g, l.foldlM (fastScanStep sg D se arrows) f = some g ∧ FastInv D se arrows M mx g ∧
        (∀ i, f i = 1 → g i = 1) ∧ ∀ o ∈ l, ¬ M o → ArrowClosed D se arrows g o := by
  induction l with
  | nil => intro f hI _; exact ⟨f, rfl, hI, fun i h => h, by simp⟩
  | cons o l ih =>
    intro f hI hl
    obtain ⟨g, hg, hI1, hm1, hc1⟩ := hI.step sg (hl o (by simp)) h10 hmx (hpos o (hl o (by simp)))
    obtain ⟨g', hg', hI2, hm2, hc2⟩ := ih g hI1 (fun i hi => hl i (by simp [hi]))
    refine ⟨g', ?_, hI2, fun i h => hm2 i (hm1 i h), fun i hi hM => ?_⟩
    · rw [List.foldlM_cons, hg]; exact hg'
    · rcases List.mem_cons.mp hi with rfl | hi
      · exact fun j hj => hm2 j (hc1 hM j hj)
      · exact hc2 i hi hM

/-- After the scan the pixels left at `mx` are those that no arrow path from outside of `M` reaches. -/
theorem fastScan_spec (h10 : (1 : BitVec n) ≠ 0) (hmx : mx ≠ 0) (hmx1 : mx ≠ 1)
    (hpos : ∀ o, o < D.count → ¬ 0 < bvVal sg (arrows o) → ∀ j, ¬ ArrowTo D se arrows o j)
    (f : Nat → BitVec n) (hf : ∀ i, i < D.count → (f i = 0 ∧ ¬ M i) ∨ (f i = mx ∧ M i))
    (hf1 : ∀ i, f i ≠ 1) :
    ∃ g, (List.range D.count).foldlM (fastScanStep sg D se arrows) f = some g ∧
      ∀ i, i < D.count → (ArrowReach D se arrows M i → g i = 0 ∨ g i = 1) ∧
        (¬ ArrowReach D se arrows M i → g i = mx) := by
  obtain ⟨g, hg, hI, -, hc⟩ := FastInv.scan (D := D) (se := se) (arrows := arrows) (M := M) (mx := mx) sg h10 hmx
    hpos (List.range D.count) f
    ⟨fun i hi => by rcases hf i hi with h | h; exact .inl h; exact .inr (.inr h), fun i h => absurd h (hf1 i)⟩
    (fun o ho => List.mem_range.mp ho)
  refine ⟨g, hg, fun i hi => ⟨?_, fun h => ?_⟩⟩
  · rintro ⟨j, hj, hM, hr⟩
    have key : (g i = 0 ∨ g i = 1) ∧ ArrowClosed D se arrows g i := by
      clear hi
      induction hr with
      | refl =>
        refine ⟨?_, hc j (List.mem_range.mpr hj) hM⟩
        rcases hI.cls j hj with ⟨e, _⟩ | ⟨e, _⟩ | ⟨_, h⟩
        · exact .inl e
        · exact .inr e
        · exact absurd h hM
      | @tail b c _ hbc ih =>
        have := ih.2 c hbc
        exact ⟨.inr this, hI.cl c this⟩
    exact key.1
  · rcases hI.cls i hi with ⟨_, hM⟩ | ⟨_, hr⟩ | ⟨e, _⟩
    · exact absurd ⟨i, hi, hM, .refl⟩ h
    · exact absurd hr h
    · exact e

end scan

/-! ### Values -/

theorem bvVal_le_max (sg : Bool) (v : BitVec n) : bvVal sg v ≤ bvVal sg (bvMax sg : BitVec n) := by
  unfold bvVal bvMax
  cases sg
  · simp only [Bool.false_eq_true, if_false, BitVec.toNat_allOnes]
    have := v.isLt
    omega
  · simp only [if_true]
    rw [BitVec.toInt_intMax]
    exact BitVec.toInt_le

theorem bvVal_min_le (sg : Bool) (v : BitVec n) : bvVal sg (bvMin sg : BitVec n) ≤ bvVal sg v := by
  unfold bvVal bvMin
  cases sg
  · simp
  · simp only [if_true]
    exact BitVec.toInt_intMin_le v

theorem bvVal_inj (sg : Bool) {v w : BitVec n} (h : bvVal sg v = bvVal sg w) : v = w := by
  unfold bvVal at h
  cases sg
  · simp only [Bool.false_eq_true, if_false] at h
    exact BitVec.eq_of_toNat_eq (by omega)
  · exact BitVec.toInt_inj.mp (by simpa using h)

theorem bv_one_ne (h : 3 ≤ n) : (1 : BitVec n) ≠ 0 := by
  intro e
  have := congrArg BitVec.toNat e
  have h2 : 2 ^ 1 ≤ 2 ^ n := Nat.pow_le_pow_right (by omega) (by omega)
  simp at this
  omega

theorem two_pow_ge {n : Nat} (h : 3 ≤ n) : 4 ≤ 2 ^ (n - 1) ∧ 2 ^ n = 2 * 2 ^ (n - 1) := by
  refine ⟨?_, ?_⟩
  · have : 2 ^ 2 ≤ 2 ^ (n - 1) := Nat.pow_le_pow_right (by omega) (by omega)
    omega
  · obtain ⟨k, rfl⟩ : ∃ k, n = k + 1 := ⟨n - 1, by omega⟩
    simp [Nat.pow_succ]; omega

theorem bvMax_toNat (sg : Bool) (h : 3 ≤ n) : 3 ≤ (bvMax sg : BitVec n).toNat ∧
    (sg = true → (bvMax sg : BitVec n).toNat < 2 ^ (n - 1)) := by
  obtain ⟨h1, h2⟩ := two_pow_ge h
  unfold bvMax
  cases sg
  · simp only [Bool.false_eq_true, if_false, BitVec.toNat_allOnes]
    refine ⟨by omega, by simp⟩
  · simp only [if_true, BitVec.toNat_intMax]
    refine ⟨by omega, by omega⟩

/-- A shift of a non-negative value. -/
theorem bvShr_toNat (sg : Bool) (h : 3 ≤ n) (v : BitVec n) (hv : sg = true → v.toNat < 2 ^ (n - 1)) :
    (bvShr sg v).toNat = v.toNat / 2 := by
  obtain ⟨h1, h2⟩ := two_pow_ge h
  unfold bvShr
  cases sg
  · simp [Nat.shiftRight_eq_div_pow]
  · simp only [if_true]
    have hm : v.msb = false := by
      rw [BitVec.msb_eq_decide]; simp; exact hv rfl
    rw [BitVec.sshiftRight_eq_of_msb_false hm]
    simp [Nat.shiftRight_eq_div_pow]

theorem bvShr_zero (sg : Bool) (h : 3 ≤ n) : bvShr sg (0 : BitVec n) = 0 := by
  obtain ⟨h1, h2⟩ := two_pow_ge h
  apply BitVec.eq_of_toNat_eq
  rw [bvShr_toNat sg h _ (by intro; simp)]
  simp

theorem bvShr_one (sg : Bool) (h : 3 ≤ n) : bvShr sg (1 : BitVec n) = 0 := by
  obtain ⟨h1, h2⟩ := two_pow_ge h
  have e : (1 : BitVec n).toNat = 1 := by simp; omega
  apply BitVec.eq_of_toNat_eq
  rw [bvShr_toNat sg h _ (by intro; rw [e]; omega), e]
  simp

theorem bvShr_max (sg : Bool) (h : 3 ≤ n) : bvShr sg (bvMax sg : BitVec n) ≠ 0 := by
  obtain ⟨h1, h2⟩ := bvMax_toNat (n := n) sg h
  intro e
  have := congrArg BitVec.toNat e
  rw [bvShr_toNat sg h _ h2] at this
  simp at this
  omega

theorem bvMax_ne (sg : Bool) (h : 3 ≤ n) : (bvMax sg : BitVec n) ≠ 0 ∧ (bvMax sg : BitVec n) ≠ 1 := by
  obtain ⟨h1, h2⟩ := bvMax_toNat (n := n) sg h
  obtain ⟨h3, h4⟩ := two_pow_ge h
  constructor
  · intro e
    have := congrArg BitVec.toNat e
    simp at this
    omega
  · intro e
    have := congrArg BitVec.toNat e
    have e : (1 : BitVec n).toNat = 1 := by simp; omega
    omega

/-- An arrow value which is not positive has no arrow, when no arrow uses the sign bit. -/
theorem bv_not_pos (sg : Bool) (v : BitVec n) (hs : sg = true → v.getLsbD (n - 1) = false)
    (h : ¬ 0 < bvVal sg v) : v = 0 := by
  unfold bvVal at h
  cases sg
  · simp only [Bool.false_eq_true, if_false] at h
    apply BitVec.eq_of_toNat_eq
    simp; omega
  · simp only [if_true] at h
    have hm : v.msb = false := by
      have := hs rfl
      rw [BitVec.msb_eq_getLsbD_last]; exact this
    rw [BitVec.toInt_eq_toNat_of_msb hm] at h
    apply BitVec.eq_of_toNat_eq
    simp; omega

/-! ### Geometry of the arrows -/

/-- The image of the integers that the pixels stand for. -/
def valImg (sg : Bool) (im : Img (BitVec n)) : Img Int := ⟨im.dims, fun i => bvVal sg (im.buf i)⟩

theorem valImg_at (sg : Bool) (im : Img (BitVec n)) (p : IntPoint) :
    (valImg sg im).at? p = (im.at? p).map (bvVal sg) := by
  by_cases h : Img.In im.dims p
  · rw [Img.buf_offOf im p h, Img.buf_offOf (valImg sg im) p h]; rfl
  · rw [Img.at?_none im p h, Img.at?_none (valImg sg im) p h]; rfl

/-- The targets of the arrows. -/
theorem mem_arrowNb {D : Dims} {se : StrElt} {a : BitVec n} {p : IntPoint} (hp : Img.In D p) (j : Nat) :
    j ∈ arrowNb D se a (offOf D p) ↔ ∃ k b q, se.points[k]? = some b ∧ a.getLsbD k = true ∧ b ≠ ⟨0, 0, 0⟩ ∧
      Img.In D q ∧ offOf D q = j ∧ phys se.odd p + phys se.odd b = phys se.odd q := by
  unfold arrowNb
  rw [List.mem_filterMap]
  constructor
  · rintro ⟨⟨b, k⟩, hb, h⟩
    simp only at h
    split at h
    · rename_i ha
      rw [nbOffset_eq hp] at h
      refine ⟨k, b, _, ?_, ha, h.1, h.2.1, h.2.2, ?_⟩
      · obtain ⟨h1, h2⟩ := List.mem_zipIdx' hb
        rw [h2]; exact List.getElem?_eq_getElem h1
      · have := h.2.1
        unfold Img.In reachPt at this
        simp only at this
        exact phys_reachPt se p b this.2.2.1
    · simp at h
  · rintro ⟨k, b, q, hb, ha, h0, hq, hj, h⟩
    refine ⟨(b, k), ?_, ?_⟩
    · rw [List.mk_mem_zipIdx_iff_getElem?]; exact hb
    · simp only [ha, if_true]
      rw [nbOffset_eq hp]
      have hy : p.y + b.y = q.y := by
        have := congrArg (fun t => t.2.1) h
        simpa [phys] using this
      have hyp : 0 ≤ p.y + b.y := by rw [hy]; unfold Img.In at hq; omega
      have e := phys_inj _ _ _ ((phys_reachPt se p b hyp).symm.trans h)
      rw [e]
      exact ⟨h0, hq, hj⟩

theorem noCenter_ne {se : StrElt} {b : IntPoint} (hb : b ∈ se.noCenter.points) : b ≠ ⟨0, 0, 0⟩ := by
  unfold noCenter at hb
  rw [mem_addPoints] at hb
  rcases hb with hb | hb
  · simp at hb
  · rintro rfl
    simpa using (List.mem_filter.mp hb).2

/-- The number of arrows that the pixels can hold; the sign is not used. -/
def FitsArrows (sg : Bool) (n : Nat) (k : Nat) : Prop := k + (if sg then 1 else 0) ≤ n

instance (sg : Bool) (n k : Nat) : Decidable (FitsArrows sg n k) := by unfold FitsArrows; infer_instance

/-- Step of equal value. -/
def FlatStep (N : IntPoint → IntPoint → Prop) (f : Img Int) (p q : IntPoint) : Prop :=
  N p q ∧ ∃ c, f.at? p = some c ∧ f.at? q = some c

/-- A pixel joined on a plateau to a pixel with a neighbour beyond it. -/
def Beaten (N : IntPoint → IntPoint → Prop) (cmp : Int → Int → Bool) (f : Img Int) (p : IntPoint) : Prop :=
  ∃ q s a b, Relation.ReflTransGen (FlatStep N f) q p ∧ N q s ∧ f.at? q = some a ∧ f.at? s = some b ∧
    cmp a b = true

theorem fastExtrema_spec (sg : Bool) (raw : Nat → BitVec n) (cmp : Int → Int → Bool) (border : BitVec n)
    (hb : ∀ v : BitVec n, cmp (bvVal sg v) (bvVal sg border) = false)
    (se : StrElt) (h1 : se.size = 1) (hse : se.seT ≠ .rhombicuboctahedron) (hne : se.noCenter.points ≠ [])
    (im out : Img (BitVec n)) (hd : out.dims = im.dims)
    (h64 : se.noCenter.points.length ≤ 64) (hfit : FitsArrows sg n se.noCenter.points.length) (h3 : 3 ≤ n)
    (hok : ArrowOK im.dims.w se.noCenter) :
    ∃ r, fastExtrema sg raw cmp border se false im out = some r ∧ r.dims = im.dims ∧
      ∀ p, Img.In im.dims p →
        (Beaten (seRel se.noCenter) cmp (valImg sg im) p → r.at? p = some 0) ∧
        (¬ Beaten (seRel se.noCenter) cmp (valImg sg im) p → r.at? p = some (bvMax sg)) := by
  have hs : se.noCenter.size = 1 := by
    have : ∀ (l : List IntPoint) (e : StrElt), (addPoints e l).size = e.size := by
      intro l
      induction l with
      | nil => intro e; rfl
      | cons b l ih => intro e; unfold addPoints at ih ⊢; rw [List.foldl_cons, ih]; unfold addPoint; split <;> rfl
    unfold noCenter
    rw [this, h1]
  obtain ⟨steep, hst, hst1, hst2⟩ := arrowSingle_spec (n := n) (fun a b => cmp (bvVal sg a) (bvVal sg b)) border raw
    se.noCenter im ⟨im.dims, raw⟩ hne h64 hok
  obtain ⟨equ, heq, heq1, heq2⟩ := arrowSingle_spec (n := n) (fun a b => decide (bvVal sg a = bvVal sg b)) (bvMin sg) raw
    se.noCenter im steep hne h64 hok
  have hlow : ∀ i, i < im.dims.count → ∀ k, (equ.buf i).getLsbD k = true → k < se.noCenter.points.length := by
    intro i hi k hk
    obtain ⟨c1, c2⟩ := coordPt_in hi
    obtain ⟨v, hv, hv'⟩ := heq2 (coordPt im.dims i) _ (Img.buf_offOf im _ c1)
    rw [Img.buf_offOf equ _ (by rw [heq1]; exact c1), heq1, c2] at hv
    cases hv
    obtain ⟨_, b, q, hbk, _⟩ := (hv' k).mp hk
    exact (List.getElem?_eq_some_iff.mp hbk).1
  -- arrows of equality
  have hE : ∀ p, Img.In im.dims p → ∀ j, j ∈ arrowNb im.dims se.noCenter (equ.buf (offOf im.dims p)) (offOf im.dims p) ↔
      ∃ q, offOf im.dims q = j ∧ Img.In im.dims q ∧ FlatStep (seRel se.noCenter) (valImg sg im) p q := by
    intro p hp j
    obtain ⟨v, hv, hv'⟩ := heq2 p _ (Img.buf_offOf im p hp)
    rw [Img.buf_offOf equ p (by rw [heq1]; exact hp), heq1] at hv
    cases hv
    rw [mem_arrowNb hp]
    constructor
    · rintro ⟨k, b, q, hbk, hk, h0, hq, hj, hph⟩
      refine ⟨q, hj, hq, ⟨b, List.mem_of_getElem? hbk, hph⟩, ?_⟩
      obtain ⟨_, b', q', hbk', hph', hc⟩ := (hv' k).mp hk
      rw [hbk] at hbk'; cases hbk'
      rw [hph] at hph'
      have e := phys_inj _ _ _ hph'
      subst e
      rw [Img.buf_offOf im q hq] at hc
      simp only [Option.getD_some, decide_eq_true_eq] at hc
      refine ⟨bvVal sg (im.buf (offOf im.dims p)), ?_, ?_⟩
      · rw [valImg_at, Img.buf_offOf im p hp]; rfl
      · rw [valImg_at, Img.buf_offOf im q hq, hc]; rfl
    · rintro ⟨q, hj, hq, ⟨b, hbm, hph⟩, c, hc1, hc2⟩
      obtain ⟨k, hk, rfl⟩ := List.mem_iff_getElem.mp hbm
      refine ⟨k, _, q, List.getElem?_eq_getElem hk, ?_, noCenter_ne hbm, hq, hj, hph⟩
      rw [hv']
      refine ⟨?_, _, q, List.getElem?_eq_getElem hk, hph, ?_⟩
      · unfold FitsArrows at hfit; split at hfit <;> omega
      · rw [valImg_at, Img.buf_offOf im p hp] at hc1
        rw [valImg_at, Img.buf_offOf im q hq] at hc2
        rw [Img.buf_offOf im q hq]
        simp only [Option.map_some, Option.some.injEq] at hc1 hc2
        simp only [Option.getD_some, decide_eq_true_eq]
        rw [hc1, hc2]
  have hpos : ∀ o, o < im.dims.count → ¬ 0 < bvVal sg (equ.buf o) →
      ∀ j, ¬ ArrowTo im.dims se.noCenter equ.buf o j := by
    rintro o ho h j ⟨_, hj⟩
    have h0 := bv_not_pos sg (equ.buf o) (fun hsg => by
      by_contra hc
      have := hlow o ho (n - 1) (by simpa using hc)
      unfold FitsArrows at hfit
      rw [if_pos hsg] at hfit
      omega) h
    rw [h0] at hj
    unfold arrowNb at hj
    simp at hj
  -- pixels with a neighbour beyond
  have hM : ∀ p, Img.In im.dims p → (¬ steep.buf (offOf im.dims p) = 0 ↔
      ∃ s a b, seRel se.noCenter p s ∧ (valImg sg im).at? p = some a ∧ (valImg sg im).at? s = some b ∧
        cmp a b = true) := by
    intro p hp
    obtain ⟨v, hv, hv'⟩ := hst2 p _ (Img.buf_offOf im p hp)
    rw [Img.buf_offOf steep p (by rw [hst1]; exact hp), hst1] at hv
    cases hv
    constructor
    · intro h
      have : ∃ k, (steep.buf (offOf im.dims p)).getLsbD k = true := by
        by_contra hn
        push Not at hn
        apply h
        apply BitVec.eq_of_getLsbD_eq
        intro i _
        have := hn i
        simpa using this
      obtain ⟨k, hk⟩ := this
      obtain ⟨_, b, q, hbk, hph, hc⟩ := (hv' k).mp hk
      have hq : Img.In im.dims q := by
        by_contra hq
        rw [Img.at?_none im q hq, Option.getD_none] at hc
        simp only [hb] at hc
        simp at hc
      rw [Img.buf_offOf im q hq, Option.getD_some] at hc
      refine ⟨q, _, _, ⟨b, List.mem_of_getElem? hbk, hph⟩, ?_, ?_, hc⟩
      · rw [valImg_at, Img.buf_offOf im p hp]; rfl
      · rw [valImg_at, Img.buf_offOf im q hq]; rfl
    · rintro ⟨s, a, b, ⟨e, hem, hph⟩, ha, hbv, hc⟩ h
      have hsin : Img.In im.dims s := Img.at?_eq_some_in (valImg sg im) _ _ hbv
      obtain ⟨k, hk, rfl⟩ := List.mem_iff_getElem.mp hem
      have : (steep.buf (offOf im.dims p)).getLsbD k = true := by
        rw [hv']
        refine ⟨?_, _, s, List.getElem?_eq_getElem hk, hph, ?_⟩
        · unfold FitsArrows at hfit; split at hfit <;> omega
        · rw [valImg_at, Img.buf_offOf im p hp] at ha
          rw [valImg_at, Img.buf_offOf im s hsin] at hbv
          rw [Img.buf_offOf im s hsin]
          simp only [Option.map_some, Option.some.injEq] at ha hbv
          simp only [Option.getD_some]
          rw [ha, hbv]; exact hc
      rw [h] at this
      simp at this
  have hreach : ∀ p, Img.In im.dims p →
      (ArrowReach im.dims se.noCenter equ.buf (fun i => steep.buf i = 0) (offOf im.dims p) ↔
        Beaten (seRel se.noCenter) cmp (valImg sg im) p) := by
    intro p hp
    constructor
    · rintro ⟨j, hj, hMj, hr⟩
      obtain ⟨c1, c2⟩ := coordPt_in hj
      rw [← c2] at hMj
      obtain ⟨s, a, b, h1, h2, h3, h4⟩ := (hM _ c1).mp hMj
      refine ⟨_, s, a, b, ?_, h1, h2, h3, h4⟩
      have key : ∀ i, Relation.ReflTransGen (ArrowTo im.dims se.noCenter equ.buf) j i → i < im.dims.count →
          Relation.ReflTransGen (FlatStep (seRel se.noCenter) (valImg sg im)) (coordPt im.dims j) (coordPt im.dims i) := by
        intro i hi
        induction hi with
        | refl => intro _; exact .refl
        | @tail b c _ hbc ih =>
          intro hc
          obtain ⟨hbl, hbc⟩ := hbc
          obtain ⟨d1, d2⟩ := coordPt_in hbl
          rw [← d2, hE _ d1] at hbc
          obtain ⟨q, hq1, hq2, hq3⟩ := hbc
          rw [← hq1, coordPt_offOf hq2]
          exact (ih hbl).tail hq3
      have := key _ hr (offOf_lt hp)
      rwa [coordPt_offOf hp] at this
    · rintro ⟨q, s, a, b, hr, h1, h2, h3, h4⟩
      have hq : Img.In im.dims q := Img.at?_eq_some_in (valImg sg im) _ _ h2
      refine ⟨offOf im.dims q, offOf_lt hq, (hM q hq).mpr ⟨s, a, b, h1, h2, h3, h4⟩, ?_⟩
      have key : ∀ t, Relation.ReflTransGen (FlatStep (seRel se.noCenter) (valImg sg im)) q t → Img.In im.dims t →
          Relation.ReflTransGen (ArrowTo im.dims se.noCenter equ.buf) (offOf im.dims q) (offOf im.dims t) := by
        intro t ht
        induction ht with
        | refl => intro _; exact .refl
        | @tail b c _ hbc ih =>
          intro hc
          have hbi : Img.In im.dims b := by
            obtain ⟨_, _, e, _⟩ := hbc
            exact Img.at?_eq_some_in (valImg sg im) _ _ e
          exact (ih hbi).tail ⟨offOf_lt hbi, (hE b hbi _).mpr ⟨c, rfl, hc, hbc⟩⟩
      exact key p hr hp
  obtain ⟨hmx0, hmx1⟩ := bvMax_ne (n := n) sg h3
  obtain ⟨g, hg, hgv⟩ := fastScan_spec (D := im.dims) (se := se.noCenter) (arrows := equ.buf)
    (M := fun i => steep.buf i = 0) (mx := bvMax sg) sg (bv_one_ne h3) hmx0 hmx1 hpos
    (fun i => if steep.buf i = 0 then bvMax sg else 0)
    (fun i _ => by
      by_cases e : steep.buf i = 0
      · right; exact ⟨if_pos e, e⟩
      · left; exact ⟨if_neg e, e⟩)
    (fun i => by
      split
      · exact hmx1
      · exact (bv_one_ne h3).symm)
  refine ⟨⟨im.dims, fun i => if bvShr sg (g i) ≠ 0 then bvMax sg else bvShr sg (g i)⟩, ?_, rfl, fun p hp => ?_⟩
  · unfold fastExtrema
    simp only
    rw [if_neg hne, if_neg (by rintro (h | h); exact h hd; exact hse h)]
    unfold arrowExecSame
    rw [hs]
    simp only [Nat.one_ne_zero, if_false, Bool.false_and, Bool.false_eq_true, Nat.sub_self, arrowIter]
    rw [hst]
    simp only [Option.bind_some]
    rw [heq]
    simp only [Option.bind_some]
    rw [hg]
    rfl
  · have hat : (⟨im.dims, fun i => if bvShr sg (g i) ≠ 0 then bvMax sg else bvShr sg (g i)⟩ : Img (BitVec n)).at? p =
        some (if bvShr sg (g (offOf im.dims p)) ≠ 0 then bvMax sg else bvShr sg (g (offOf im.dims p))) :=
      Img.buf_offOf _ p hp
    obtain ⟨k1, k2⟩ := hgv _ (offOf_lt hp)
    rw [hreach p hp] at k1 k2
    rw [hat]
    refine ⟨fun h => ?_, fun h => ?_⟩
    · rcases k1 h with e | e
      · rw [e, bvShr_zero sg h3]; simp
      · rw [e, bvShr_one sg h3]; simp
    · rw [k2 h, if_pos (bvShr_max sg h3)]

end Smil
