import Verif.Compare
import Verif.PropsMeasures
import Verif.PropsBlobMeasures
import Mathlib.Data.Set.Card
import Mathlib.Tactic.Positivity
import Mathlib.Tactic.FieldSimp
import Mathlib.Tactic.Linarith

/-!
# Specification and lemmas for the similarity of images
-/

namespace Smil
variable {t : PT}

/-- The number of points where the values of the two images satisfy a condition. -/
noncomputable def pixCount (a b : Img (Px t)) (P : Int → Int → Prop) : Nat :=
  {p : IntPoint | ∃ u v, a.at? p = some u ∧ b.at? p = some v ∧ P u.val v.val}.ncard

/-- True positives: nonzero in the two images. -/
noncomputable def nTP (a b : Img (Px t)) : Nat := pixCount a b fun u v => u ≠ 0 ∧ v ≠ 0
/-- False positives: nonzero in the second image only. -/
noncomputable def nFP (a b : Img (Px t)) : Nat := pixCount a b fun u v => u = 0 ∧ v ≠ 0
/-- False negatives: nonzero in the first image only. -/
noncomputable def nFN (a b : Img (Px t)) : Nat := pixCount a b fun u v => u ≠ 0 ∧ v = 0
/-- True negatives: zero in the two images. -/
noncomputable def nTN (a b : Img (Px t)) : Nat := pixCount a b fun u v => u = 0 ∧ v = 0

/-- No negative value. -/
def NonNeg (a : Img (Px t)) : Prop := ∀ p u, a.at? p = some u → 0 ≤ u.val

/-- The pixel at a point of the scan. -/
theorem at_coord (im : Img (Px t)) {D : Dims} (h : im.dims = D) {i : Nat} (hi : i < D.count) : im.at? (coordPt D i) = some (im.buf i) := by
  subst h
  obtain ⟨c1, c2⟩ := coordPt_in hi
  have := Img.buf_offOf im _ c1
  rw [c2] at this
  exact this

theorem buf_of_at (im : Img (Px t)) {D : Dims} (h : im.dims = D) {p : IntPoint} {u : Px t} (hu : im.at? p = some u) :
    offOf D p < D.count ∧ im.buf (offOf D p) = u := by
  subst h
  have hin := Img.at?_eq_some_in _ _ _ hu
  have := Img.buf_offOf im p hin
  rw [hu] at this
  exact ⟨offOf_lt hin, (Option.some.inj this).symm⟩

/-- Counting points is counting offsets. -/
theorem pixCount_eq (a b : Img (Px t)) (P : Int → Int → Prop) (h : b.dims = a.dims)
    [DecidablePred fun i => P (a.buf i).val (b.buf i).val] :
    pixCount a b P = ((Finset.range a.dims.count).filter fun i => P (a.buf i).val (b.buf i).val).card := by
  classical
  unfold pixCount
  have hset : {p : IntPoint | ∃ u v, a.at? p = some u ∧ b.at? p = some v ∧ P u.val v.val} =
      ↑(((Finset.range a.dims.count).filter fun i => P (a.buf i).val (b.buf i).val).image (coordPt a.dims)) := by
    ext p
    simp only [Set.mem_setOf_eq, Finset.coe_image, Finset.coe_filter, Finset.mem_range, Set.mem_image]
    constructor
    · rintro ⟨u, v, hu, hv, hP⟩
      have hin := Img.at?_eq_some_in _ _ _ hu
      refine ⟨offOf a.dims p, ⟨offOf_lt hin, ?_⟩, coordPt_offOf hin⟩
      rw [(buf_of_at a rfl hu).2, (buf_of_at b h hv).2]
      exact hP
    · rintro ⟨i, ⟨hi, hP⟩, rfl⟩
      exact ⟨_, _, at_coord a rfl hi, at_coord b h hi, hP⟩
  rw [hset, Set.ncard_coe_finset, Finset.card_image_of_injOn]
  intro i hi j hj e
  simp only [Finset.coe_filter, Finset.mem_range, Set.mem_setOf_eq] at hi hj
  rw [← (coordPt_in hi.1).2, ← (coordPt_in hj.1).2, e]

theorem area_card (c : Img (Px t)) : areaOf c = ((Finset.range c.dims.count).filter fun i => (c.buf i).val ≠ 0).card := by
  rw [C17_area, Img.vals_eq, List.filter_map, List.length_map]
  rw [← List.toFinset_card_of_nodup (List.Nodup.filter _ List.nodup_range)]
  congr 1
  ext i
  simp

/-- The area of a combination. -/
theorem area_zip (a b : Img (Px t)) (k : Px t → Px t → Px t) (P : Int → Int → Prop) (h : b.dims = a.dims)
    (hk : ∀ i, i < a.dims.count → ((k (a.buf i) (b.buf i)).val ≠ 0 ↔ P (a.buf i).val (b.buf i).val)) :
    areaOf (Img.zipF k a b) = pixCount a b P := by
  classical
  rw [pixCount_eq a b P h, area_card]
  refine congrArg Finset.card (Finset.filter_congr fun i hi => ?_)
  exact hk i (Finset.mem_range.mp hi)

/-- Disjoint conditions. -/
theorem pixCount_add (a b : Img (Px t)) (P Q R : Int → Int → Prop) (h : b.dims = a.dims) (hd : ∀ u v, P u v → ¬ Q u v)
    (hr : ∀ u v, R u v ↔ P u v ∨ Q u v) : pixCount a b R = pixCount a b P + pixCount a b Q := by
  classical
  rw [pixCount_eq a b _ h, pixCount_eq a b _ h, pixCount_eq a b _ h, ← Finset.card_union_of_disjoint, ← Finset.filter_or]
  · refine congrArg Finset.card (Finset.filter_congr fun i _ => hr _ _)
  · rw [Finset.disjoint_filter]
    exact fun i _ => hd _ _

theorem pixCount_all (a b : Img (Px t)) (h : b.dims = a.dims) : pixCount a b (fun _ _ => True) = a.dims.count := by
  classical
  rw [pixCount_eq a b _ h]
  simp

theorem pixCount_swap (a b : Img (Px t)) (P : Int → Int → Prop) : pixCount a b P = pixCount b a fun u v => P v u := by
  unfold pixCount
  congr 1
  ext p
  constructor
  · rintro ⟨u, v, h1, h2, h3⟩; exact ⟨v, u, h2, h1, h3⟩
  · rintro ⟨u, v, h1, h2, h3⟩; exact ⟨v, u, h2, h1, h3⟩

theorem pixCount_mono (a b : Img (Px t)) (P Q : Int → Int → Prop) (h : b.dims = a.dims) (hPQ : ∀ u v, P u v → Q u v) :
    pixCount a b P ≤ pixCount a b Q := by
  classical
  rw [pixCount_eq a b _ h, pixCount_eq a b _ h]
  exact Finset.card_le_card fun i hi => by
    rw [Finset.mem_filter] at hi ⊢
    exact ⟨hi.1, hPQ _ _ hi.2⟩

/-- The areas in terms of the four counts. -/
structure Counts (a b : Img (Px t)) : Prop where
  inf : areaOf (Img.zipF kInf a b) = nTP a b
  sup : areaOf (Img.zipF kSup a b) = nTP a b + nFP a b + nFN a b
  first : areaOf a = nTP a b + nFN a b
  second : areaOf b = nTP a b + nFP a b
  land : areaOf (Img.zipF kLogicAnd a b) = nTP a b
  lor : areaOf (Img.zipF kLogicOr a b) = nTP a b + nFP a b + nFN a b
  all : a.dims.count = nTP a b + nFP a b + nFN a b + nTN a b

theorem buf_nonneg {a : Img (Px t)} (ha : NonNeg a) {i : Nat} (hi : i < a.dims.count) : 0 ≤ (a.buf i).val := by
  exact ha _ _ (at_coord a rfl hi)

theorem truthy_val (a : Px t) : a.truthy = true ↔ a.val ≠ 0 := by
  unfold Px.truthy; simp

theorem wrap_bool_ne (t : PT) (hb : 1 ≤ t.hi) (c : Bool) : (t.wrap (if c then 1 else 0)).val ≠ 0 ↔ c = true := by
  cases c
  · rw [if_neg (by simp), t.wrap_of_mem t.lo_nonpos t.hi_nonneg]; simp
  · rw [if_pos rfl, t.wrap_of_mem (by have := t.lo_nonpos; omega) hb]; simp

theorem counts_any (a b : Img (Px t)) (h : b.dims = a.dims) :
    pixCount a b (fun u _ => u ≠ 0) = nTP a b + nFN a b ∧ pixCount a b (fun _ v => v ≠ 0) = nTP a b + nFP a b ∧
    pixCount a b (fun u v => u ≠ 0 ∨ v ≠ 0) = nTP a b + nFP a b + nFN a b := by
  refine ⟨pixCount_add a b _ _ _ h (by intro u v; tauto) (by intro u v; tauto), pixCount_add a b _ _ _ h (by intro u v; tauto)
    (by intro u v; tauto), ?_⟩
  rw [pixCount_add a b (fun _ v => v ≠ 0) (fun u v => u ≠ 0 ∧ v = 0) _ h (by intro u v; tauto) (by intro u v; tauto),
    pixCount_add a b (fun u v => u ≠ 0 ∧ v ≠ 0) (fun u v => u = 0 ∧ v ≠ 0) (fun _ v => v ≠ 0) h (by intro u v; tauto) (by intro u v; tauto)]
  rfl

theorem counts_of (a b : Img (Px t)) (h : b.dims = a.dims) (hb1 : 1 ≤ t.hi) (ha : NonNeg a) (hb : NonNeg b) : Counts a b := by
  obtain ⟨c1, c2, c3⟩ := counts_any a b h
  have hn : ∀ i, i < a.dims.count → 0 ≤ (a.buf i).val ∧ 0 ≤ (b.buf i).val := fun i hi =>
    ⟨buf_nonneg ha hi, buf_nonneg hb (by rw [h]; exact hi)⟩
  refine ⟨?_, ?_, ?_, ?_, ?_, ?_, ?_⟩
  · refine area_zip a b kInf _ h fun i hi => ?_
    obtain ⟨n1, n2⟩ := hn i hi
    unfold kInf
    by_cases hlt : a.buf i < b.buf i
    · rw [if_pos hlt]
      have := Px.lt_iff.mp hlt
      constructor
      · intro h0; exact ⟨h0, by omega⟩
      · exact fun h0 => h0.1
    · rw [if_neg hlt]
      have : ¬ (a.buf i).val < (b.buf i).val := fun hc => hlt (Px.lt_iff.mpr hc)
      constructor
      · intro h0; exact ⟨by omega, h0⟩
      · exact fun h0 => h0.2
  · rw [← c3]
    refine area_zip a b kSup _ h fun i hi => ?_
    obtain ⟨n1, n2⟩ := hn i hi
    unfold kSup
    by_cases hlt : a.buf i > b.buf i
    · rw [if_pos hlt]
      have := Px.lt_iff.mp hlt
      constructor
      · intro h0; exact Or.inl h0
      · intro _; omega
    · rw [if_neg hlt]
      have : ¬ (b.buf i).val < (a.buf i).val := fun hc => hlt (Px.lt_iff.mpr hc)
      constructor
      · intro h0; exact Or.inr h0
      · intro h0; omega
  · rw [← c1]
    exact area_zip a b (fun u _ => u) _ h fun i hi => Iff.rfl
  · classical
    rw [← c2, area_card, pixCount_eq a b _ h, h]
  · refine area_zip a b kLogicAnd _ h fun i hi => ?_
    unfold kLogicAnd
    rw [wrap_bool_ne t hb1, Bool.and_eq_true, truthy_val, truthy_val]
  · rw [← c3]
    refine area_zip a b kLogicOr _ h fun i hi => ?_
    unfold kLogicOr
    rw [wrap_bool_ne t hb1, Bool.or_eq_true, truthy_val, truthy_val]
  · rw [← pixCount_all a b h, ← c3]
    exact pixCount_add a b _ _ _ h (by intro u v; tauto) (by intro u v; tauto)

/-- The sum of a function of the pairs of values. -/
def pixSum (a b : Img (Px t)) (f : Int → Int → Int) : Int := ∑ i ∈ Finset.range a.dims.count, f (a.buf i).val (b.buf i).val

theorem vol_zip (a b : Img (Px t)) (k : Px t → Px t → Px t) (f : Int → Int → Int) (hk : ∀ u v, (k u v).val = f u.val v.val) :
    volOf (Img.zipF k a b) = pixSum a b f := by
  rw [C17_vol, Img.vals_eq, List.map_map]
  unfold pixSum
  have : ∀ n, ((List.range n).map (Px.val ∘ (Img.zipF k a b).buf)).sum = ∑ i ∈ Finset.range n, f (a.buf i).val (b.buf i).val := by
    intro n
    induction n with
    | zero => rfl
    | succ n ih =>
      rw [List.range_succ, List.map_append, List.sum_append, ih, Finset.sum_range_succ]
      simp [Img.zipF, hk]
  exact this _

end Smil
