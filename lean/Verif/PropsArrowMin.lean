import Verif.ArrowMin
import Verif.PropsArrow
import Verif.PropsLabel
import Verif.PropsBuild

/-! # C88: arrows towards the lowest neighbours -/

namespace Smil
open StrElt
variable {α : Type} [LinearOrder α] {n : Nat}

theorem arrowMin_add (a : BitVec n) (c : Prop) [Decidable c] (k j : Nat) (ha : ∀ j, k ≤ j → a.getLsbD j = false) :
    (a + (if c then BitVec.ofNat n (2 ^ k) else 0)).getLsbD j = (a.getLsbD j || (decide c && (decide (j < n) && decide (j = k)))) := by
  by_cases hc : c
  · rw [if_pos hc, decide_eq_true hc, Bool.true_and, ← getLsbD_pow, ← BitVec.getLsbD_or]
    rw [BitVec.add_eq_or_of_and_eq_zero]
    apply BitVec.eq_of_getLsbD_eq
    intro i hi
    rw [BitVec.getLsbD_and, getLsbD_pow, BitVec.getLsbD_zero]
    by_cases hik : i = k
    · rw [ha i (by omega)]
      rfl
    · simp [hik]
  · rw [if_neg hc, decide_eq_false hc]
    simp

theorem foldl_min_glb (vs : List α) (a : α) : vs.foldl min a ≤ a ∧ (∀ v ∈ vs, vs.foldl min a ≤ v) ∧ (vs.foldl min a = a ∨ vs.foldl min a ∈ vs) := by
  induction vs generalizing a with
  | nil => simp
  | cons v vs ih =>
    rw [List.foldl_cons]
    obtain ⟨h1, h2, h3⟩ := ih (min a v)
    refine ⟨h1.trans (min_le_left _ _), ?_, ?_⟩
    · intro w hw
      rw [List.mem_cons] at hw
      rcases hw with rfl | hw
      · exact h1.trans (min_le_right _ _)
      · exact h2 w hw
    · rcases h3 with h3 | h3
      · rcases min_choice a v with h | h
        · exact Or.inl (h3.trans h)
        · right
          rw [h3, h]
          exact List.mem_cons_self
      · exact Or.inr (List.mem_cons_of_mem _ h3)

theorem arrowMinPx_fold (vs : List α) (k : Nat) (m : α) (a : BitVec n) (ha : ∀ j, k ≤ j → a.getLsbD j = false) :
    let r := (vs.zipIdx k).foldl (fun s vk => arrowMinPx s vk.1 vk.2) (m, a)
    r.1 = vs.foldl min m ∧ ∀ j, r.2.getLsbD j = true ↔ j < n ∧ ((k ≤ j ∧ vs[j - k]? = some r.1) ∨ (j < k ∧ a.getLsbD j = true ∧ r.1 = m)) := by
  induction vs generalizing k m a with
  | nil =>
    refine ⟨rfl, fun j => ?_⟩
    simp only [List.zipIdx_nil, List.foldl_nil, List.getElem?_nil, reduceCtorEq, and_false, false_or, and_true]
    constructor
    · intro h
      refine ⟨BitVec.lt_of_getLsbD h, ?_, h⟩
      by_contra hk
      rw [ha j (by omega)] at h
      cases h
    · exact fun h => h.2.2
  | cons v vs ih =>
    simp only [List.zipIdx_cons, List.foldl_cons]
    have hm : (if v < m then v else m) = min m v := by
      rw [min_def]
      by_cases h : v < m
      · rw [if_pos h, if_neg (not_le.mpr h)]
      · rw [if_neg h, if_pos (not_lt.mp h)]
    set a0 : BitVec n := if decide (v < m) then 0 else a with ha0
    have hz : ∀ j, k ≤ j → a0.getLsbD j = false := by
      intro j hj
      rw [ha0]
      split
      · simp
      · exact ha j hj
    have hpx : arrowMinPx (m, a) v k = (min m v, a0 + (if v = min m v then BitVec.ofNat n (2 ^ k) else 0)) := by
      unfold arrowMinPx
      simp only [hm]
      rfl
    rw [hpx]
    have hadd := fun j => arrowMin_add a0 (v = min m v) k j hz
    obtain ⟨h1, h2⟩ := ih (k + 1) (min m v) (a0 + (if v = min m v then BitVec.ofNat n (2 ^ k) else 0)) (by
      intro j hj
      rw [hadd j, hz j (by omega)]
      simp [show j ≠ k by omega])
    refine ⟨h1, fun j => ?_⟩
    rw [h2 j]
    clear h2
    have hle := (foldl_min_glb vs (min m v)).1
    rw [← h1] at hle
    generalize (List.foldl (fun s vk => arrowMinPx s vk.1 vk.2) _ (vs.zipIdx (k + 1))).1 = r at hle
    refine and_congr_right fun hjn => ?_
    rw [hadd j]
    rcases Nat.lt_trichotomy j k with hj | rfl | hj
    · have e1 : ¬ (k + 1 ≤ j) := by omega
      have e2 : ¬ (k ≤ j) := by omega
      simp only [e1, e2, false_and, false_or, hj, show j < k + 1 by omega, true_and, show j ≠ k by omega, decide_false, Bool.and_false, Bool.or_false]
      rw [ha0]
      by_cases hv : v < m
      · have z0 : (0 : BitVec n).getLsbD j = false := by simp
        simp only [hv, decide_true, if_true, z0, Bool.false_eq_true, false_and, false_iff, not_and]
        intro _ hr
        rw [hr, min_eq_right hv.le] at hle
        exact absurd hle (not_le.mpr hv)
      · simp only [hv, decide_false, Bool.false_eq_true, if_false]
        rw [min_eq_left (not_lt.mp hv)]
    · have e1 : ¬ (j + 1 ≤ j) := by omega
      have e2 : ¬ (j < j) := by omega
      simp only [e1, false_and, false_or, e2, or_false, le_refl, true_and, Nat.sub_self, List.getElem?_cons_zero, Option.some.injEq, hjn, decide_true,
        Bool.and_true, hz j le_rfl, Bool.false_or, decide_eq_true_eq, Nat.lt_succ_self]
      constructor
      · rintro ⟨p, q⟩
        rw [q, ← p]
      · intro h
        have : v ≤ min m v := h.trans_le hle
        have e : v = min m v := le_antisymm this (min_le_right _ _)
        exact ⟨e, h.symm.trans e⟩
    · have e1 : ¬ (j < k) := by omega
      have e2 : ¬ (j < k + 1) := by omega
      simp only [e1, e2, false_and, or_false, show k + 1 ≤ j by omega, show k ≤ j by omega, true_and]
      rw [show j - k = (j - (k + 1)) + 1 by omega, List.getElem?_cons_succ]

/-- The points of the element stay in the slice. -/
def Flat (se : StrElt) : Prop := ∀ b ∈ se.points, b.z = 0

omit [LinearOrder α] in
theorem arrowMinTerm_flat (border : α) (im : Img α) (odd : Bool) (s l : Nat) (b : IntPoint) (out : Line α) (h : b.z = 0) :
    arrowMinTerm border im odd s l b out = arrowTerm border im odd s l b out := by
  unfold arrowMinTerm arrowTerm extractLine
  simp only [h, add_zero, Int.toNat_natCast]

theorem arrowMinLine_spec (sel : α → α → α) (border : α) (im : Img α) (odd : Bool) (s l : Nat) :
    ∀ (pts : List IntPoint) (k : Nat) (acc : Line (α × BitVec n)), k + pts.length ≤ 64 →
      (∀ b ∈ pts, b.z = 0 ∧ -(im.dims.w : Int) ≤ b.x ∧ b.x + (if odd && cOdd b.y then 1 else 0) ≤ im.dims.w) →
      ∃ t, (pts.zipIdx k).foldlM (arrowMinTurn sel border im odd s l) acc = some t ∧ ∀ i, i < im.dims.w →
        t i = ((pts.map fun b => sel (im.px i l s) ((im.at? (arrowPt odd (Img.pt i l s) b)).getD border)).zipIdx k).foldl
          (fun s vk => arrowMinPx s vk.1 vk.2) (acc i) := by
  intro pts
  induction pts with
  | nil =>
    intro k acc _ _
    exact ⟨acc, rfl, fun i _ => rfl⟩
  | cons b pts ih =>
    intro k acc hk hb
    obtain ⟨b1, b2, b3⟩ := hb b (by simp)
    obtain ⟨t, ht, hv⟩ := arrowTerm_spec border im odd s l b (fun _ => border) b2 b3
    simp only [List.length_cons] at hk
    obtain ⟨r, hr, hri⟩ := ih (k + 1) (fun i => if i < im.dims.w then arrowMinPx (acc i) (sel (im.px i l s) (t i)) k else acc i) (by omega)
      (fun c hc => hb c (by simp [hc]))
    refine ⟨r, ?_, fun i hi => ?_⟩
    · rw [List.zipIdx_cons, List.foldlM_cons]
      have : arrowMinTurn sel border im odd s l acc (b, k) =
          some (fun i => if i < im.dims.w then arrowMinPx (acc i) (sel (im.px i l s) (t i)) k else acc i) := by
        unfold arrowMinTurn
        rw [if_pos (by simp only; omega)]
        simp only [arrowMinTerm_flat _ _ _ _ _ _ _ b1, ht, Option.map_some]
      rw [this]
      exact hr
    · rw [hri i hi, if_pos hi, hv i hi, List.map_cons, List.zipIdx_cons, List.foldl_cons]

/-- The neighbour of `p` in the direction `b` has the value `v`, the outside of the image counting as `border`. -/
def HasNb (border : α) (se : StrElt) (im : Img α) (p b : IntPoint) (v : α) : Prop :=
  ∃ q, phys se.odd p + phys se.odd b = phys se.odd q ∧ v = (im.at? q).getD border

omit [LinearOrder α] in
theorem hasNb_iff (border : α) (se : StrElt) (im : Img α) (p b : IntPoint) (v : α) :
    HasNb border se im p b v ↔ v = (im.at? (arrowPt se.odd p b)).getD border := by
  constructor
  · rintro ⟨q, hq, rfl⟩
    rw [(arrowPt_phys _ _ _ _).mpr hq]
  · rintro rfl
    exact ⟨_, (arrowPt_phys _ _ _ _).mp rfl, rfl⟩

theorem arrowMinExec_spec (auto : Bool) (raw : Nat → BitVec n) (sel : α → α → α) (ini : α → α) (border : α) (se : StrElt) (im : Img α) (out : Img (BitVec n))
    (hacc : AcceptsD auto im.dims out.dims) (hne : se.points ≠ []) (h64 : se.points.length ≤ 64) (hok : ArrowOK im.dims.w se) (hfl : Flat se) :
    ∃ r, arrowMinExec auto raw sel ini border se im out = some (.ok r) ∧ r.dims = im.dims ∧ ∀ p a, im.at? p = some a →
      ∃ v m, r.at? p = some v ∧ m ≤ ini a ∧ (∀ b ∈ se.points, ∀ w, HasNb border se im p b w → m ≤ sel a w) ∧
        (m = ini a ∨ ∃ b ∈ se.points, ∃ w, HasNb border se im p b w ∧ m = sel a w) ∧
        ∀ k, v.getLsbD k = true ↔ k < n ∧ ∃ b w, se.points[k]? = some b ∧ HasNb border se im p b w ∧ sel a w = m := by
  have hb : ∀ b ∈ se.points, b.z = 0 ∧ -(im.dims.w : Int) ≤ b.x ∧ b.x + (if se.odd && cOdd b.y then 1 else 0) ≤ im.dims.w :=
    fun b hb => ⟨hfl b hb, hok b hb⟩
  have key : ∀ s l, ∃ t : Line (BitVec n), arrowMinLine sel ini border im se.odd s l se.points = some t ∧ ∀ i, i < im.dims.w →
      t i = (((se.points.map fun b => sel (im.px i l s) ((im.at? (arrowPt se.odd (Img.pt i l s) b)).getD border)).zipIdx 0).foldl
          (fun s vk => arrowMinPx s vk.1 vk.2) (ini (im.px i l s), (0 : BitVec n))).2 := by
    intro s l
    obtain ⟨t, ht, hv⟩ := arrowMinLine_spec (n := n) sel border im se.odd s l se.points 0 (fun i => (ini (im.px i l s), (0 : BitVec n))) (by omega) hb
    exact ⟨_, by unfold arrowMinLine; rw [ht, Option.map_some], fun i hi => by rw [hv i hi]⟩
  obtain ⟨r, hr, hd, hv⟩ := buildLines_spec im.dims (0 : BitVec n)
    (fun s l => arrowMinLine sel ini border im se.odd s l se.points)
    (fun p => ((arrowMinLine sel ini border im se.odd p.z.toNat p.y.toNat se.points).getD (fun _ => 0)) p.x.toNat)
    (by
      intro s l _ _
      obtain ⟨t, ht, -⟩ := key s l
      refine ⟨t, ht, fun i hi => ?_⟩
      simp only [Img.pt, Int.toNat_natCast, ht, Option.getD_some])
  refine ⟨r, ?_, hd, fun p a ha => ?_⟩
  · unfold arrowMinExec
    rw [checkDims_ok hacc]
    match hp : se.points, hne with
    | p0 :: ps, _ => simp only [hp] at hr ⊢; rw [hr]; rfl
  · have hp := Img.at?_eq_some_in _ _ _ ha
    rw [Img.at?_some im p hp] at ha
    cases ha
    obtain ⟨t, ht, htv⟩ := key p.z.toNat p.y.toNat
    have hp' := hp
    unfold Img.In at hp'
    have ep : Img.pt p.x.toNat p.y.toNat p.z.toNat = p := by
      cases p with | mk x y z =>
      simp only at hp'
      simp only [Img.pt, IntPoint.mk.injEq]
      omega
    have htx := htv p.x.toNat (by omega)
    rw [ep] at htx
    generalize hA : im.px p.x.toNat p.y.toNat p.z.toNat = a at htx
    obtain ⟨f1, f2⟩ := arrowMinPx_fold (se.points.map fun b => sel a ((im.at? (arrowPt se.odd p b)).getD border)) 0 (ini a) (0 : BitVec n) (by simp)
    set R := ((se.points.map fun b => sel a ((im.at? (arrowPt se.odd p b)).getD border)).zipIdx 0).foldl
          (fun s vk => arrowMinPx s vk.1 vk.2) (ini a, (0 : BitVec n)) with hR
    obtain ⟨g1, g2, g3⟩ := foldl_min_glb (se.points.map fun b => sel a ((im.at? (arrowPt se.odd p b)).getD border)) (ini a)
    rw [← f1] at g1 g2 g3
    refine ⟨R.2, R.1, ?_, g1, ?_, ?_, ?_⟩
    · rw [hv p hp]
      simp only [ht, Option.getD_some, htx]
    · intro b hbm w hw
      rw [(hasNb_iff _ _ _ _ _ _).mp hw]
      exact g2 _ (List.mem_map_of_mem hbm)
    · rcases g3 with g3 | g3
      · exact Or.inl g3
      · obtain ⟨b, hbm, hbe⟩ := List.mem_map.mp g3
        exact Or.inr ⟨b, hbm, _, (hasNb_iff _ _ _ _ _ _).mpr rfl, hbe.symm⟩
    · intro k
      rw [f2 k]
      refine and_congr_right fun _ => ?_
      simp only [Nat.zero_le, true_and, Nat.sub_zero, Nat.not_lt_zero, false_and, or_false, List.getElem?_map]
      constructor
      · intro h
        rw [Option.map_eq_some_iff] at h
        obtain ⟨b, hb1, hb2⟩ := h
        exact ⟨b, _, hb1, (hasNb_iff _ _ _ _ _ _).mpr rfl, hb2⟩
      · rintro ⟨b, w, hb1, hw, hb2⟩
        rw [(hasNb_iff _ _ _ _ _ _).mp hw] at hb2
        rw [hb1, Option.map_some, hb2]

/-- **C88**. `arrowMin`: bit `k` is set exactly when no pixel of the neighbourhood, the centre included, is lower than neighbour `k`. Missing for the full claim:
the outside of the image counts as pixels of value `border`, and elements with points in other slices (`C88_slices_bug`). -/
theorem C88_arrowMin_partial (auto : Bool) (raw : Nat → BitVec n) (border : α) (se : StrElt) (im : Img α) (out : Img (BitVec n))
    (hacc : AcceptsD auto im.dims out.dims) (hne : se.points ≠ []) (h64 : se.points.length ≤ 64) (hok : ArrowOK im.dims.w se) (hfl : Flat se) :
    ∃ r, arrowMin auto raw border se im out = some (.ok r) ∧ r.dims = im.dims ∧ ∀ p a, im.at? p = some a → ∃ v, r.at? p = some v ∧
      ∀ k, v.getLsbD k = true ↔ k < n ∧ ∃ b w, se.points[k]? = some b ∧ HasNb border se im p b w ∧ w ≤ a ∧
        ∀ c ∈ se.points, ∀ u, HasNb border se im p c u → w ≤ u := by
  obtain ⟨r, h1, h2, h3⟩ := arrowMinExec_spec auto raw (fun _ v => v) (fun a => a) border se im out hacc hne h64 hok hfl
  refine ⟨r, h1, h2, fun p a ha => ?_⟩
  obtain ⟨v, m, g1, g2, g3, g4, g5⟩ := h3 p a ha
  refine ⟨v, g1, fun k => ?_⟩
  rw [g5 k]
  refine and_congr_right fun _ => ?_
  constructor
  · rintro ⟨b, w, e1, e2, rfl⟩
    exact ⟨b, w, e1, e2, g2, g3⟩
  · rintro ⟨b, w, e1, e2, e3, e4⟩
    refine ⟨b, w, e1, e2, le_antisymm ?_ (g3 b (List.mem_of_getElem? e1) w e2)⟩
    rcases g4 with h | ⟨c, hc, u, hu, h⟩
    · exact e3.trans h.ge
    · exact (e4 c hc u hu).trans h.ge

/-- **C88**, no arrow leaves the image unless the whole neighbourhood is at the maximum, with the default border. -/
theorem C88_arrowMin_inside [OrderTop α] (auto : Bool) (raw : Nat → BitVec n) (se : StrElt) (im : Img α) (out : Img (BitVec n))
    (hacc : AcceptsD auto im.dims out.dims) (hne : se.points ≠ []) (h64 : se.points.length ≤ 64) (hok : ArrowOK im.dims.w se) (hfl : Flat se) :
    ∃ r, arrowMin auto raw ⊤ se im out = some (.ok r) ∧ r.dims = im.dims ∧ ∀ p a, im.at? p = some a → a < ⊤ → ∃ v, r.at? p = some v ∧
      ∀ k, v.getLsbD k = true ↔ k < n ∧ ∃ b q w, se.points[k]? = some b ∧ phys se.odd p + phys se.odd b = phys se.odd q ∧ im.at? q = some w ∧ w ≤ a ∧
        ∀ c ∈ se.points, ∀ s u, phys se.odd p + phys se.odd c = phys se.odd s → im.at? s = some u → w ≤ u := by
  obtain ⟨r, h1, h2, h3⟩ := C88_arrowMin_partial auto raw ⊤ se im out hacc hne h64 hok hfl
  refine ⟨r, h1, h2, fun p a ha hlt => ?_⟩
  obtain ⟨v, g1, g2⟩ := h3 p a ha
  refine ⟨v, g1, fun k => ?_⟩
  rw [g2 k]
  refine and_congr_right fun _ => ?_
  constructor
  · rintro ⟨b, w, e1, ⟨q, hq, hw⟩, e3, e4⟩
    cases hq' : im.at? q with
    | none =>
      rw [hq', Option.getD_none] at hw
      subst hw
      exact absurd (top_le_iff.mp e3) (ne_of_lt hlt)
    | some u =>
      rw [hq', Option.getD_some] at hw
      refine ⟨b, q, u, e1, hq, hq', hw ▸ e3, fun c hc s x hs hu => hw ▸ e4 c hc x ⟨s, hs, by rw [hu]; rfl⟩⟩
  · rintro ⟨b, q, w, e1, hq, hw, e3, e4⟩
    refine ⟨b, w, e1, ⟨q, hq, by rw [hw]; rfl⟩, e3, ?_⟩
    rintro c hc u ⟨s, hs, hu⟩
    cases hs' : im.at? s with
    | none =>
      rw [hs', Option.getD_none] at hu
      rw [hu]
      exact le_top
    | some u' =>
      rw [hs', Option.getD_some] at hu
      rw [hu]
      exact e4 c hc s u' hs hs'

/-- **C88**. `arrowMinStep`: where some neighbour is not lower than the pixel and below the border value, bit `k` is set exactly when neighbour `k` is not lower than
the pixel and no other such neighbour is lower than it. -/
theorem C88_arrowMinStep_partial (auto : Bool) (raw : Nat → BitVec n) (border : α) (se : StrElt) (im : Img α) (out : Img (BitVec n))
    (hacc : AcceptsD auto im.dims out.dims) (hne : se.noCenter.points ≠ []) (h64 : se.noCenter.points.length ≤ 64) (hok : ArrowOK im.dims.w se.noCenter)
    (hfl : Flat se.noCenter) :
    ∃ r, arrowMinStep auto raw border se im out = some (.ok r) ∧ r.dims = im.dims ∧ ∀ p a, im.at? p = some a →
      (∃ b ∈ se.noCenter.points, ∃ w, HasNb border se.noCenter im p b w ∧ a ≤ w ∧ w < border) → ∃ v, r.at? p = some v ∧
      ∀ k, v.getLsbD k = true ↔ k < n ∧ ∃ b w, se.noCenter.points[k]? = some b ∧ HasNb border se.noCenter im p b w ∧ a ≤ w ∧
        ∀ c ∈ se.noCenter.points, ∀ u, HasNb border se.noCenter im p c u → a ≤ u → w ≤ u := by
  obtain ⟨r, h1, h2, h3⟩ := arrowMinExec_spec auto raw (fun a v => if v ≥ a then v else border) (fun _ => border) border se.noCenter im out hacc hne h64 hok hfl
  refine ⟨r, h1, h2, fun p a ha hex => ?_⟩
  obtain ⟨v, m, g1, g2, g3, g4, g5⟩ := h3 p a ha
  obtain ⟨b0, hb0, w0, hw0, hw1, hw2⟩ := hex
  have hm0 := g3 b0 hb0 w0 hw0
  rw [if_pos hw1] at hm0
  have hmb : m < border := lt_of_le_of_lt hm0 hw2
  refine ⟨v, g1, fun k => ?_⟩
  rw [g5 k]
  refine and_congr_right fun _ => ?_
  constructor
  · rintro ⟨b, w, e1, e2, e3⟩
    by_cases hge : w ≥ a
    · rw [if_pos hge] at e3
      subst e3
      refine ⟨b, w, e1, e2, hge, fun c hc u hu hua => ?_⟩
      have := g3 c hc u hu
      rwa [if_pos hua] at this
    · rw [if_neg hge] at e3
      exact absurd e3 (ne_of_gt hmb)
  · rintro ⟨b, w, e1, e2, e3, e4⟩
    refine ⟨b, w, e1, e2, ?_⟩
    rw [if_pos e3]
    have hle := g3 b (List.mem_of_getElem? e1) w e2
    rw [if_pos e3] at hle
    refine le_antisymm ?_ hle
    rcases g4 with h | ⟨c, hc, u, hu, h⟩
    · exact absurd h (ne_of_lt hmb)
    · by_cases hua : u ≥ a
      · rw [if_pos hua] at h
        rw [h]
        exact e4 c hc u hu hua
      · rw [if_neg hua] at h
        exact absurd h (ne_of_lt hmb)

/-- **C88**, refusals. -/
theorem C88_errors (auto : Bool) (raw : Nat → BitVec n) (border : α) (se : StrElt) (im : Img α) (out : Img (BitVec n)) :
    (im.dims.count = 0 ∨ out.dims.count = 0 → arrowMin auto raw border se im out = some (.error (-99)) ∧
      arrowMinStep auto raw border se im out = some (.error (-99))) ∧
    (im.dims.count ≠ 0 → out.dims.count ≠ 0 → out.dims ≠ im.dims → auto = false → arrowMin auto raw border se im out = some (.error (-98)) ∧
      arrowMinStep auto raw border se im out = some (.error (-98))) := by
  unfold arrowMin arrowMinStep arrowMinExec checkDims
  constructor
  · intro h
    rw [if_pos h]
    exact ⟨rfl, rfl⟩
  · intro h1 h2 h3 h4
    rw [if_neg (by tauto), if_neg h3, if_neg (by rw [h4]; simp)]
    exact ⟨rfl, rfl⟩

/-! ### Where the code departs from the claim -/

/-- **C88**: where every neighbour is lower than the pixel, `arrowMinStep` sets the bits of all of them. -/
theorem C88_peak_bug (auto : Bool) (raw : Nat → BitVec n) (border : α) (se : StrElt) (im : Img α) (out : Img (BitVec n))
    (hacc : AcceptsD auto im.dims out.dims) (hne : se.noCenter.points ≠ []) (h64 : se.noCenter.points.length ≤ 64) (hok : ArrowOK im.dims.w se.noCenter)
    (hfl : Flat se.noCenter) :
    ∃ r, arrowMinStep auto raw border se im out = some (.ok r) ∧ ∀ p a, im.at? p = some a →
      (∀ b ∈ se.noCenter.points, ∀ w, HasNb border se.noCenter im p b w → w < a) → ∃ v, r.at? p = some v ∧
      ∀ k, v.getLsbD k = true ↔ k < n ∧ k < se.noCenter.points.length := by
  obtain ⟨r, h1, h2, h3⟩ := arrowMinExec_spec auto raw (fun a v => if v ≥ a then v else border) (fun _ => border) border se.noCenter im out hacc hne h64 hok hfl
  refine ⟨r, h1, fun p a ha hall => ?_⟩
  obtain ⟨v, m, g1, g2, g3, g4, g5⟩ := h3 p a ha
  have hm : m = border := by
    rcases g4 with h | ⟨c, hc, u, hu, h⟩
    · exact h
    · rw [if_neg (not_le.mpr (hall c hc u hu))] at h
      exact h
  refine ⟨v, g1, fun k => ?_⟩
  rw [g5 k]
  refine and_congr_right fun _ => ?_
  constructor
  · rintro ⟨b, w, e1, -⟩
    exact (List.getElem?_eq_some_iff.mp e1).1
  · intro hk
    have e1 := List.getElem?_eq_getElem hk
    refine ⟨_, _, e1, (hasNb_iff _ _ _ _ _ _).mpr rfl, ?_⟩
    rw [if_neg (not_le.mpr (hall _ (List.getElem_mem hk) _ ((hasNb_iff _ _ _ _ _ _).mpr rfl))), hm]

/-- **C88**, elements with points in other slices: the neighbour in the next slice is read in the same one. The pixel 5 below the pixel 7 is not seen. -/
theorem C88_slices_bug :
    arrowVals (arrowMin (α := Px UINT8) (n := 8) false (fun _ => 0) ⊤ ⟨false, .generic, 1, [⟨0, 0, 1⟩]⟩ (im8 ⟨1, 1, 2⟩ [5, 7]) ⟨⟨1, 1, 2⟩, fun _ => 0⟩) =
      some [1, 0] ∧
    arrowVals (arrowMin (α := Px UINT8) (n := 8) false (fun _ => 0) ⊤ ⟨false, .generic, 1, [⟨0, 0, 1⟩]⟩ (im8 ⟨1, 1, 2⟩ [7, 5]) ⟨⟨1, 1, 2⟩, fun _ => 0⟩) =
      some [1, 0] := by
  decide +kernel

/-- **C88**, types with fewer bits than points: the arrows of the other points are lost (here the ninth neighbour is the lowest). -/
theorem C88_bits_bug :
    arrowVals (arrowMin (α := Px UINT8) (n := 8) false (fun _ => 0) ⊤
      ⟨false, .generic, 1, [⟨0, 0, 0⟩, ⟨0, 0, 0⟩, ⟨0, 0, 0⟩, ⟨0, 0, 0⟩, ⟨0, 0, 0⟩, ⟨0, 0, 0⟩, ⟨0, 0, 0⟩, ⟨0, 0, 0⟩, ⟨1, 0, 0⟩]⟩ (im8 ⟨2, 1, 1⟩ [5, 3])
      ⟨⟨2, 1, 1⟩, fun _ => 0⟩) = some [0, 255] := by
  decide +kernel

/-- The hypotheses are met: a line with a valley; bit 0 is the left neighbour, bit 1 the right one. -/
example : AcceptsD false (im8 ⟨4, 1, 1⟩ [3, 1, 1, 2]).dims ⟨4, 1, 1⟩ ∧ ArrowOK 4 ⟨false, .generic, 1, [⟨-1, 0, 0⟩, ⟨1, 0, 0⟩]⟩ ∧
    arrowVals (arrowMin (α := Px UINT8) (n := 8) false (fun _ => 0) ⊤ ⟨false, .generic, 1, [⟨-1, 0, 0⟩, ⟨1, 0, 0⟩]⟩ (im8 ⟨4, 1, 1⟩ [3, 1, 1, 2])
      ⟨⟨4, 1, 1⟩, fun _ => 0⟩) = some [2, 2, 1, 1] ∧
    arrowVals (arrowMinStep (α := Px UINT8) (n := 8) false (fun _ => 0) ⊤ ⟨false, .generic, 1, [⟨-1, 0, 0⟩, ⟨1, 0, 0⟩]⟩ (im8 ⟨4, 1, 1⟩ [3, 1, 1, 2])
      ⟨⟨4, 1, 1⟩, fun _ => 0⟩) = some [3, 2, 1, 3] := by
  refine ⟨⟨by decide, by decide, Or.inl rfl⟩, by decide, by decide +kernel, by decide +kernel⟩

end Smil
