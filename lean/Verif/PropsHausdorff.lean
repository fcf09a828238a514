import Verif.PropsCompare
import Verif.PropsMorphoAlgebra

/-!
# C69: the Hausdorff distance

`distanceHausdorff` computes the Hausdorff distance of the boundaries of the objects (their points with a zero among the 8 neighbours of the same slice), and not of the objects.
-/

namespace Smil
variable {t : PT}

/-! ### Specification -/

/-- The squared Euclidean distance. -/
def dist2 (p q : IntPoint) : Int := (p.x - q.x) ^ 2 + (p.y - q.y) ^ 2 + (p.z - q.z) ^ 2

/-- The square of the Hausdorff distance of two sets of points, `⊤` if it is infinite: the least `k` such that every point of each set is within `k` of a point of the
other set. -/
def IsHausdorff2 (A B : Set IntPoint) (r : WithTop Nat) : Prop :=
  ∀ k : Nat, r ≤ k ↔ (∀ p ∈ A, ∃ q ∈ B, dist2 p q ≤ k) ∧ (∀ q ∈ B, ∃ p ∈ A, dist2 p q ≤ k)

/-- The nonzero points. -/
def objectOf (a : Img (Px t)) : Set IntPoint := {p | ∃ u, a.at? p = some u ∧ u.val ≠ 0}

/-- The nonzero points with a zero among the 8 neighbours in their slice. -/
def boundaryOf (a : Img (Px t)) : Set IntPoint :=
  {p | p ∈ objectOf a ∧ ∃ q u, q.z = p.z ∧ |q.x - p.x| ≤ 1 ∧ |q.y - p.y| ≤ 1 ∧ a.at? q = some u ∧ u.val = 0}

/-! ### The loops -/

theorem hausInner_spec (d : Nat → Nat → Nat) (i m : Nat) (s : HausSt) :
    (∀ i', i' ≠ i → (hausInner d i m s).1 i' = s.1 i') ∧
    (∀ k : WithTop Nat, (hausInner d i m s).1 i ≤ k ↔ s.1 i ≤ k ∨ ∃ j < m, (d i j : WithTop Nat) ≤ k) ∧
    (∀ j, (hausInner d i m s).2 j = if j < m then min (s.2 j) (d i j) else s.2 j) := by
  induction m with
  | zero => simp [hausInner]
  | succ m ih =>
    obtain ⟨h1, h2, h3⟩ := ih
    have e : hausInner d i (m + 1) s =
      (if (d i m : WithTop Nat) < (hausInner d i m s).1 i then Function.update (hausInner d i m s).1 i (d i m : WithTop Nat) else (hausInner d i m s).1,
       if (d i m : WithTop Nat) < (hausInner d i m s).2 m then Function.update (hausInner d i m s).2 m (d i m : WithTop Nat)
        else (hausInner d i m s).2) := by
      unfold hausInner
      rw [List.range_succ, List.foldl_append]
      rfl
    rw [e]
    generalize hausInner d i m s = s' at *
    refine ⟨fun i' hi' => ?_, fun k => ?_, fun j => ?_⟩
    · show (if (d i m : WithTop Nat) < s'.1 i then Function.update s'.1 i (d i m : WithTop Nat) else s'.1) i' = _
      split
      · rw [Function.update_of_ne hi']; exact h1 i' hi'
      · exact h1 i' hi'
    · show (if (d i m : WithTop Nat) < s'.1 i then Function.update s'.1 i (d i m : WithTop Nat) else s'.1) i ≤ k ↔ _
      have hex : (∃ j < m + 1, (d i j : WithTop Nat) ≤ k) ↔ (∃ j < m, (d i j : WithTop Nat) ≤ k) ∨ (d i m : WithTop Nat) ≤ k := by
        constructor
        · rintro ⟨j, hj, hk⟩
          rcases Nat.lt_succ_iff_lt_or_eq.mp hj with h | h
          · exact Or.inl ⟨j, h, hk⟩
          · subst h; exact Or.inr hk
        · rintro (⟨j, hj, hk⟩ | hk)
          · exact ⟨j, by omega, hk⟩
          · exact ⟨m, by omega, hk⟩
      rw [hex, ← or_assoc, ← h2 k]
      split
      · rename_i hlt
        rw [Function.update_self]
        exact ⟨Or.inr, fun h => h.elim (fun h => hlt.le.trans h) id⟩
      · rename_i hlt
        exact ⟨Or.inl, fun h => h.elim id fun h => (not_lt.mp hlt).trans h⟩
    · show (if (d i m : WithTop Nat) < s'.2 m then Function.update s'.2 m (d i m : WithTop Nat) else s'.2) j = _
      by_cases hj : j = m
      · subst hj
        rw [if_pos (Nat.lt_succ_self j)]
        have hm := h3 j
        rw [if_neg (lt_irrefl j)] at hm
        rw [← hm]
        split
        · rename_i hlt
          rw [Function.update_self, min_eq_right hlt.le]
        · rename_i hlt
          rw [min_eq_left (not_lt.mp hlt)]
      · have e : (if (d i m : WithTop Nat) < s'.2 m then Function.update s'.2 m (d i m : WithTop Nat) else s'.2) j = s'.2 j := by
          split
          · rw [Function.update_of_ne hj]
          · rfl
        rw [e, h3 j]
        by_cases hlt : j < m
        · rw [if_pos hlt, if_pos (by omega)]
        · rw [if_neg hlt, if_neg (by omega)]

/-- After the loops, each array holds the least distance. -/
theorem hausLoops_spec (d : Nat → Nat → Nat) (n m : Nat) :
    (∀ i < n, ∀ k : Nat, (hausLoops d n m).1 i ≤ k ↔ ∃ j < m, d i j ≤ k) ∧
    (∀ j < m, ∀ k : Nat, (hausLoops d n m).2 j ≤ k ↔ ∃ i < n, d i j ≤ k) := by
  have key : ∀ n, (∀ i, ∀ k : Nat, (hausLoops d n m).1 i ≤ k ↔ i < n ∧ ∃ j < m, d i j ≤ k) ∧
      (∀ j < m, ∀ k : Nat, (hausLoops d n m).2 j ≤ k ↔ ∃ i < n, d i j ≤ k) := by
    intro n
    induction n with
    | zero =>
      constructor
      · intro i k
        simp [hausLoops]
      · intro j _ k
        simp [hausLoops]
    | succ n ih =>
      have e : hausLoops d (n + 1) m = hausInner d n m (hausLoops d n m) := by
        unfold hausLoops
        rw [List.range_succ, List.foldl_append]
        rfl
      obtain ⟨h1, h2, h3⟩ := hausInner_spec d n m (hausLoops d n m)
      rw [← e] at h1 h2 h3
      constructor
      · intro i k
        by_cases hi : i = n
        · subst hi
          rw [h2 k, ih.1 i k]
          simp
        · rw [h1 i hi, ih.1 i k]
          constructor
          · rintro ⟨a, b⟩; exact ⟨by omega, b⟩
          · rintro ⟨a, b⟩; exact ⟨by omega, b⟩
      · intro j hj k
        rw [h3 j, if_pos hj, min_le_iff, ih.2 j hj k]
        constructor
        · rintro (⟨i, hi, hk⟩ | hk)
          · exact ⟨i, by omega, hk⟩
          · exact ⟨n, by omega, by exact_mod_cast hk⟩
        · rintro ⟨i, hi, hk⟩
          rcases Nat.lt_succ_iff_lt_or_eq.mp hi with h | h
          · exact Or.inl ⟨i, h, hk⟩
          · subst h; exact Or.inr (by exact_mod_cast hk)
  obtain ⟨k1, k2⟩ := key n
  exact ⟨fun i hi k => by rw [k1 i k]; exact ⟨fun h => h.2, fun h => ⟨hi, h⟩⟩, k2⟩

theorem hausSup_le (n : Nat) (f : Nat → WithTop Nat) (k : Nat) : hausSup n f ≤ k ↔ ∀ i < n, f i ≤ k := by
  unfold hausSup
  induction n with
  | zero => simp
  | succ n ih =>
    rw [List.range_succ, List.foldl_append, List.foldl_cons, List.foldl_nil]
    have : (∀ i < n + 1, f i ≤ k) ↔ (∀ i < n, f i ≤ k) ∧ f n ≤ k := by
      constructor
      · exact fun h => ⟨fun i hi => h i (by omega), h n (by omega)⟩
      · rintro ⟨h1, h2⟩ i hi
        rcases Nat.lt_succ_iff_lt_or_eq.mp hi with h | h
        · exact h1 i h
        · subst h; exact h2
    rw [this, ← ih]
    split
    · rename_i hgt
      exact ⟨fun h => ⟨hgt.le.trans h, h⟩, fun h => h.2⟩
    · rename_i hgt
      exact ⟨fun h => ⟨h, (not_lt.mp hgt).trans h⟩, fun h => h.1⟩

/-! ### The boundary -/

theorem boxDist2_eq {D : Dims} {i j : Nat} (hi : i < D.count) (hj : j < D.count) : (boxDist2 D i j : Int) = dist2 (coordPt D i) (coordPt D j) := by
  have e : ∀ i, boxCoords D i = coordPt D i := by
    intro i
    unfold boxCoords coordPt
    rw [Nat.mod_mul_right_div_self, ← Nat.div_div_eq_div_mul]
    push_cast
    rfl
  unfold boxDist2 dist2
  simp only [e]
  rw [Int.toNat_of_nonneg (by positivity)]

theorem mem_nonZero (im : Img (Px t)) (i : Nat) : i ∈ nonZeroOffsets im ↔ i < im.dims.count ∧ (im.buf i).val ≠ 0 := by
  unfold nonZeroOffsets
  have : ∀ n, i ∈ (List.range n).foldl (fun l i => if nzPx (im.buf i) then l ++ [i] else l) [] ↔ i < n ∧ (im.buf i).val ≠ 0 := by
    intro n
    induction n with
    | zero => simp
    | succ n ih =>
      rw [List.range_succ, List.foldl_append, List.foldl_cons, List.foldl_nil]
      by_cases hz : nzPx (im.buf n) = true
      · rw [if_pos hz, List.mem_append, ih, List.mem_singleton]
        have hz' : (im.buf n).val ≠ 0 := by simpa [nzPx] using hz
        constructor
        · rintro (h | h)
          · exact ⟨by omega, h.2⟩
          · subst h; exact ⟨by omega, hz'⟩
        · rintro ⟨h1, h2⟩
          by_cases h : i = n
          · exact Or.inr h
          · exact Or.inl ⟨by omega, h2⟩
      · rw [if_neg hz, ih]
        have hz' : (im.buf n).val = 0 := by simpa [nzPx] using hz
        constructor
        · rintro ⟨h1, h2⟩; exact ⟨by omega, h2⟩
        · rintro ⟨h1, h2⟩
          refine ⟨?_, h2⟩
          by_contra hc
          have : i = n := by omega
          subst this
          exact h2 hz'
  exact this _

theorem squ_ok (D : Dims) (hh : 2 ≤ D.h) : SEOk D (SquSE 1) := by
  refine ⟨by decide, by simp [SquSE], ?_, fun _ => ⟨?_, ?_, fun _ => hh⟩, ?_⟩
  · intro h; simp [SquSE, StrElt.addPoints_odd, StrElt.mk0] at h
  · intro p
    have : (SquSE 1).points = squPlane 0 := by decide
    rw [this]; rfl
  · simp [SquSE, StrElt.addPoints_odd, StrElt.mk0]
  · intro hc; simp [SquSE, isInplaceSafe] at hc

theorem squ_rel (D : Dims) (hh : 2 ≤ D.h) : seRel (SquSE 1) = nSqu := by
  funext q p
  exact propext (kernelRel_iff (SquSE 1) rfl ((squ_ok D hh).special rfl).1 ((squ_ok D hh).special rfl).2.1 q p).symm

theorem iterRel_one {α : Type} {R : Img α → Img α → Prop} {a b : Img α} (h : IterRel R 1 a b) : ∃ m, R a m ∧ Img.Same m b := h

/-- The offsets kept by `distanceHausdorff` are those of the boundary. -/
theorem edgeOffsets_spec (hs : t.signed = false) (E : Env (Px t)) (a : Img (Px t)) (ha : a.alloc = true) (hh : 2 ≤ a.dims.h) (htwo : TwoValued a) :
    ∃ l, edgeOffsets E a = some l ∧ ∀ i, i ∈ l ↔ i < a.dims.count ∧ coordPt a.dims i ∈ boundaryOf a := by
  obtain ⟨g, d, e, h1, h2, h3, h4, h5⟩ := C32_gradient_partial hs E (SquSE 1) (SquSE 1) a ⟨a.dims, E.raw⟩ (accepts_of_dims E ha rfl)
    (squ_ok _ hh) (squ_ok _ hh) (by decide) (by decide)
  obtain ⟨d', d1, d2⟩ := iterRel_one h2
  obtain ⟨e', e1, e2⟩ := iterRel_one h3
  rw [isDil_iff, squ_rel _ hh] at d1
  rw [isEro_iff, squ_rel _ hh] at e1
  refine ⟨_, by unfold edgeOffsets; rw [h1], fun i => ?_⟩
  rw [mem_nonZero]
  have hdims : (Img.zipF kInf a g).dims = a.dims := rfl
  rw [hdims]
  refine and_congr_right fun hi => ?_
  obtain ⟨cin, -⟩ := coordPt_in hi
  obtain ⟨v, hv, hlub⟩ := d1.2 _ cin
  obtain ⟨w, hw, hglb⟩ := e1.2 _ cin
  rw [d2.2] at hv
  rw [e2.2] at hw
  obtain ⟨x, hx, hxv⟩ := h5 _ _ _ hv hw
  rw [at_coord g h4 hi] at hx
  have hx' : g.buf i = x := Option.some.inj hx
  have hbuf : (Img.zipF kInf a g).buf i = kInf (a.buf i) x := by rw [← hx']; rfl
  rw [hbuf]
  have hai := at_coord a rfl hi
  have hself : ∀ p : IntPoint, nSqu p p := fun p => ⟨rfl, by omega, by omega, by omega, by omega⟩
  have n0 := lo_unsigned hs
  have na := (a.buf i).lo_le
  have nx := x.lo_le
  have vle : ∀ q u, nSqu q (coordPt a.dims i) → a.at? q = some u → u.val ≤ v.val := fun q u hq hu => Px.le_iff.mp (hlub.1 ⟨q, hq, hu⟩)
  have wge : ∀ q u, nSqu (coordPt a.dims i) q → a.at? q = some u → w.val ≤ u.val := fun q u hq hu => Px.le_iff.mp (hglb.1 ⟨q, hq, hu⟩)
  have hva := vle _ _ (hself _) hai
  have hwa := wge _ _ (hself _) hai
  obtain ⟨c, hc1, -, -, hc4⟩ := htwo
  have hc0 : c.val ≠ 0 := fun h0 => hc1 (Px.ext h0)
  have two : ∀ q u, a.at? q = some u → u.val = 0 ∨ u.val = c.val := by
    intro q u hu
    rcases hc4 q u hu with rfl | rfl
    · exact Or.inl rfl
    · exact Or.inr rfl
  have hmin : (kInf (a.buf i) x).val ≠ 0 ↔ (a.buf i).val ≠ 0 ∧ x.val ≠ 0 := by
    unfold kInf
    by_cases hlt : a.buf i < x
    · rw [if_pos hlt]
      have := Px.lt_iff.mp hlt
      constructor
      · intro h0; exact ⟨h0, by omega⟩
      · exact fun h0 => h0.1
    · rw [if_neg hlt]
      have : ¬ (a.buf i).val < x.val := fun hc => hlt (Px.lt_iff.mpr hc)
      constructor
      · intro h0; exact ⟨by omega, h0⟩
      · exact fun h0 => h0.2
  rw [hmin]
  constructor
  · rintro ⟨k1, k2⟩
    refine ⟨⟨_, hai, k1⟩, ?_⟩
    by_contra hno
    have hall : ∀ q u, nSqu q (coordPt a.dims i) ∨ nSqu (coordPt a.dims i) q → a.at? q = some u → u.val = c.val := by
      intro q u hq hu
      rcases two q u hu with h0 | h0
      · exfalso
        apply hno
        unfold nSqu at hq
        exact ⟨q, u, by omega, abs_le.mpr ⟨by omega, by omega⟩, abs_le.mpr ⟨by omega, by omega⟩, hu, h0⟩
      · exact h0
    have hv2 : v.val ≤ c.val := by
      refine Px.le_iff.mp (hlub.2 ?_)
      rintro u ⟨q, hq, hu⟩
      exact Px.le_iff.mpr (hall q u (Or.inl hq) hu).le
    have hw2 : c.val ≤ w.val := by
      refine Px.le_iff.mp (hglb.2 ?_)
      rintro u ⟨q, hq, hu⟩
      exact Px.le_iff.mpr (hall q u (Or.inr hq) hu).ge
    omega
  · rintro ⟨⟨u, hu, hu0⟩, q, u', hq1, hq2, hq3, hu', hu0'⟩
    rw [hai] at hu
    cases Option.some.inj hu
    refine ⟨hu0, ?_⟩
    rw [abs_le] at hq2 hq3
    have hw0 := wge q u' ⟨by omega, by omega, by omega, by omega, by omega⟩ hu'
    omega

/-- **C69** (`distanceHausdorff`, partial). For binary images of an unsigned type and at least two lines, the square of the result is the squared Hausdorff distance of the boundaries
of the objects. (Missing: it is not the distance of the objects, `C69_hausdorff_bug`, `C69_hausdorff_slices_bug`.) -/
theorem C69_hausdorff_partial (hs : t.signed = false) (E : Env (Px t)) (a b : Img (Px t)) (h : BinPair a b) (hh : 2 ≤ a.dims.h) :
    ∃ r, distanceHausdorff E a b = .ok (some r) ∧ IsHausdorff2 (boundaryOf a) (boundaryOf b) r := by
  obtain ⟨la, ha, ma⟩ := edgeOffsets_spec hs E a h.alloc1 hh h.two1
  obtain ⟨lb, hb, mb⟩ := edgeOffsets_spec hs E b h.alloc2 (by rw [h.size]; exact hh) h.two2
  rw [h.size] at mb
  let S := hausLoops (fun i j => boxDist2 a.dims (la.getD i 0) (lb.getD j 0)) la.length lb.length
  refine ⟨max (hausSup la.length S.1) (hausSup lb.length S.2), ?_, ?_⟩
  · unfold distanceHausdorff cmpCheck
    rw [if_neg (by simp [h.alloc1, h.alloc2]), if_pos h.size]
    simp only
    rw [if_neg (by simp [(isBinary_iff a).mpr h.two1, (isBinary_iff b).mpr h.two2]), ha, hb]
    rfl
  · intro k
    obtain ⟨l1, l2⟩ := hausLoops_spec (fun i j => boxDist2 a.dims (la.getD i 0) (lb.getD j 0)) la.length lb.length
    rw [max_le_iff, hausSup_le, hausSup_le]
    have bdA : ∀ p, p ∈ boundaryOf a → ∃ i, ∃ hi : i < la.length, coordPt a.dims (la[i]) = p ∧ la[i] < a.dims.count := by
      intro p hp
      obtain ⟨⟨u, hu, -⟩, -⟩ := id hp
      have hin := Img.at?_eq_some_in _ _ _ hu
      obtain ⟨i, hi, e⟩ := List.getElem_of_mem ((ma (offOf a.dims p)).mpr ⟨offOf_lt hin, by rw [coordPt_offOf hin]; exact hp⟩)
      exact ⟨i, hi, by rw [e, coordPt_offOf hin], by rw [e]; exact offOf_lt hin⟩
    have bdB : ∀ p, p ∈ boundaryOf b → ∃ i, ∃ hi : i < lb.length, coordPt a.dims (lb[i]) = p ∧ lb[i] < a.dims.count := by
      intro p hp
      obtain ⟨⟨u, hu, -⟩, -⟩ := id hp
      have hin := Img.at?_eq_some_in _ _ _ hu
      rw [h.size] at hin
      obtain ⟨i, hi, e⟩ := List.getElem_of_mem ((mb (offOf a.dims p)).mpr ⟨offOf_lt hin, by rw [coordPt_offOf hin]; exact hp⟩)
      exact ⟨i, hi, by rw [e, coordPt_offOf hin], by rw [e]; exact offOf_lt hin⟩
    have inA : ∀ i (hi : i < la.length), la[i] < a.dims.count ∧ coordPt a.dims la[i] ∈ boundaryOf a := fun i hi => (ma _).mp (List.getElem_mem hi)
    have inB : ∀ i (hi : i < lb.length), lb[i] < a.dims.count ∧ coordPt a.dims lb[i] ∈ boundaryOf b := fun i hi => (mb _).mp (List.getElem_mem hi)
    have dd : ∀ i j (hi : i < la.length) (hj : j < lb.length), boxDist2 a.dims (la.getD i 0) (lb.getD j 0) ≤ k ↔
        dist2 (coordPt a.dims la[i]) (coordPt a.dims lb[j]) ≤ k := by
      intro i j hi hj
      have ga : la.getD i 0 = la[i] := by rw [List.getD_eq_getElem?_getD, List.getElem?_eq_getElem hi]; rfl
      have gb : lb.getD j 0 = lb[j] := by rw [List.getD_eq_getElem?_getD, List.getElem?_eq_getElem hj]; rfl
      rw [ga, gb, ← boxDist2_eq (inA i hi).1 (inB j hj).1]
      exact Int.ofNat_le.symm
    refine and_congr ?_ ?_
    · constructor
      · intro hall p hp
        obtain ⟨i, hi, rfl, -⟩ := bdA p hp
        obtain ⟨j, hj, hk⟩ := (l1 i hi k).mp (hall i hi)
        exact ⟨_, (inB j hj).2, (dd i j hi hj).mp hk⟩
      · intro hall i hi
        obtain ⟨q, hq, hk⟩ := hall _ (inA i hi).2
        obtain ⟨j, hj, rfl, -⟩ := bdB q hq
        exact (l1 i hi k).mpr ⟨j, hj, (dd i j hi hj).mpr hk⟩
    · constructor
      · intro hall p hp
        obtain ⟨j, hj, rfl, -⟩ := bdB p hp
        obtain ⟨i, hi, hk⟩ := (l2 j hj k).mp (hall j hj)
        exact ⟨_, (inA i hi).2, (dd i j hi hj).mp hk⟩
      · intro hall j hj
        obtain ⟨q, hq, hk⟩ := hall _ (inB j hj).2
        obtain ⟨i, hi, rfl, -⟩ := bdA q hq
        exact (l2 j hj k).mpr ⟨i, hi, (dd i j hi hj).mpr hk⟩

end Smil
