import Verif.Sigma
import Verif.PropsKuwahara

/-! # C104: the sigma filter -/

namespace Smil
open Finset
section
variable {t : PT}

/-- The points of the image at a distance of at most `r` of `p`, in each coordinate. -/
def windowOf (D : Dims) (r : Nat) (p : Int × Int) : Finset (Int × Int) :=
  (Icc (p.1 - r) (p.1 + r) ×ˢ Icc (p.2 - r) (p.2 + r)).filter fun q => 0 ≤ q.1 ∧ q.1 < D.w ∧ 0 ≤ q.2 ∧ q.2 < D.h

/-- The points of the window whose value differs from that of `p` by at most `σ` standard deviations of the window, with the squares compared; see
`C104_deviation`. -/
def alike (im : Img (Px t)) (r : Nat) (σ : ℚ) (p : Int × Int) : Finset (Int × Int) :=
  (windowOf im.dims r p).filter fun q => (pxVal im q - pxVal im p) ^ 2 ≤ σ ^ 2 * varOn im (windowOf im.dims r p)

/-- What the filter should give at `p`: the mean of the like points if they make at least the part `pct` of the window, otherwise the mean of the window,
without `p` on demand; truncated. -/
def IsSigma (im : Img (Px t)) (r : Nat) (σ pct : ℚ) (excl : Bool) (p : Int × Int) (b : Int) : Prop :=
  (pct * ((windowOf im.dims r p).card : ℚ) ≤ ((alike im r σ p).card : ℚ) → b = truncQ (meanOn im (alike im r σ p))) ∧
  (((alike im r σ p).card : ℚ) < pct * ((windowOf im.dims r p).card : ℚ) →
    b = truncQ (meanOn im (if excl then (windowOf im.dims r p).erase p else windowOf im.dims r p)))

theorem kuwPts_window (D : Dims) (r : Nat) (p : Int × Int) : (kuwPts D (2 * r + 1) (p.1 - r) (p.2 - r)).toFinset = windowOf D r p := by
  ext q
  rw [List.mem_toFinset, kuwPts_mem]
  unfold windowOf
  simp only [Finset.mem_filter, Finset.mem_product, Finset.mem_Icc]
  push_cast
  omega

theorem windowOf_self (D : Dims) (r : Nat) (p : Int × Int) (h : 0 ≤ p.1 ∧ p.1 < D.w ∧ 0 ≤ p.2 ∧ p.2 < D.h) : p ∈ windowOf D r p := by
  unfold windowOf
  simp only [Finset.mem_filter, Finset.mem_product, Finset.mem_Icc]
  omega

theorem windowOf_in {D : Dims} {r : Nat} {p q : Int × Int} (h : q ∈ windowOf D r p) : 0 ≤ q.1 ∧ q.1 < D.w ∧ 0 ≤ q.2 ∧ q.2 < D.h := by
  unfold windowOf at h
  exact (Finset.mem_filter.1 h).2

/-- A window of radius one of an image with two pixels has two points. -/
theorem windowOf_two (D : Dims) (r : Nat) (hr : 1 ≤ r) (hD : 1 < D.w * D.h) (p : Int × Int) (h : 0 ≤ p.1 ∧ p.1 < D.w ∧ 0 ≤ p.2 ∧ p.2 < D.h) :
    1 < (windowOf D r p).card := by
  rw [Finset.one_lt_card]
  have h2 : 2 ≤ D.w ∨ 2 ≤ D.h := by
    by_contra hc
    have : D.w * D.h ≤ 1 * 1 := Nat.mul_le_mul (by omega) (by omega)
    omega
  have key : ∃ q, q ∈ windowOf D r p ∧ q ≠ p := by
    unfold windowOf
    simp only [Finset.mem_filter, Finset.mem_product, Finset.mem_Icc]
    rcases h2 with h2 | h2
    · by_cases h0 : p.1 = 0
      · exact ⟨(p.1 + 1, p.2), by simp only; omega, fun e => by have := congrArg Prod.fst e; simp at this⟩
      · exact ⟨(p.1 - 1, p.2), by simp only; omega, fun e => by have := congrArg Prod.fst e; simp at this⟩
    · by_cases h0 : p.2 = 0
      · exact ⟨(p.1, p.2 + 1), by simp only; omega, fun e => by have := congrArg Prod.snd e; simp at this⟩
      · exact ⟨(p.1, p.2 - 1), by simp only; omega, fun e => by have := congrArg Prod.snd e; simp at this⟩
  obtain ⟨q, hq, hne⟩ := key
  exact ⟨q, hq, p, windowOf_self D r p h, hne⟩

theorem varOn_nonneg (im : Img (Px t)) (S : Finset (Int × Int)) : 0 ≤ varOn im S :=
  div_nonneg (Finset.sum_nonneg fun _ _ => sq_nonneg _) (by positivity)

/-- **C104**: the comparison of the squares is the comparison with the bounds of the code, for the root of the variance in any ordered field that has it. -/
theorem C104_deviation {K : Type} [Field K] [LinearOrder K] [IsStrictOrderedRing K] (σ var : ℚ) (hs : 0 ≤ σ) (c v : ℚ) (s : K) (h0 : 0 ≤ s)
    (h2 : s ^ 2 = (var : K)) : (v - c) ^ 2 ≤ σ ^ 2 * var ↔ (c : K) - s * (σ : K) ≤ (v : K) ∧ (v : K) ≤ (c : K) + s * (σ : K) := by
  have hsK : (0 : K) ≤ (σ : K) := by exact_mod_cast hs
  have e1 : ((v - c) ^ 2 ≤ σ ^ 2 * var) ↔ (((v : K) - (c : K)) ^ 2 ≤ (s * (σ : K)) ^ 2) := by
    rw [mul_pow, h2, mul_comm]
    constructor
    · intro h; exact_mod_cast h
    · intro h; exact_mod_cast h
  rw [e1, sq_le_sq, abs_of_nonneg (mul_nonneg h0 hsK), abs_le]
  constructor
  · rintro ⟨h3, h4⟩; constructor <;> linarith
  · rintro ⟨h3, h4⟩; constructor <;> linarith

/-- **C104**: the test of the model, for sigma of any sign, is the interval of the code. -/
theorem C104_near {K : Type} [Field K] [LinearOrder K] [IsStrictOrderedRing K] (σ var : ℚ) (c v : Int) (s : K) (h0 : 0 ≤ s)
    (h2 : s ^ 2 = (var : K)) :
    sigmaNear σ var c v = true ↔ (c : K) - s * (σ : K) ≤ (v : K) ∧ (v : K) ≤ (c : K) + s * (σ : K) := by
  unfold sigmaNear
  by_cases hs : 0 ≤ σ
  · rw [if_pos hs, decide_eq_true_iff]
    have := C104_deviation σ var hs (c : ℚ) (v : ℚ) s h0 h2
    simpa using this
  · rw [if_neg hs, decide_eq_true_iff]
    have hsK : (σ : K) < 0 := by exact_mod_cast not_le.mp hs
    constructor
    · rintro ⟨h3, h4⟩
      have : s = 0 := by rw [h3] at h2; simpa using h2
      rw [this, h4]; simp
    · rintro ⟨h3, h4⟩
      have h5 : 0 ≤ s * (σ : K) := by linarith
      have h6 : s = 0 := by
        by_contra hne
        have : 0 < s := lt_of_le_of_ne h0 (Ne.symm hne)
        have := mul_neg_of_pos_of_neg this hsK
        linarith
      rw [h6] at h2 h3 h4
      refine ⟨?_, ?_⟩
      · have : (var : K) = 0 := by rw [← h2]; simp
        exact_mod_cast this
      · have : (v : K) = (c : K) := le_antisymm (by simpa using h4) (by simpa using h3)
        exact_mod_cast this

theorem alike_self (im : Img (Px t)) (r : Nat) (σ : ℚ) (p : Int × Int) (h : p ∈ windowOf im.dims r p) : (alike im r σ p).Nonempty := by
  refine ⟨p, ?_⟩
  unfold alike
  rw [Finset.mem_filter]
  refine ⟨h, ?_⟩
  rw [sub_self]
  have := mul_nonneg (sq_nonneg σ) (varOn_nonneg im (windowOf im.dims r p))
  simpa using this

theorem sum_on_list (im : Img (Px t)) (hd : im.dims.d = 1) (L : List (Int × Int)) (hnd : L.Nodup)
    (hin : ∀ q ∈ L, 0 ≤ q.1 ∧ q.1 < im.dims.w ∧ 0 ≤ q.2 ∧ q.2 < im.dims.h) :
    ((L.map (kuwRead im)).map fun v : Int => (v : ℚ)).sum = ∑ q ∈ L.toFinset, pxVal im q := by
  rw [List.sum_toFinset _ hnd, List.map_map]
  congr 1
  refine List.map_congr_left fun q hqL => ?_
  exact (kuwRead_val im hd q (hin q hqL)).1.symm

theorem kuwStat_window (im : Img (Px t)) (hd : im.dims.d = 1) (hsq : ∀ p v, im.at? p = some v → t.cpp (v.val * v.val) = some (v.val * v.val))
    (r : Nat) (p : Int × Int) (hne : (windowOf im.dims r p).Nonempty) :
    kuwStat im (2 * r + 1) (p.1 - r) (p.2 - r) = some (meanOn im (windowOf im.dims r p), varOn im (windowOf im.dims r p)) := by
  have hq := kuwPts_window im.dims r p
  have hnd := kuwPts_nodup im.dims (2 * r + 1) (p.1 - r) (p.2 - r)
  have hin : ∀ q ∈ kuwPts im.dims (2 * r + 1) (p.1 - r) (p.2 - r), 0 ≤ q.1 ∧ q.1 < im.dims.w ∧ 0 ≤ q.2 ∧ q.2 < im.dims.h :=
    fun q h => ((kuwPts_mem _ _ _ _ _).1 h).2
  unfold kuwStat
  generalize kuwPts im.dims (2 * r + 1) (p.1 - r) (p.2 - r) = L at hq hnd hin ⊢
  simp only
  rw [mapM_all _ (fun v => v * v)]
  swap
  · intro x hx
    obtain ⟨q, hqL, rfl⟩ := List.mem_map.1 hx
    obtain ⟨-, v, hv, e⟩ := kuwRead_val im hd q (hin q hqL)
    rw [← e]
    exact hsq _ _ hv
  have hc : (L.length : ℚ) = ((windowOf im.dims r p).card : ℚ) := by
    rw [← hq, List.toFinset_card_of_nodup hnd]
  have e1 := sum_on_list im hd L hnd hin
  rw [hq] at e1
  have e2 : (((L.map (kuwRead im)).map fun v : Int => v * v).map fun v : Int => (v : ℚ)).sum = ∑ q ∈ windowOf im.dims r p, pxVal im q * pxVal im q := by
    rw [← hq, List.sum_toFinset _ hnd, List.map_map, List.map_map]
    congr 1
    refine List.map_congr_left fun q hqL => ?_
    rw [(kuwRead_val im hd q (hin q hqL)).1]
    simp
  simp only [Option.map_some, e1, e2, List.length_map, hc]
  rw [var_alg _ _ (Finset.card_pos.2 hne)]
  rfl

/-- Leaving out a point. -/
theorem meanOn_erase (im : Img (Px t)) (S : Finset (Int × Int)) (p : Int × Int) (hp : p ∈ S) :
    (meanOn im S * S.card - pxVal im p) / ((S.card : ℚ) - 1) = meanOn im (S.erase p) := by
  have hc : (0 : ℚ) < S.card := by exact_mod_cast Finset.card_pos.2 ⟨p, hp⟩
  have h1 : 1 ≤ S.card := Finset.card_pos.2 ⟨p, hp⟩
  have e : meanOn im S * S.card = ∑ q ∈ S, pxVal im q := by
    unfold meanOn
    field_simp
  rw [e, ← Finset.sum_erase_add S _ hp]
  unfold meanOn
  rw [Finset.card_erase_of_mem hp, Nat.cast_sub h1]
  simp

/-- One pixel. -/
theorem sigmaPx_ok (im : Img (Px t)) (hd : im.dims.d = 1) (hsq : ∀ p v, im.at? p = some v → t.cpp (v.val * v.val) = some (v.val * v.val))
    (r : Nat) (σ pct : ℚ) (excl : Bool) (i j : Nat) (hi : i < im.dims.w) (hj : j < im.dims.h)
    (hs : 0 ≤ σ) (hx : excl = true → 1 < (windowOf im.dims r ((i : Int), (j : Int))).card) :
    ∃ w, sigmaPx im r σ pct excl i j = some w ∧ IsSigma im r σ pct excl ((i : Int), (j : Int)) w.val := by
  set p : Int × Int := ((i : Int), (j : Int)) with hp
  have hpin : 0 ≤ p.1 ∧ p.1 < im.dims.w ∧ 0 ≤ p.2 ∧ p.2 < im.dims.h := ⟨by simp [hp], by simpa [hp] using hi, by simp [hp], by simpa [hp] using hj⟩
  have hself := windowOf_self im.dims r p hpin
  have hst := kuwStat_window im hd hsq r p ⟨_, hself⟩
  have hq := kuwPts_window im.dims r p
  have hnd := kuwPts_nodup im.dims (2 * r + 1) (p.1 - r) (p.2 - r)
  have hin : ∀ q ∈ kuwPts im.dims (2 * r + 1) (p.1 - r) (p.2 - r), 0 ≤ q.1 ∧ q.1 < im.dims.w ∧ 0 ≤ q.2 ∧ q.2 < im.dims.h :=
    fun q h => ((kuwPts_mem _ _ _ _ _).1 h).2
  have hW : ∀ q ∈ windowOf im.dims r p, (t.lo : ℚ) ≤ pxVal im q ∧ pxVal im q ≤ (t.hi : ℚ) := fun q h => pxVal_range im hd q (windowOf_in h)
  have hc : pxVal im p = (kuwRead im p : ℚ) := (kuwRead_val im hd p hpin).1
  unfold sigmaPx
  simp only
  rw [show kuwStat im (2 * r + 1) ((i : Int) - r) ((j : Int) - r) = _ from hst]
  simp only
  change ∃ w, (if (((List.map (kuwRead im) (kuwPts im.dims (2 * r + 1) (p.1 - r) (p.2 - r))).filter _).length : ℚ) < _ then _ else _) = some w ∧ _
  generalize kuwPts im.dims (2 * r + 1) (p.1 - r) (p.2 - r) = L at hq hnd hin ⊢
  have hlen : (L.length : ℚ) = ((windowOf im.dims r p).card : ℚ) := by rw [← hq, List.toFinset_card_of_nodup hnd]
  have hlenN : L.length = (windowOf im.dims r p).card := by exact_mod_cast hlen
  -- the like points
  set N := L.filter fun q => sigmaNear σ (varOn im (windowOf im.dims r p)) (kuwRead im p) (kuwRead im q) with hN
  have hfm : (L.map (kuwRead im)).filter (sigmaNear σ (varOn im (windowOf im.dims r p)) (kuwRead im p)) = N.map (kuwRead im) := by
    rw [List.filter_map]; rfl
  have hNf : N.toFinset = alike im r σ p := by
    ext q
    unfold alike
    rw [List.mem_toFinset, hN, List.mem_filter, Finset.mem_filter, ← hq, List.mem_toFinset]
    refine and_congr_right fun hqL => ?_
    unfold sigmaNear
    rw [if_pos hs, decide_eq_true_eq, (kuwRead_val im hd q (hin q hqL)).1, hc, hq]
  have hNnd : N.Nodup := hnd.filter _
  have hNlen : N.length = (alike im r σ p).card := by rw [← hNf, List.toFinset_card_of_nodup hNnd]
  have hNsum := sum_on_list im hd N hNnd fun q h => hin q (List.mem_filter.1 h).1
  rw [hNf] at hNsum
  have hsub : alike im r σ p ⊆ windowOf im.dims r p := by unfold alike; exact Finset.filter_subset _ _
  have e0 : kuwRead im ((i : Int), (j : Int)) = kuwRead im p := rfl
  rw [e0, hfm, List.length_map, List.length_map, hNlen, hlenN, hNsum]
  by_cases hlt : ((alike im r σ p).card : ℚ) < ((windowOf im.dims r p).card : ℚ) * pct
  · rw [if_pos hlt]
    rw [mul_comm] at hlt
    cases excl with
    | true =>
      simp only [if_true]
      have h1 := hx rfl
      rw [if_neg (by omega), ← hc, meanOn_erase im _ p hself]
      obtain ⟨w, hw, hw2⟩ := truncPx_truncQ (t := t) (meanOn_between im ((windowOf im.dims r p).erase p)
        (by rw [← Finset.card_pos, Finset.card_erase_of_mem hself]; omega) _ _ fun q hq => hW q (Finset.mem_of_mem_erase hq))
      refine ⟨w, hw, fun h => absurd hlt (not_lt.2 h), fun _ => ?_⟩
      simpa using hw2
    | false =>
      simp only [if_false, Bool.false_eq_true]
      obtain ⟨w, hw, hw2⟩ := truncPx_truncQ (t := t) (meanOn_between im _ ⟨_, hself⟩ _ _ hW)
      refine ⟨w, hw, fun h => absurd hlt (not_lt.2 h), fun _ => ?_⟩
      simpa using hw2
  · rw [if_neg hlt]
    rw [mul_comm] at hlt
    have hne : (alike im r σ p).Nonempty := alike_self im r σ p hself
    rw [if_neg (Finset.card_pos.2 hne).ne']
    obtain ⟨w, hw, hw2⟩ := truncPx_truncQ (t := t) (meanOn_between im _ hne _ _ fun q h => hW q (hsub h))
    exact ⟨w, hw, fun _ => hw2, fun h => absurd h hlt⟩

/-- The filter from its pixels. -/
theorem sigma_core (auto : Bool) (im : Img (Px t)) (r : Nat) (σ pct : ℚ) (excl : Bool) (dout : Dims) (ha : AcceptsD auto im.dims dout) (hd : im.dims.d = 1)
    (P : Int × Int → Px t → Prop)
    (hpx : ∀ i j : Nat, i < im.dims.w → j < im.dims.h → ∃ w, sigmaPx im r σ pct excl i j = some w ∧ P ((i : Int), (j : Int)) w) :
    ∃ out, sigmaFilter auto im r σ pct excl dout = some (.ok out) ∧ out.dims = im.dims ∧
      ∀ x y, Img.In im.dims ⟨x, y, 0⟩ → ∃ b, out.at? ⟨x, y, 0⟩ = some b ∧ P (x, y) b := by
  refine ⟨⟨im.dims, fun i => (sigmaPx im r σ pct excl (i % im.dims.w) (i / im.dims.w)).getD Px.zero⟩, ?_, rfl, ?_⟩
  · unfold sigmaFilter
    rw [checkDims_ok ha]
    simp only
    rw [if_neg (show ¬ im.dims.d > 1 by omega), if_pos]
    rw [List.all_eq_true]
    intro i hi
    rw [List.mem_range] at hi
    have hc : im.dims.count = im.dims.w * im.dims.h := by unfold Dims.count; rw [hd]; ring
    rw [hc] at hi
    have hw : 0 < im.dims.w := by
      rcases Nat.eq_zero_or_pos im.dims.w with h | h
      · rw [h] at hi; simp at hi
      · exact h
    obtain ⟨w, hw1, -⟩ := hpx (i % im.dims.w) (i / im.dims.w) (Nat.mod_lt _ hw) (Nat.div_lt_of_lt_mul hi)
    exact Option.isSome_iff_exists.2 ⟨w, hw1⟩
  · intro x y hin
    have hin' := hin
    unfold Img.In at hin'
    simp only at hin'
    obtain ⟨a, rfl⟩ := Int.eq_ofNat_of_zero_le hin'.1
    obtain ⟨c, rfl⟩ := Int.eq_ofNat_of_zero_le hin'.2.2.1
    obtain ⟨w, hw1, hw2⟩ := hpx a c (by omega) (by omega)
    refine ⟨w, ?_, hw2⟩
    unfold Img.at?
    simp only
    rw [if_pos hin]
    unfold Img.px rasterIndex
    simp only [Int.ofNat_eq_natCast, Int.toNat_natCast, Int.toNat_zero, Nat.mul_zero, Nat.zero_mul]
    have hw : 0 < im.dims.w := by omega
    have ha' : a < im.dims.w := by omega
    have e : ∀ u : Nat, u = a + c * im.dims.w → (sigmaPx im r σ pct excl (u % im.dims.w) (u / im.dims.w)).getD Px.zero = w := by
      rintro u rfl
      rw [Nat.add_mul_mod_self_right, Nat.mod_eq_of_lt ha', Nat.add_mul_div_right _ _ hw, Nat.div_eq_of_lt ha', Nat.zero_add, hw1]
      rfl
    congr 1
    apply e
    ring

/-- **C104** (partial: an output distinct from the input; values of at most 46340 for the types of more than 8 bits; exact arithmetic). Each pixel becomes
the mean, truncated, of the pixels of its window that differ from it by at most `σ` standard deviations, if they are at least the part `pct` of the window;
otherwise the mean of the window, without the pixel itself on demand. -/
theorem C104_sigma_partial (ht : t.bits ≤ 16 ∨ t = UINT32 ∨ t = INT32) (auto : Bool) (im : Img (Px t)) (r : Nat) (σ pct : ℚ) (excl : Bool) (dout : Dims)
    (ha : AcceptsD auto im.dims dout) (hd : im.dims.d = 1) (hv : ∀ p v, im.at? p = some v → |v.val| ≤ 46340)
    (hs : 0 ≤ σ) (hx : excl = true → 1 ≤ r ∧ 1 < im.dims.w * im.dims.h) :
    ∃ out, sigmaFilter auto im r σ pct excl dout = some (.ok out) ∧ out.dims = im.dims ∧
      ∀ x y, Img.In im.dims ⟨x, y, 0⟩ → ∃ b, out.at? ⟨x, y, 0⟩ = some b ∧ IsSigma im r σ pct excl (x, y) b.val :=
  sigma_core auto im r σ pct excl dout ha hd (fun p w => IsSigma im r σ pct excl p w.val) fun i j hi hj =>
    sigmaPx_ok im hd (fun p v h => cpp_square ht v.val (hv p v h)) r σ pct excl i j hi hj hs fun e =>
      windowOf_two im.dims r (hx e).1 (hx e).2 _ ⟨by simp, by simpa using hi, by simp, by simpa using hj⟩

/-- **C104**, types of 8 bits: no condition on the values. -/
theorem C104_bytes_partial (ht : t = UINT8 ∨ t = INT8) (auto : Bool) (im : Img (Px t)) (r : Nat) (σ pct : ℚ) (excl : Bool) (dout : Dims)
    (ha : AcceptsD auto im.dims dout) (hd : im.dims.d = 1) (hs : 0 ≤ σ) (hx : excl = true → 1 ≤ r ∧ 1 < im.dims.w * im.dims.h) :
    ∃ out, sigmaFilter auto im r σ pct excl dout = some (.ok out) ∧ out.dims = im.dims ∧
      ∀ x y, Img.In im.dims ⟨x, y, 0⟩ → ∃ b, out.at? ⟨x, y, 0⟩ = some b ∧ IsSigma im r σ pct excl (x, y) b.val := by
  have hb : t.bits ≤ 16 ∧ -128 ≤ t.lo ∧ t.hi ≤ 255 := by
    rcases ht with rfl | rfl <;> decide
  refine C104_sigma_partial (Or.inl hb.1) auto im r σ pct excl dout ha hd (fun p v _ => ?_) hs hx
  have h1 := v.lo_le
  have h2 := v.le_hi
  rw [abs_le]
  omega

/-- **C104**: what is asked of the result puts it between the bounds of the values of the window. -/
theorem C104_window (im : Img (Px t)) (hd : im.dims.d = 1) (r : Nat) (σ pct : ℚ) (excl : Bool) (x y : Int) (hin : Img.In im.dims ⟨x, y, 0⟩)
    (hs : 0 ≤ σ) (hx : excl = true → 1 ≤ r ∧ 1 < im.dims.w * im.dims.h) (b lo hi : Int) (hb : IsSigma im r σ pct excl (x, y) b)
    (h : ∀ x' y' v, |x' - x| ≤ r → |y' - y| ≤ r → im.at? ⟨x', y', 0⟩ = some v → lo ≤ v.val ∧ v.val ≤ hi) : lo ≤ b ∧ b ≤ hi := by
  have hpin : 0 ≤ x ∧ x < im.dims.w ∧ 0 ≤ y ∧ y < im.dims.h := by unfold Img.In at hin; simp only at hin; omega
  have hself := windowOf_self im.dims r (x, y) hpin
  have hW : ∀ q ∈ windowOf im.dims r (x, y), (lo : ℚ) ≤ pxVal im q ∧ pxVal im q ≤ (hi : ℚ) := by
    intro q hq
    obtain ⟨e, v, hv, ev⟩ := kuwRead_val im hd q (windowOf_in hq)
    have hq' := (Finset.mem_filter.1 (show q ∈ (_ : Finset _).filter _ from hq)).1
    simp only [Finset.mem_product, Finset.mem_Icc] at hq'
    have := h q.1 q.2 v (by rw [abs_le]; omega) (by rw [abs_le]; omega) hv
    rw [e, ← ev]
    exact ⟨by exact_mod_cast this.1, by exact_mod_cast this.2⟩
  by_cases hc : pct * ((windowOf im.dims r (x, y)).card : ℚ) ≤ ((alike im r σ (x, y)).card : ℚ)
  · rw [hb.1 hc]
    have hne : (alike im r σ (x, y)).Nonempty := alike_self im r σ (x, y) hself
    refine truncQ_between (meanOn_between im _ hne _ _ fun q hq => hW q ?_)
    unfold alike at hq
    exact (Finset.mem_filter.1 hq).1
  · rw [hb.2 (not_le.1 hc)]
    cases excl with
    | true =>
      have h2 := windowOf_two im.dims r (hx rfl).1 (hx rfl).2 (x, y) hpin
      simp only [if_true]
      refine truncQ_between (meanOn_between im _ (by rw [← Finset.card_pos, Finset.card_erase_of_mem hself]; omega) _ _ fun q hq =>
        hW q (Finset.mem_of_mem_erase hq))
    | false =>
      exact truncQ_between (meanOn_between im _ ⟨_, hself⟩ _ _ hW)

/-- **C104**: with `σ = 0` and no minimal number the value of the pixel is kept. -/
theorem C104_zero (im : Img (Px t)) (r : Nat) (pct : ℚ) (hp : pct ≤ 0) (excl : Bool) (x y : Int) (v : Px t) (hv : im.at? ⟨x, y, 0⟩ = some v)
    (b : Int) (hb : IsSigma im r 0 pct excl (x, y) b) : b = v.val := by
  have hin := Img.at?_eq_some_in _ _ _ hv
  unfold Img.In at hin
  simp only at hin
  have hself := windowOf_self im.dims r (x, y) ⟨by simp only; omega, by simp only; omega, by simp only; omega, by simp only; omega⟩
  have hpv : pxVal im (x, y) = v.val := by unfold pxVal; rw [hv]
  have hmem : (x, y) ∈ alike im r 0 (x, y) := by
    unfold alike
    rw [Finset.mem_filter]
    exact ⟨hself, by simp⟩
  have hall : ∀ q ∈ alike im r 0 (x, y), (v.val : ℚ) ≤ pxVal im q ∧ pxVal im q ≤ (v.val : ℚ) := by
    intro q hq
    unfold alike at hq
    have h2 := (Finset.mem_filter.1 hq).2
    have h3 : (pxVal im q - pxVal im (x, y)) ^ 2 ≤ 0 := by simpa using h2
    have h4 := pow_eq_zero_iff (two_ne_zero) |>.1 (le_antisymm h3 (sq_nonneg _))
    have e : pxVal im q = pxVal im (x, y) := by linarith
    rw [e, hpv]
    exact ⟨le_refl _, le_refl _⟩
  have hle : pct * ((windowOf im.dims r (x, y)).card : ℚ) ≤ ((alike im r 0 (x, y)).card : ℚ) :=
    le_trans (mul_nonpos_of_nonpos_of_nonneg hp (by positivity)) (by positivity)
  rw [hb.1 hle]
  have := truncQ_between (lo := v.val) (hi := v.val) (meanOn_between im _ ⟨_, hmem⟩ _ _ hall)
  omega

/-- **C104**: what is refused. -/
theorem C104_refuse (auto : Bool) (im : Img (Px t)) (r : Nat) (σ pct : ℚ) (excl : Bool) (dout : Dims) :
    ((im.dims.count = 0 ∨ dout.count = 0) → sigmaFilter auto im r σ pct excl dout = some (.error (-99))) ∧
    (im.dims.count ≠ 0 → dout.count ≠ 0 → dout ≠ im.dims → auto = false → sigmaFilter auto im r σ pct excl dout = some (.error (-98))) ∧
    (AcceptsD auto im.dims dout → 1 < im.dims.d → sigmaFilter auto im r σ pct excl dout = some (.error (-100))) := by
  refine ⟨fun h => ?_, fun h1 h2 h3 h4 => ?_, fun ha hd => ?_⟩
  · unfold sigmaFilter checkDims
    rw [if_pos h]
    rfl
  · unfold sigmaFilter checkDims
    rw [if_neg (by tauto), if_neg h3, h4]
    rfl
  · unfold sigmaFilter
    rw [checkDims_ok ha]
    simp only
    rw [if_pos hd]
    rfl

/-! ## Exceptions -/

/-- If a pixel has no value the call has none. -/
theorem sigma_none (auto : Bool) (im : Img (Px t)) (r : Nat) (σ pct : ℚ) (excl : Bool) (dout : Dims) (ha : AcceptsD auto im.dims dout) (hd : im.dims.d = 1)
    (i j : Nat) (hi : i < im.dims.w) (hj : j < im.dims.h) (h : sigmaPx im r σ pct excl i j = none) : sigmaFilter auto im r σ pct excl dout = none := by
  unfold sigmaFilter
  rw [checkDims_ok ha]
  simp only
  rw [if_neg (show ¬ im.dims.d > 1 by omega), if_neg]
  intro hall
  rw [List.all_eq_true] at hall
  have hlt : i + j * im.dims.w < im.dims.count := by
    unfold Dims.count
    rw [hd, Nat.one_mul]
    have : (j + 1) * im.dims.w ≤ im.dims.h * im.dims.w := Nat.mul_le_mul_right _ hj
    rw [Nat.add_mul] at this
    omega
  have := hall (i + j * im.dims.w) (List.mem_range.2 hlt)
  rw [Nat.add_mul_mod_self_right, Nat.mod_eq_of_lt hi, Nat.add_mul_div_right _ _ (by omega), Nat.div_eq_of_lt hi, Nat.zero_add, h] at this
  simp at this

/-- With a radius of zero, `excludeOutlier` and a part greater than one: the mean of no pixel is written, `0 / 0` converted to the pixel type. -/
theorem C104_alone_ub (auto : Bool) (im : Img (Px t)) (σ pct : ℚ) (hp : 1 < pct) (dout : Dims) (ha : AcceptsD auto im.dims dout) (hd : im.dims.d = 1)
    (hc : im.dims.count ≠ 0) : sigmaFilter auto im 0 σ pct true dout = none := by
  have hwh : 0 < im.dims.w ∧ 0 < im.dims.h := by
    unfold Dims.count at hc
    constructor <;> (rw [Nat.pos_iff_ne_zero]; intro h; apply hc; rw [h]; simp)
  refine sigma_none auto im 0 σ pct true dout ha hd 0 0 hwh.1 hwh.2 ?_
  have hpts : kuwPts im.dims 1 0 0 = [(0, 0)] := by
    unfold kuwPts
    simp [hwh.1, hwh.2]
  unfold sigmaPx
  simp only [Nat.mul_zero, Nat.zero_add, Nat.cast_zero, sub_zero, hpts]
  cases kuwStat im 1 0 0 with
  | none => rfl
  | some mv =>
    simp only [List.map_cons, List.map_nil, List.length_cons, List.length_nil, Nat.zero_add, Nat.cast_one, one_mul, if_true]
    rw [if_pos]
    refine lt_of_le_of_lt ?_ hp
    have := List.length_filter_le (sigmaNear σ mv.2 (kuwRead im (0, 0))) [kuwRead im (0, 0)]
    exact_mod_cast this

/-- A negative `sigma` without a minimal number: no pixel is near, and `0 / 0` is converted. -/
theorem C104_negative_ub : sigmaFilter false (im8 ⟨2, 1, 1⟩ [1, 3]) 1 (-1) 0 false ⟨2, 1, 1⟩ = none := by
  refine sigma_none _ _ _ _ _ _ _ ?_ rfl 0 0 (by decide) (by decide) (by decide +kernel)
  unfold AcceptsD
  decide

/-- With `UINT16` pixels a value greater than 46340 is enough for undefined behaviour. -/
theorem C104_overflow_ub (auto : Bool) (im : Img (Px UINT16)) (r : Nat) (σ pct : ℚ) (excl : Bool) (dout : Dims) (ha : AcceptsD auto im.dims dout)
    (hd : im.dims.d = 1) (p : IntPoint) (v : Px UINT16) (hp : im.at? p = some v) (hv : 46340 < v.val) :
    sigmaFilter auto im r σ pct excl dout = none := by
  have hin := Img.at?_eq_some_in _ _ _ hp
  unfold Img.In at hin
  have hz : p.z = 0 := by omega
  have hp' : im.at? ⟨p.x, p.y, 0⟩ = some v := by rw [← hz]; exact hp
  obtain ⟨-, v', hv', e⟩ := kuwRead_val im hd (p.x, p.y) ⟨by simp; omega, by simp; omega, by simp; omega, by simp; omega⟩
  rw [hp'] at hv'
  cases hv'
  have hsq : UINT16.cpp (v.val * v.val) = none := by
    unfold PT.cpp
    rw [if_pos (by decide), if_neg]
    have : UINT16.promoted.hi = 2147483647 := by decide
    rw [this]
    have : 46341 * 46341 ≤ v.val * v.val := mul_le_mul (by omega) (by omega) (by omega) (by omega)
    omega
  refine sigma_none auto im r σ pct excl dout ha hd p.x.toNat p.y.toNat (by omega) (by omega) ?_
  unfold sigmaPx kuwStat
  simp only
  rw [mapM_one_none _ _ v.val ?_ hsq]
  · rfl
  · refine List.mem_map.2 ⟨(p.x, p.y), (kuwPts_mem _ _ _ _ _).2 ⟨?_, ?_⟩, e.symm⟩
    · simp only; push_cast; omega
    · simp only; omega

/-- In place, the second pixel is computed from the new value of the first. -/
theorem C104_inplace_bug :
    kuwList (sigmaFilter false (im8 ⟨3, 1, 1⟩ [0, 30, 90]) 1 0 1 false ⟨3, 1, 1⟩) = [15, 40, 60] ∧
    kuwList ((sigmaInPlace (im8 ⟨3, 1, 1⟩ [0, 30, 90]) 1 0 1 false).map Except.ok) = [15, 45, 67] := by
  constructor
  · decide +kernel
  · decide +kernel

/-- A step is kept and the noise of each side reduced. -/
example : kuwList (sigmaFilter false (im8 ⟨6, 1, 1⟩ [10, 14, 12, 200, 204, 202]) 2 1 (1/2) false ⟨6, 1, 1⟩) = [12, 12, 12, 202, 202, 202] := by decide +kernel

end
end Smil
