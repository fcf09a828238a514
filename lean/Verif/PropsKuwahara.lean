import Verif.Kuwahara
import Verif.PropsLabel
import Verif.PropsZhang
import Mathlib.Algebra.BigOperators.Group.Finset.Basic
import Mathlib.Algebra.Order.BigOperators.Group.Finset
import Mathlib.Order.Interval.Finset.Defs
import Mathlib.Data.Int.Interval
import Mathlib.Tactic.FieldSimp
import Mathlib.Tactic.FinCases

/-! # C103: the Kuwahara filter -/

namespace Smil
open Finset
section
variable {t : PT}

/-- The value of a pixel of a slice, zero outside. -/
def pxVal (im : Img (Px t)) (q : Int × Int) : ℚ := match im.at? ⟨q.1, q.2, 0⟩ with | some v => (v.val : ℚ) | none => 0

/-- The points of the image in the square of side `r + 1` that has `p` as a corner and lies on its left or right side and above or below. -/
def quadrant (D : Dims) (r : Nat) (p : Int × Int) (k : Bool × Bool) : Finset (Int × Int) :=
  (Icc (if k.1 then p.1 else p.1 - r) (if k.1 then p.1 + r else p.1) ×ˢ Icc (if k.2 then p.2 else p.2 - r) (if k.2 then p.2 + r else p.2)).filter
    fun q => 0 ≤ q.1 ∧ q.1 < D.w ∧ 0 ≤ q.2 ∧ q.2 < D.h

/-- The four squares in the order of the tests: above left, above right, below right, below left. -/
def quadOf : Fin 4 → Bool × Bool := ![(false, false), (true, false), (true, true), (false, true)]

/-- The mean on a set. -/
def meanOn (im : Img (Px t)) (S : Finset (Int × Int)) : ℚ := (∑ q ∈ S, pxVal im q) / S.card

/-- The variance on a set. -/
def varOn (im : Img (Px t)) (S : Finset (Int × Int)) : ℚ := (∑ q ∈ S, (pxVal im q - meanOn im S) ^ 2) / S.card

/-- The integer part, towards zero. -/
def truncQ (m : ℚ) : Int := if 0 ≤ m then ⌊m⌋ else ⌈m⌉

theorem kuwPts_mem (D : Dims) (s : Nat) (x1 y1 : Int) (q : Int × Int) : q ∈ kuwPts D s x1 y1 ↔
    (x1 ≤ q.1 ∧ q.1 < x1 + s ∧ y1 ≤ q.2 ∧ q.2 < y1 + s) ∧ 0 ≤ q.1 ∧ q.1 < D.w ∧ 0 ≤ q.2 ∧ q.2 < D.h := by
  unfold kuwPts
  simp only [List.mem_flatMap, List.mem_range]
  constructor
  · rintro ⟨i, hi, h⟩
    split_ifs at h with hx
    · simp only [List.mem_map, List.mem_filter, List.mem_range, decide_eq_true_eq] at h
      obtain ⟨j, ⟨hj, hy⟩, rfl⟩ := h
      simp only
      omega
    · simp at h
  · rintro ⟨h1, h2⟩
    refine ⟨(q.1 - x1).toNat, by omega, ?_⟩
    rw [if_pos (by omega)]
    simp only [List.mem_map, List.mem_filter, List.mem_range, decide_eq_true_eq]
    refine ⟨(q.2 - y1).toNat, by omega, ?_⟩
    ext <;> simp only <;> omega

theorem kuwPts_nodup (D : Dims) (s : Nat) (x1 y1 : Int) : (kuwPts D s x1 y1).Nodup := by
  unfold kuwPts
  rw [List.nodup_flatMap]
  constructor
  · intro i _
    split_ifs
    · refine List.Nodup.map ?_ (List.nodup_range.filter _)
      intro a b h
      simp only [Prod.mk.injEq] at h
      omega
    · simp
  · refine List.Pairwise.imp ?_ List.nodup_range
    intro i j hij
    simp only [Function.onFun]
    intro q h1 h2
    split_ifs at h1 with c1
    · split_ifs at h2 with c2
      · simp only [List.mem_map] at h1 h2
        obtain ⟨_, _, rfl⟩ := h1
        obtain ⟨_, _, h⟩ := h2
        simp only [Prod.mk.injEq] at h
        omega
      · simp at h2
    · simp at h1

theorem kuwPts_quad (D : Dims) (r : Nat) (p : Int × Int) (k : Bool × Bool) :
    (kuwPts D (r + 1) (if k.1 then p.1 else p.1 - r) (if k.2 then p.2 else p.2 - r)).toFinset = quadrant D r p k := by
  ext q
  rw [List.mem_toFinset, kuwPts_mem]
  unfold quadrant
  simp only [Finset.mem_filter, Finset.mem_product, Finset.mem_Icc]
  obtain ⟨a, b⟩ := k
  cases a <;> cases b <;> simp only [if_true, if_false, Bool.false_eq_true] <;> push_cast <;> omega

theorem kuwRead_val (im : Img (Px t)) (hd : im.dims.d = 1) (q : Int × Int) (h : 0 ≤ q.1 ∧ q.1 < im.dims.w ∧ 0 ≤ q.2 ∧ q.2 < im.dims.h) :
    pxVal im q = (kuwRead im q : ℚ) ∧ ∃ v, im.at? ⟨q.1, q.2, 0⟩ = some v ∧ v.val = kuwRead im q := by
  have hin : Img.In im.dims ⟨q.1, q.2, 0⟩ := by unfold Img.In; simp only; omega
  have e : im.at? ⟨q.1, q.2, 0⟩ = some (im.buf (q.1 + q.2 * im.dims.w).toNat) := by
    rw [Img.at?_some _ _ hin]
    unfold Img.px rasterIndex
    simp only
    congr 2
    obtain ⟨x, hx⟩ := Int.eq_ofNat_of_zero_le h.1
    obtain ⟨y, hy⟩ := Int.eq_ofNat_of_zero_le h.2.2.1
    rw [hx, hy]
    have : ((x : Int) + (y : Int) * (im.dims.w : Int)) = ((x + y * im.dims.w : Nat) : Int) := by push_cast; ring
    simp only [Int.ofNat_eq_natCast, this, Int.toNat_natCast, Int.toNat_zero, Nat.mul_zero, Nat.zero_mul]
    ring
  unfold pxVal
  rw [e]
  exact ⟨rfl, _, rfl, rfl⟩

/-- The list of squares and the definition of the variance. -/
theorem var_alg (S : Finset (Int × Int)) (f : Int × Int → ℚ) (hS : 0 < S.card) :
    (∑ q ∈ S, f q * f q) / S.card - (∑ q ∈ S, f q) / S.card * ((∑ q ∈ S, f q) / S.card) =
      (∑ q ∈ S, (f q - (∑ q ∈ S, f q) / S.card) ^ 2) / S.card := by
  have hn : (S.card : ℚ) ≠ 0 := by exact_mod_cast hS.ne'
  set m := (∑ q ∈ S, f q) / S.card with hm
  have hs : ∑ q ∈ S, f q = m * S.card := by rw [hm]; field_simp
  have : ∑ q ∈ S, (f q - m) ^ 2 = ∑ q ∈ S, f q * f q - m * m * S.card := by
    have e : ∀ q, (f q - m) ^ 2 = f q * f q - (2 * m) * f q + m * m := by intro q; ring
    simp only [e]
    rw [Finset.sum_add_distrib, Finset.sum_sub_distrib, ← Finset.mul_sum, hs, Finset.sum_const, nsmul_eq_mul]
    ring
  rw [this]
  field_simp

theorem mapM_all {α β : Type} (f : α → Option β) (g : α → β) (l : List α) (h : ∀ x ∈ l, f x = some (g x)) : l.mapM f = some (l.map g) := by
  induction l with
  | nil => rfl
  | cons a l ih =>
    rw [List.mapM_cons, h a (by simp), ih fun x hx => h x (by simp [hx])]
    rfl

theorem kuwStat_eq (im : Img (Px t)) (hd : im.dims.d = 1) (hsq : ∀ p v, im.at? p = some v → t.cpp (v.val * v.val) = some (v.val * v.val))
    (r : Nat) (p : Int × Int) (k : Bool × Bool) (hne : (quadrant im.dims r p k).Nonempty) :
    kuwStat im (r + 1) (if k.1 then p.1 else p.1 - r) (if k.2 then p.2 else p.2 - r) =
      some (meanOn im (quadrant im.dims r p k), varOn im (quadrant im.dims r p k)) := by
  have hq := kuwPts_quad im.dims r p k
  have hnd := kuwPts_nodup im.dims (r + 1) (if k.1 then p.1 else p.1 - r) (if k.2 then p.2 else p.2 - r)
  have hin : ∀ q ∈ kuwPts im.dims (r + 1) (if k.1 then p.1 else p.1 - r) (if k.2 then p.2 else p.2 - r),
      0 ≤ q.1 ∧ q.1 < im.dims.w ∧ 0 ≤ q.2 ∧ q.2 < im.dims.h := fun q h => ((kuwPts_mem _ _ _ _ _).1 h).2
  unfold kuwStat
  generalize kuwPts im.dims (r + 1) (if k.1 then p.1 else p.1 - r) (if k.2 then p.2 else p.2 - r) = L at hq hnd hin ⊢
  simp only
  rw [mapM_all _ (fun v => v * v)]
  swap
  · intro x hx
    obtain ⟨q, hqL, rfl⟩ := List.mem_map.1 hx
    obtain ⟨-, v, hv, e⟩ := kuwRead_val im hd q (hin q hqL)
    rw [← e]
    exact hsq _ _ hv
  have hc : (L.length : ℚ) = ((quadrant im.dims r p k).card : ℚ) := by
    rw [← hq, List.toFinset_card_of_nodup hnd]
  have e1 : ((L.map (kuwRead im)).map fun v : Int => (v : ℚ)).sum = ∑ q ∈ quadrant im.dims r p k, pxVal im q := by
    rw [← hq, List.sum_toFinset _ hnd, List.map_map]
    congr 1
    refine List.map_congr_left fun q hqL => ?_
    exact (kuwRead_val im hd q (hin q hqL)).1.symm
  have e2 : (((L.map (kuwRead im)).map fun v : Int => v * v).map fun v : Int => (v : ℚ)).sum = ∑ q ∈ quadrant im.dims r p k, pxVal im q * pxVal im q := by
    rw [← hq, List.sum_toFinset _ hnd, List.map_map, List.map_map]
    congr 1
    refine List.map_congr_left fun q hqL => ?_
    rw [(kuwRead_val im hd q (hin q hqL)).1]
    simp
  simp only [Option.map_some, e1, e2, List.length_map, hc]
  rw [var_alg _ _ (Finset.card_pos.2 hne)]
  rfl

/-- The four tests keep the first of the smallest values. -/
theorem kuwTest_fold (var : Nat × Nat → ℚ) (cs : List (Nat × Nat)) (m0 : ℚ) (b0 : Nat × Nat) :
    let s := cs.foldl (kuwTest var) (m0, b0)
    s.1 ≤ m0 ∧ (∀ c ∈ cs, s.1 ≤ var c) ∧
      (s = (m0, b0) ∨ s.1 < m0 ∧ ∃ i, ∃ h : i < cs.length, cs[i] = s.2 ∧ var s.2 = s.1 ∧ ∀ j, ∀ hj : j < i, s.1 < var (cs[j]'(by omega))) := by
  induction cs generalizing m0 b0 with
  | nil => simp
  | cons c cs ih =>
    simp only [List.foldl_cons]
    by_cases hc : var c < m0
    · have e : kuwTest var (m0, b0) c = (var c, c) := by unfold kuwTest; rw [if_pos hc]
      rw [e]
      obtain ⟨h1, h2, h3⟩ := ih (var c) c
      refine ⟨le_trans h1 hc.le, ?_, Or.inr ⟨lt_of_le_of_lt h1 hc, ?_⟩⟩
      · intro x hx
        rcases List.mem_cons.1 hx with rfl | hx
        · exact h1
        · exact h2 x hx
      · rcases h3 with h3 | ⟨h3, i, hi, h4, h5, h6⟩
        · refine ⟨0, by simp, ?_, ?_, fun j hj => absurd hj (by omega)⟩
          · rw [h3]; rfl
          · rw [h3]
        · refine ⟨i + 1, by simpa using hi, by simpa using h4, h5, ?_⟩
          intro j hj
          cases j with
          | zero => simpa using h3
          | succ j => simpa using h6 j (by omega)
    · have e : kuwTest var (m0, b0) c = (m0, b0) := by unfold kuwTest; rw [if_neg hc]
      rw [e]
      obtain ⟨h1, h2, h3⟩ := ih m0 b0
      refine ⟨h1, ?_, ?_⟩
      · intro x hx
        rcases List.mem_cons.1 hx with rfl | hx
        · exact le_trans h1 (not_lt.1 hc)
        · exact h2 x hx
      · rcases h3 with h3 | ⟨h3, i, hi, h4, h5, h6⟩
        · exact Or.inl h3
        · refine Or.inr ⟨h3, i + 1, by simpa using hi, by simpa using h4, h5, ?_⟩
          intro j hj
          cases j with
          | zero => simpa using lt_of_lt_of_le h3 (not_lt.1 hc)
          | succ j => simpa using h6 j (by omega)

/-- `(x, y)` is in each of its squares. -/
theorem quadrant_self (D : Dims) (r : Nat) (p : Int × Int) (h : 0 ≤ p.1 ∧ p.1 < D.w ∧ 0 ≤ p.2 ∧ p.2 < D.h) (k : Bool × Bool) :
    p ∈ quadrant D r p k := by
  unfold quadrant
  simp only [Finset.mem_filter, Finset.mem_product, Finset.mem_Icc]
  obtain ⟨a, b⟩ := k
  cases a <;> cases b <;> simp only [if_true, if_false, Bool.false_eq_true] <;> omega

theorem meanOn_between (im : Img (Px t)) (S : Finset (Int × Int)) (hS : S.Nonempty) (lo hi : ℚ) (h : ∀ q ∈ S, lo ≤ pxVal im q ∧ pxVal im q ≤ hi) :
    lo ≤ meanOn im S ∧ meanOn im S ≤ hi := by
  have hc : (0 : ℚ) < S.card := by exact_mod_cast Finset.card_pos.2 hS
  unfold meanOn
  constructor
  · rw [le_div_iff₀ hc]
    have := Finset.card_nsmul_le_sum S (pxVal im) lo fun q hq => (h q hq).1
    rw [nsmul_eq_mul] at this
    linarith
  · rw [div_le_iff₀ hc]
    have := Finset.sum_le_card_nsmul S (pxVal im) hi fun q hq => (h q hq).2
    rw [nsmul_eq_mul] at this
    linarith

theorem truncQ_between {m : ℚ} {lo hi : Int} (h : (lo : ℚ) ≤ m ∧ m ≤ (hi : ℚ)) : lo ≤ truncQ m ∧ truncQ m ≤ hi := by
  unfold truncQ
  split_ifs with hm
  · exact ⟨Int.le_floor.2 h.1, by exact_mod_cast le_trans (Int.floor_le m) h.2⟩
  · exact ⟨by exact_mod_cast le_trans h.1 (Int.le_ceil m), Int.ceil_le.2 h.2⟩

theorem pxVal_range (im : Img (Px t)) (hd : im.dims.d = 1) (q : Int × Int) (h : 0 ≤ q.1 ∧ q.1 < im.dims.w ∧ 0 ≤ q.2 ∧ q.2 < im.dims.h) :
    (t.lo : ℚ) ≤ pxVal im q ∧ pxVal im q ≤ (t.hi : ℚ) := by
  obtain ⟨e, v, hv, ev⟩ := kuwRead_val im hd q h
  rw [e, ← ev]
  exact ⟨by exact_mod_cast v.lo_le, by exact_mod_cast v.le_hi⟩

theorem quadrant_in {D : Dims} {r : Nat} {p q : Int × Int} {k : Bool × Bool} (h : q ∈ quadrant D r p k) : 0 ≤ q.1 ∧ q.1 < D.w ∧ 0 ≤ q.2 ∧ q.2 < D.h := by
  unfold quadrant at h
  exact (Finset.mem_filter.1 h).2

/-- What the filter should give at `p`: the mean, truncated, of the first of the four squares with the least variance. -/
def IsKuwahara (im : Img (Px t)) (r : Nat) (p : Int × Int) (b : Int) : Prop :=
  ∃ k : Fin 4, (∀ l, varOn im (quadrant im.dims r p (quadOf k)) ≤ varOn im (quadrant im.dims r p (quadOf l))) ∧
    (∀ l, l < k → varOn im (quadrant im.dims r p (quadOf k)) < varOn im (quadrant im.dims r p (quadOf l))) ∧
    b = truncQ (meanOn im (quadrant im.dims r p (quadOf k)))

theorem kuwStat_isSome (im : Img (Px t)) (hd : im.dims.d = 1)
    (hsq : ∀ p v, im.at? p = some v → t.cpp (v.val * v.val) = some (v.val * v.val)) (n : Nat) (x1 y1 : Int) :
    (kuwStat im n x1 y1).isSome := by
  unfold kuwStat
  simp only
  rw [mapM_all _ (fun v => v * v)]
  · rfl
  · intro x hx
    obtain ⟨q, hqL, rfl⟩ := List.mem_map.1 hx
    obtain ⟨-, v, hv, e⟩ := kuwRead_val im hd q ((kuwPts_mem _ _ _ _ _).1 hqL).2
    rw [← e]
    exact hsq _ _ hv

theorem kuwBase_pick (var : Nat × Nat → ℚ) (r w i : Nat) : ∃ prev, kuwBase var r w i = kuwPick var r (i % w) (i / w) prev := by
  cases i with
  | zero => exact ⟨(0, 0), by simp [kuwBase]⟩
  | succ i => exact ⟨_, rfl⟩

theorem truncPx_truncQ {m : ℚ} (h : (t.lo : ℚ) ≤ m ∧ m ≤ (t.hi : ℚ)) : ∃ w : Px t, truncPx t m = some w ∧ w.val = truncQ m := by
  have hb := truncQ_between h
  refine ⟨t.wrap (truncQ m), ?_, t.wrap_of_mem hb.1 hb.2⟩
  unfold truncPx
  simp only
  unfold truncQ at hb ⊢
  rw [if_pos hb]

/-- The statement with the squares computed without overflow. -/
theorem kuwahara_core (auto : Bool) (im : Img (Px t)) (r : Nat) (dout : Dims) (ha : AcceptsD auto im.dims dout) (hd : im.dims.d = 1)
    (hsq : ∀ p v, im.at? p = some v → t.cpp (v.val * v.val) = some (v.val * v.val))
    (hvar : ∀ x y, Img.In im.dims ⟨x, y, 0⟩ → ∃ l, varOn im (quadrant im.dims r (x, y) (quadOf l)) < 9999999) :
    ∃ out, kuwahara auto im r dout = some (.ok out) ∧ out.dims = im.dims ∧
      ∀ x y, Img.In im.dims ⟨x, y, 0⟩ → ∃ b, out.at? ⟨x, y, 0⟩ = some b ∧ IsKuwahara im r (x, y) b.val := by
  set stat := fun b : Nat × Nat => kuwStat im (r + 1) ((b.1 : Int) - r) ((b.2 : Int) - r) with hstat
  set mean := fun b => ((stat b).getD (0, 0)).1 with hmean
  set var := fun b => ((stat b).getD (0, 0)).2 with hvr
  -- the choice at a pixel
  have hpix : ∀ x y : Nat, x < im.dims.w → y < im.dims.h → ∃ k : Fin 4,
      mean (kuwBase var r im.dims.w (x + y * im.dims.w)) = meanOn im (quadrant im.dims r ((x : Int), (y : Int)) (quadOf k)) ∧
      (∀ l, varOn im (quadrant im.dims r ((x : Int), (y : Int)) (quadOf k)) ≤ varOn im (quadrant im.dims r ((x : Int), (y : Int)) (quadOf l))) ∧
      (∀ l, l < k → varOn im (quadrant im.dims r ((x : Int), (y : Int)) (quadOf k)) < varOn im (quadrant im.dims r ((x : Int), (y : Int)) (quadOf l))) := by
    intro x y hx hy
    have hw : 0 < im.dims.w := by omega
    obtain ⟨prev, hprev⟩ := kuwBase_pick var r im.dims.w (x + y * im.dims.w)
    rw [Nat.add_mul_mod_self_right, Nat.mod_eq_of_lt hx, Nat.add_mul_div_right _ _ hw, Nat.div_eq_of_lt hx, Nat.zero_add] at hprev
    have hself := quadrant_self im.dims r ((x : Int), (y : Int)) ⟨by simp, by simpa using hx, by simp, by simpa using hy⟩
    have hst := fun k => kuwStat_eq im hd hsq r ((x : Int), (y : Int)) k ⟨_, hself k⟩
    set cand : Fin 4 → Nat × Nat := ![(x, y), (x + r, y), (x + r, y + r), (x, y + r)] with hcand
    have hcs : ∀ l, stat (cand l) = some (meanOn im (quadrant im.dims r ((x : Int), (y : Int)) (quadOf l)),
        varOn im (quadrant im.dims r ((x : Int), (y : Int)) (quadOf l))) := by
      intro l
      rw [← hst (quadOf l)]
      fin_cases l <;> simp [hstat, hcand, quadOf]
    have hcv : ∀ l, var (cand l) = varOn im (quadrant im.dims r ((x : Int), (y : Int)) (quadOf l)) := by
      intro l; simp only [hvr, hcs l, Option.getD_some]
    have hcm : ∀ l, mean (cand l) = meanOn im (quadrant im.dims r ((x : Int), (y : Int)) (quadOf l)) := by
      intro l; simp only [hmean, hcs l, Option.getD_some]
    have hl : [(x, y), (x + r, y), (x + r, y + r), (x, y + r)] = List.ofFn cand := by
      simp [hcand, List.ofFn_succ]
    have hfold := kuwTest_fold var (List.ofFn cand) 9999999 prev
    have hpick : kuwPick var r x y prev = ((List.ofFn cand).foldl (kuwTest var) (9999999, prev)).2 := by
      unfold kuwPick; rw [hl]
    rw [hprev, hpick]
    generalize (List.ofFn cand).foldl (kuwTest var) (9999999, prev) = s at hfold
    obtain ⟨f1, f2, f3⟩ := hfold
    have f2' : ∀ l, s.1 ≤ var (cand l) := fun l => f2 _ (List.mem_ofFn.2 ⟨l, rfl⟩)
    obtain ⟨l0, hl0⟩ := hvar x y (by unfold Img.In; simp only; omega)
    rw [← hcv l0] at hl0
    rcases f3 with f3 | ⟨-, i, hi, g1, g2, g3⟩
    · have := f2' l0
      rw [f3] at this
      exact absurd hl0 (not_lt.2 this)
    · rw [List.length_ofFn] at hi
      have e : s.2 = cand ⟨i, hi⟩ := by rw [← g1, List.getElem_ofFn]
      refine ⟨⟨i, hi⟩, ?_, ?_, ?_⟩
      · rw [e, hcm]
      · intro l
        rw [← hcv, ← hcv, ← e, g2]
        exact f2' l
      · intro l hlt
        rw [← hcv, ← hcv, ← e, g2]
        have := g3 l.val (by exact hlt)
        rwa [List.getElem_ofFn] at this
  have hval : ∀ x y : Nat, x < im.dims.w → y < im.dims.h → ∃ w : Px t,
      truncPx t (mean (kuwBase var r im.dims.w (x + y * im.dims.w))) = some w ∧ IsKuwahara im r ((x : Int), (y : Int)) w.val := by
    intro x y hx hy
    obtain ⟨k, e, h1, h2⟩ := hpix x y hx hy
    have hself := quadrant_self im.dims r ((x : Int), (y : Int)) ⟨by simp, by simpa using hx, by simp, by simpa using hy⟩ (quadOf k)
    obtain ⟨w, hw1, hw2⟩ := truncPx_truncQ (t := t) (meanOn_between im _ ⟨_, hself⟩ _ _ fun q hq => pxVal_range im hd q (quadrant_in hq))
    rw [e]
    exact ⟨w, hw1, k, h1, h2, hw2⟩
  refine ⟨⟨im.dims, fun i => (truncPx t (mean (kuwBase var r im.dims.w i))).getD Px.zero⟩, ?_, rfl, ?_⟩
  · unfold kuwahara
    rw [checkDims_ok ha]
    simp only
    have e1 : (r * 2 + 1 + 1) / 2 = r + 1 := by omega
    have e2 : (r * 2 + 1 - 1) / 2 = r := by omega
    rw [if_neg (show ¬ im.dims.d > 1 by omega), e1, e2, if_pos, if_pos]
    · rw [List.all_eq_true]
      intro i hi
      rw [List.mem_range] at hi
      have hc : im.dims.count = im.dims.w * im.dims.h := by unfold Dims.count; rw [hd]; ring
      rw [hc] at hi
      have hw : 0 < im.dims.w := by
        rcases Nat.eq_zero_or_pos im.dims.w with h | h
        · rw [h] at hi; simp at hi
        · exact h
      have hy : i / im.dims.w < im.dims.h := Nat.div_lt_of_lt_mul hi
      obtain ⟨w, hw1, -⟩ := hval (i % im.dims.w) (i / im.dims.w) (Nat.mod_lt _ hw) hy
      rw [Nat.mul_comm, Nat.mod_add_div] at hw1
      exact Option.isSome_iff_exists.2 ⟨w, hw1⟩
    · rw [List.all_eq_true]
      intro i _
      rw [List.all_eq_true]
      intro j _
      exact kuwStat_isSome im hd hsq _ _ _
  · intro x y hin
    have hin' := hin
    unfold Img.In at hin'
    simp only at hin'
    obtain ⟨a, rfl⟩ := Int.eq_ofNat_of_zero_le hin'.1
    obtain ⟨c, rfl⟩ := Int.eq_ofNat_of_zero_le hin'.2.2.1
    obtain ⟨w, hw1, hw2⟩ := hval a c (by omega) (by omega)
    refine ⟨w, ?_, hw2⟩
    unfold Img.at?
    simp only
    rw [if_pos hin]
    unfold Img.px rasterIndex
    simp only [Int.ofNat_eq_natCast, Int.toNat_natCast, Int.toNat_zero, Nat.mul_zero, Nat.zero_mul]
    have e : ∀ u : Nat, u = a + c * im.dims.w → (truncPx t (mean (kuwBase var r im.dims.w u))).getD Px.zero = w := by
      rintro u rfl
      rw [hw1]; rfl
    congr 1
    apply e
    ring

theorem cpp_square (ht : t.bits ≤ 16 ∨ t = UINT32 ∨ t = INT32) (v : Int) (hv : |v| ≤ 46340) : t.cpp (v * v) = some (v * v) := by
  have h0 : 0 ≤ v * v := mul_self_nonneg v
  have h1 : v * v ≤ 46340 * 46340 := by
    rw [← abs_mul_abs_self v]
    exact mul_le_mul hv hv (abs_nonneg v) (by norm_num)
  generalize v * v = z at h0 h1
  have key : t.promoted = INT32 ∨ t.promoted = UINT32 := by
    unfold PT.promoted
    rcases ht with h | rfl | rfl
    · left; rw [if_pos h]
    · right; decide
    · left; decide
  unfold PT.cpp
  rcases key with h | h
  · rw [h, if_pos (by decide), if_pos]
    have : INT32.lo = -2147483648 ∧ INT32.hi = 2147483647 := by decide
    omega
  · rw [h, if_neg (by decide), UINT32.wrap_of_mem]
    · have : UINT32.lo = 0 := by decide
      omega
    · have : UINT32.hi = 4294967295 := by decide
      omega

/-- **C103** (partial: one slice; values of at most 46340, so that their squares are computed; at every pixel one of the four variances is less than
9999999; exact arithmetic). Each pixel becomes the mean, truncated, of the first of its four squares with the least variance. -/
theorem C103_kuwahara_partial (ht : t.bits ≤ 16 ∨ t = UINT32 ∨ t = INT32) (auto : Bool) (im : Img (Px t)) (r : Nat) (dout : Dims)
    (ha : AcceptsD auto im.dims dout) (hd : im.dims.d = 1) (hv : ∀ p v, im.at? p = some v → |v.val| ≤ 46340)
    (hvar : ∀ x y, Img.In im.dims ⟨x, y, 0⟩ → ∃ l, varOn im (quadrant im.dims r (x, y) (quadOf l)) < 9999999) :
    ∃ out, kuwahara auto im r dout = some (.ok out) ∧ out.dims = im.dims ∧
      ∀ x y, Img.In im.dims ⟨x, y, 0⟩ → ∃ b, out.at? ⟨x, y, 0⟩ = some b ∧ IsKuwahara im r (x, y) b.val :=
  kuwahara_core auto im r dout ha hd (fun p v h => cpp_square ht v.val (hv p v h)) hvar

theorem varOn_le (im : Img (Px t)) (S : Finset (Int × Int)) (hS : S.Nonempty) (lo hi : ℚ) (h : ∀ q ∈ S, lo ≤ pxVal im q ∧ pxVal im q ≤ hi) :
    varOn im S ≤ (hi - lo) ^ 2 := by
  have hm := meanOn_between im S hS lo hi h
  have hc : (0 : ℚ) < S.card := by exact_mod_cast Finset.card_pos.2 hS
  unfold varOn
  rw [div_le_iff₀ hc]
  have := Finset.sum_le_card_nsmul S (fun q => (pxVal im q - meanOn im S) ^ 2) ((hi - lo) ^ 2) fun q hq => by
    have := h q hq
    refine sq_le_sq.2 ?_
    rw [abs_le]
    have h2 : |hi - lo| = hi - lo := abs_of_nonneg (by linarith)
    rw [h2]
    constructor <;> linarith
  rw [nsmul_eq_mul] at this
  linarith

/-- **C103**, types of 8 bits: no condition on the values. -/
theorem C103_bytes (ht : t = UINT8 ∨ t = INT8) (auto : Bool) (im : Img (Px t)) (r : Nat) (dout : Dims)
    (ha : AcceptsD auto im.dims dout) (hd : im.dims.d = 1) :
    ∃ out, kuwahara auto im r dout = some (.ok out) ∧ out.dims = im.dims ∧
      ∀ x y, Img.In im.dims ⟨x, y, 0⟩ → ∃ b, out.at? ⟨x, y, 0⟩ = some b ∧ IsKuwahara im r (x, y) b.val := by
  have hb : t.bits ≤ 16 ∧ -128 ≤ t.lo ∧ t.hi ≤ 255 ∧ t.hi - t.lo = 255 := by
    rcases ht with rfl | rfl <;> decide
  refine C103_kuwahara_partial (Or.inl hb.1) auto im r dout ha hd (fun p v _ => ?_) (fun x y hin => ⟨0, ?_⟩)
  · have h1 := v.lo_le
    have h2 := v.le_hi
    rw [abs_le]
    omega
  · have hself := quadrant_self im.dims r (x, y) (by unfold Img.In at hin; simp only at hin ⊢; omega) (quadOf 0)
    refine lt_of_le_of_lt (varOn_le im _ ⟨_, hself⟩ t.lo t.hi fun q hq => pxVal_range im hd q (quadrant_in hq)) ?_
    have : ((t.hi : ℚ) - t.lo) = 255 := by exact_mod_cast hb.2.2.2
    rw [this]
    norm_num

/-- **C103**: what is asked of the result puts it between the bounds of the values of the window of side `2 r + 1`; in particular a window with one value
keeps it. -/
theorem C103_window (im : Img (Px t)) (hd : im.dims.d = 1) (r : Nat) (x y : Int) (hin : Img.In im.dims ⟨x, y, 0⟩) (b lo hi : Int)
    (hb : IsKuwahara im r (x, y) b)
    (h : ∀ x' y' v, |x' - x| ≤ r → |y' - y| ≤ r → im.at? ⟨x', y', 0⟩ = some v → lo ≤ v.val ∧ v.val ≤ hi) : lo ≤ b ∧ b ≤ hi := by
  obtain ⟨k, -, -, rfl⟩ := hb
  have hself := quadrant_self im.dims r (x, y) (by unfold Img.In at hin; simp only at hin ⊢; omega) (quadOf k)
  refine truncQ_between (meanOn_between im _ ⟨_, hself⟩ _ _ fun q hq => ?_)
  obtain ⟨e, v, hv, ev⟩ := kuwRead_val im hd q (quadrant_in hq)
  have hq' := (Finset.mem_filter.1 (show q ∈ (_ : Finset _).filter _ from hq)).1
  simp only [Finset.mem_product, Finset.mem_Icc] at hq'
  have := h q.1 q.2 v (by rw [abs_le]; split_ifs at hq' <;> omega) (by rw [abs_le]; split_ifs at hq' <;> omega) hv
  rw [e, ← ev]
  exact ⟨by exact_mod_cast this.1, by exact_mod_cast this.2⟩

/-- **C103**: what is refused. -/
theorem C103_refuse (auto : Bool) (im : Img (Px t)) (r : Nat) (dout : Dims) :
    ((im.dims.count = 0 ∨ dout.count = 0) → kuwahara auto im r dout = some (.error (-99))) ∧
    (im.dims.count ≠ 0 → dout.count ≠ 0 → dout ≠ im.dims → auto = false → kuwahara auto im r dout = some (.error (-98))) ∧
    (AcceptsD auto im.dims dout → 1 < im.dims.d → kuwahara auto im r dout = some (.error (-100))) := by
  refine ⟨fun h => ?_, fun h1 h2 h3 h4 => ?_, fun ha hd => ?_⟩
  · unfold kuwahara checkDims
    rw [if_pos h]
    rfl
  · unfold kuwahara checkDims
    rw [if_neg (by tauto), if_neg h3, h4]
    rfl
  · unfold kuwahara
    rw [checkDims_ok ha]
    simp only
    rw [if_pos hd]
    rfl

/-! ## Exceptions -/

theorem mapM_one_none {α β : Type} (f : α → Option β) (l : List α) (x : α) (hx : x ∈ l) (h : f x = none) : l.mapM f = none := by
  induction l with
  | nil => simp at hx
  | cons a l ih =>
    rw [List.mapM_cons]
    rcases List.mem_cons.1 hx with rfl | hx
    · rw [h]; rfl
    · cases f a with
      | none => rfl
      | some b => rw [ih hx]; rfl

/-- With `UINT16` pixels a value greater than 46340 is enough for undefined behaviour: the product of two `UINT16` is an `int`. -/
theorem C103_overflow_ub (auto : Bool) (im : Img (Px UINT16)) (r : Nat) (dout : Dims) (ha : AcceptsD auto im.dims dout) (hd : im.dims.d = 1)
    (p : IntPoint) (v : Px UINT16) (hp : im.at? p = some v) (hv : 46340 < v.val) : kuwahara auto im r dout = none := by
  have hin := Img.at?_eq_some_in _ _ _ hp
  unfold Img.In at hin
  have hz : p.z = 0 := by omega
  have hp' : im.at? ⟨p.x, p.y, 0⟩ = some v := by rw [← hz]; exact hp
  obtain ⟨-, v', hv', e⟩ := kuwRead_val im hd (p.x, p.y) ⟨by simp; omega, by simp; omega, by simp; omega, by simp; omega⟩
  rw [hp'] at hv'
  cases hv'
  have hsq : UINT16.cpp (v.val * v.val) = none := by
    unfold PT.cpp
    rw [if_pos (by decide), if_neg]
    have : UINT16.promoted.hi = 2147483647 := by decide
    rw [this]
    have : 46341 * 46341 ≤ v.val * v.val := mul_le_mul (by omega) (by omega) (by omega) (by omega)
    omega
  unfold kuwahara
  rw [checkDims_ok ha]
  simp only
  have e1 : (r * 2 + 1 + 1) / 2 = r + 1 := by omega
  have e2 : (r * 2 + 1 - 1) / 2 = r := by omega
  rw [if_neg (show ¬ im.dims.d > 1 by omega), e1, e2, if_neg]
  intro hall
  rw [List.all_eq_true] at hall
  have h1 := hall p.x.toNat (by rw [List.mem_range]; omega)
  rw [List.all_eq_true] at h1
  have h2 := h1 p.y.toNat (by rw [List.mem_range]; omega)
  unfold kuwStat at h2
  simp only at h2
  rw [mapM_one_none _ _ v.val ?_ hsq] at h2
  · simp at h2
  · refine List.mem_map.2 ⟨(p.x, p.y), (kuwPts_mem _ _ _ _ _).2 ⟨?_, ?_⟩, e.symm⟩
    · simp only; omega
    · simp only; omega

/-- The pixels of a result. -/
def kuwList : Option (Except Int (Img (Px t))) → List Int
  | some (.ok r) => (List.range r.dims.count).map fun i => (r.buf i).val
  | _ => []

/-- Contrasted `UINT16` images: the four variances at the second pixel are greater than the initial `Min`, 9999999, and the square of the previous pixel is
kept. The means of its squares are 10000; the result is 0. -/
theorem C103_variance_bug :
    kuwList (kuwahara false (imOf UINT16 ⟨3, 1, 1⟩ [0, 20000, 0]) 1 ⟨3, 1, 1⟩) = [0, 0, 0] ∧
    ∀ l, meanOn (imOf UINT16 ⟨3, 1, 1⟩ [0, 20000, 0]) (quadrant ⟨3, 1, 1⟩ 1 (1, 0) (quadOf l)) = 10000 := by
  constructor
  · decide +kernel
  · decide +kernel

/-- A step is kept where a mean would blur it. -/
example : kuwList (kuwahara false (im8 ⟨5, 2, 1⟩ [10, 12, 11, 200, 202, 10, 12, 14, 201, 203]) 1 ⟨5, 2, 1⟩) =
    [10, 11, 11, 201, 202, 10, 11, 13, 202, 203] := by decide +kernel

end
end Smil
