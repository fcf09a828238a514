import Verif.PathOp
import Verif.PathOpSpec
import Mathlib.Data.Finset.Prod
import Mathlib.Data.Finset.Card
import Mathlib.Order.Interval.Finset.Basic
import Mathlib.Data.Int.Interval
import Mathlib.Tactic.Ring
import Mathlib.Tactic.IntervalCases
import Mathlib.Tactic.FinCases
import Mathlib.Tactic.Linarith

/-!
# Lemmas on binary path openings
-/

namespace Smil

/-! ### Chains that end at a point -/

/-- A chain of `n + 1` points of `S` ends at `p`, following `R`. -/
def Reach (R : Int × Int → Int × Int → Prop) (S : Int × Int → Prop) : Nat → Int × Int → Prop
  | 0, p => S p
  | n + 1, p => S p ∧ ∃ q, R q p ∧ Reach R S n q

theorem Reach.mem {R : Int × Int → Int × Int → Prop} {S : Int × Int → Prop} {n : Nat} {p : Int × Int} (h : Reach R S n p) : S p := by
  cases n with
  | zero => exact h
  | succ n => exact h.1

theorem lreach_iff (R : Int × Int → Int × Int → Prop) (S : Int × Int → Prop) (n : Nat) (p : Int × Int) :
    Reach R S n p ↔ ∃ l : List (Int × Int), l.length = n ∧ (p :: l).IsChain (fun a b => R b a) ∧ ∀ q ∈ p :: l, S q := by
  induction n generalizing p with
  | zero =>
    constructor
    · intro h
      exact ⟨[], rfl, by simp, by simpa [Reach] using h⟩
    · rintro ⟨l, hl, _, h⟩
      exact h p (by simp)
  | succ n ih =>
    constructor
    · rintro ⟨h, q, hq, hr⟩
      obtain ⟨l, hl, hc, hs⟩ := (ih q).mp hr
      refine ⟨q :: l, by simp [hl], List.isChain_cons_cons.mpr ⟨hq, hc⟩, ?_⟩
      intro a ha
      rcases List.mem_cons.mp ha with rfl | ha
      exacts [h, hs a ha]
    · rintro ⟨l, hl, hc, hs⟩
      cases l with
      | nil => simp at hl
      | cons q l =>
        rw [List.isChain_cons_cons] at hc
        exact ⟨hs p (by simp), q, hc.1, (ih q).mpr ⟨l, by simpa using hl, hc.2, fun a ha => hs a (List.mem_cons_of_mem _ ha)⟩⟩

/-- A path through a point: what comes before and what comes after. -/
theorem path_through (R : Int × Int → Int × Int → Prop) (S : Int × Int → Prop) (p : Int × Int) (n : Nat) :
    (∃ l, IsPathIn R S l ∧ p ∈ l ∧ l.length = n + 1) ↔ ∃ a b, a + b = n ∧ Reach R S a p ∧ Reach (fun x y => R y x) S b p := by
  constructor
  · rintro ⟨l, ⟨hc, hs⟩, hp, hl⟩
    obtain ⟨l1, l2, rfl⟩ := List.append_of_mem hp
    obtain ⟨h1, h2⟩ := List.isChain_split.mp hc
    refine ⟨l1.length, l2.length, by simp at hl; omega, (lreach_iff ..).mpr ⟨l1.reverse, by simp, ?_, ?_⟩, (lreach_iff ..).mpr ⟨l2, rfl, h2, ?_⟩⟩
    · have : p :: l1.reverse = (l1 ++ [p]).reverse := by simp
      rw [this, List.isChain_reverse]
      exact h1
    · intro q hq
      refine hs q ?_
      simp only [List.mem_cons, List.mem_reverse, List.mem_append] at hq ⊢
      tauto
    · intro q hq
      exact hs q (List.mem_append_right _ hq)
  · rintro ⟨a, b, rfl, ha, hb⟩
    obtain ⟨l1, h1, c1, s1⟩ := (lreach_iff ..).mp ha
    obtain ⟨l2, h2, c2, s2⟩ := (lreach_iff ..).mp hb
    refine ⟨l1.reverse ++ p :: l2, ⟨List.isChain_split.mpr ⟨?_, c2⟩, ?_⟩, by simp, by simp; omega⟩
    · have : l1.reverse ++ [p] = (p :: l1).reverse := by simp
      rw [this, List.isChain_reverse]
      exact c1
    · intro q hq
      rcases List.mem_append.mp hq with h | h
      · exact s1 q (List.mem_cons_of_mem _ (List.mem_reverse.mp h))
      · exact s2 q h

/-! ### One direction -/

/-- `q` is one of the points that `ComputeLambda` looks at from `p`. -/
def LamRel (k : Nat) (q p : Int × Int) : Prop := ∃ o ∈ lamOffs k, q = (p.1 + o.1, p.2 + o.2)

theorem lamRel_step (q p : Int × Int) :
    (LamRel 0 q p ↔ PathStep 0 q p) ∧ (LamRel 1 q p ↔ PathStep 0 p q) ∧ (LamRel 2 q p ↔ PathStep 1 q p) ∧ (LamRel 3 q p ↔ PathStep 1 p q) ∧
    (LamRel 4 q p ↔ PathStep 2 q p) ∧ (LamRel 5 q p ↔ PathStep 2 p q) ∧ (LamRel 6 q p ↔ PathStep 3 q p) ∧ (LamRel 7 q p ↔ PathStep 3 p q) := by
  obtain ⟨a, b⟩ := q
  obtain ⟨c, d⟩ := p
  unfold LamRel PathStep
  simp only [lamOffs, List.mem_cons, List.not_mem_nil, or_false, exists_eq_or_imp, exists_eq_left, Prod.mk.injEq, abs_le]
  refine ⟨?_, ?_, ?_, ?_, ?_, ?_, ?_, ?_⟩ <;> constructor <;> intro h <;> omega

theorem foldl_best (f : Int × Int → Nat) (g : Int × Int → Bool) (p : Int × Int) (l : List (Int × Int)) (n : Nat) : ∀ L : Nat,
    (n < l.foldl (fun L o =>
      let q := (p.1 + o.1, p.2 + o.2)
      if g q && decide (L < f q) then f q else L) L ↔ n < L ∨ ∃ o ∈ l, g (p.1 + o.1, p.2 + o.2) = true ∧ n < f (p.1 + o.1, p.2 + o.2)) := by
  induction l with
  | nil => simp
  | cons o l ih =>
    intro L
    rw [List.foldl_cons, ih]
    simp only [List.mem_cons, exists_eq_or_imp, Bool.and_eq_true, decide_eq_true_eq]
    by_cases hg : g (p.1 + o.1, p.2 + o.2) = true
    · by_cases hL : L < f (p.1 + o.1, p.2 + o.2)
      · rw [if_pos ⟨hg, hL⟩]
        constructor
        · rintro (h | h)
          · exact .inr (.inl ⟨hg, h⟩)
          · exact .inr (.inr h)
        · rintro (h | h | h)
          · exact .inl (by omega)
          · exact .inl h.2
          · exact .inr h
      · rw [if_neg (by tauto)]
        constructor
        · rintro (h | h)
          · exact .inl h
          · exact .inr (.inr h)
        · rintro (h | h | h)
          · exact .inl h
          · exact .inl (by omega)
          · exact .inr h
    · rw [if_neg (by tauto)]
      tauto

theorem computeLambda_spec (W H : Nat) (lam : Lam) (k : Nat) (p : Int × Int) (n : Nat) :
    n < computeLambda W H lam k p ↔ n = 0 ∨ ∃ q, LamRel k q p ∧ inWH W H q = true ∧ n - 1 < lam k q := by
  unfold computeLambda
  cases n with
  | zero => simp
  | succ n =>
    rw [Nat.add_lt_add_iff_right, foldl_best]
    unfold LamRel
    simp only [Nat.not_lt_zero, false_or, Nat.add_sub_cancel, Nat.add_eq_zero_iff, Nat.one_ne_zero, and_false]
    constructor
    · rintro ⟨o, h1, h2, h3⟩
      exact ⟨_, ⟨o, h1, rfl⟩, h2, h3⟩
    · rintro ⟨q, ⟨o, h1, rfl⟩, h2, h3⟩
      exact ⟨o, h1, h2, h3⟩

theorem computeLambda_congr (W H : Nat) (lam lam' : Lam) (k : Nat) (p : Int × Int) (h : lam k = lam' k) :
    computeLambda W H lam k p = computeLambda W H lam' k p := by
  unfold computeLambda
  rw [h]

theorem lamDirs_fold (W H : Nat) (bin : Int × Int → Bool) (c : DiagCur) (i : Nat) (l : List Nat) (hn : l.Nodup)
    (hin : ∀ k ∈ l, inWH W H (lamScan W H c i k) = true) : ∀ lam : Lam,
    l.foldlM (fun lam k =>
      let p := lamScan W H c i k
      if inWH W H p then
        some (if bin p then Function.update lam k (Function.update (lam k) p (computeLambda W H lam k p)) else lam)
      else none) lam = some fun k p => if k ∈ l ∧ p = lamScan W H c i k ∧ bin p = true then computeLambda W H lam k p else lam k p := by
  induction l with
  | nil => simp
  | cons k l ih =>
    intro lam
    rw [List.nodup_cons] at hn
    rw [List.foldlM_cons]
    simp only [hin k (by simp), if_true, Option.bind_eq_bind, Option.bind_some]
    rw [ih hn.2 fun k hk => hin k (by simp [hk])]
    congr 1
    funext j p
    by_cases hj : j = k
    · subst hj
      simp only [hn.1, false_and, if_false, List.mem_cons, true_or, true_and]
      by_cases hp : p = lamScan W H c i j
      · subst hp
        by_cases hb : bin (lamScan W H c i j) = true
        · simp [hb]
        · simp [hb]
      · simp only [hp, false_and, if_false]
        split
        · rw [Function.update_self, Function.update_of_ne hp]
        · rfl
    · have e : (if bin (lamScan W H c i k) = true then Function.update lam k (Function.update (lam k) (lamScan W H c i k) (computeLambda W H lam k (lamScan W H c i k)))
          else lam) j = lam j := by
        split
        · rw [Function.update_of_ne hj]
        · rfl
      simp only [List.mem_cons, hj, false_or]
      rw [computeLambda_congr W H _ lam j p e, e]

theorem lamDirs_eq (W H : Nat) (bin : Int × Int → Bool) (c : DiagCur) (i : Nat) (lam : Lam)
    (hin : ∀ k < 8, inWH W H (lamScan W H c i k) = true) :
    lamDirs W H bin c i lam = some fun k p => if k < 8 ∧ p = lamScan W H c i k ∧ bin p = true then computeLambda W H lam k p else lam k p := by
  unfold lamDirs
  rw [lamDirs_fold W H bin c i _ List.nodup_range (fun k hk => hin k (List.mem_range.mp hk))]
  simp only [List.mem_range]

/-! ### The diagonal scan -/

/-- The cursor at the iteration `i`. -/
def diagAt (W H i : Nat) : DiagCur := (DiagCur.next W H)^[i] ⟨0, 0, 0, 0⟩

theorem diagAt_succ (W H i : Nat) : diagAt W H (i + 1) = (diagAt W H i).next W H := Function.iterate_succ_apply' ..

/-- The points of the image. -/
def allWH (W H : Nat) : Finset (Int × Int) := Finset.Ico (0 : Int) W ×ˢ Finset.Ico (0 : Int) H

theorem mem_allWH (W H : Nat) (p : Int × Int) : p ∈ allWH W H ↔ 0 ≤ p.1 ∧ p.1 < W ∧ 0 ≤ p.2 ∧ p.2 < H := by
  unfold allWH
  rw [Finset.mem_product, Finset.mem_Ico, Finset.mem_Ico]
  tauto

theorem card_allWH (W H : Nat) : (allWH W H).card = W * H := by
  unfold allWH
  rw [Finset.card_product, Int.card_Ico, Int.card_Ico]
  simp

/-- The points seen before the iteration `i`. -/
def seenD (W H i : Nat) : Finset (Int × Int) := (Finset.range i).image fun j => ((diagAt W H j).x, (diagAt W H j).y)

theorem seenD_succ (W H i : Nat) : seenD W H (i + 1) = insert ((diagAt W H i).x, (diagAt W H i).y) (seenD W H i) := by
  unfold seenD
  rw [Finset.range_add_one, Finset.image_insert]

structure DiagInv (W H i : Nat) (s : Int) : Prop where
  nonneg : 0 ≤ s
  sum : (diagAt W H i).x + (diagAt W H i).y = s
  place : ((diagAt W H i).x = max 0 (s - (H - 1)) ∧ (diagAt W H i).y = min s (H - 1) ∧ (diagAt W H i).left = max 0 (s - (H - 1)) ∧ (diagAt W H i).top = min s (H - 1)) ∨
    ((diagAt W H i).x > max 0 (s - (H - 1)) ∧ (diagAt W H i).y < min s (H - 1) ∧ 0 ≤ (diagAt W H i).y ∧ (diagAt W H i).x < W ∧
      (diagAt W H i).left = max 0 (s + 1 - (H - 1)) ∧ (diagAt W H i).top = min (s + 1) (H - 1))
  seen : ∀ p, p ∈ seenD W H i ↔ p ∈ allWH W H ∧ (p.1 + p.2 < s ∨ p.1 + p.2 = s ∧ p.1 < (diagAt W H i).x)
  card : (seenD W H i).card = i

theorem DiagInv.zero (W H : Nat) (hH : 0 < H) : DiagInv W H 0 0 := by
  have e : diagAt W H 0 = ⟨0, 0, 0, 0⟩ := rfl
  refine ⟨le_refl _, by rw [e]; rfl, .inl ?_, ?_, rfl⟩
  · rw [e]
    dsimp only
    omega
  · intro p
    rw [mem_allWH, e]
    have : p ∉ seenD W H 0 := by simp [seenD]
    simp only [this, false_iff]
    omega

theorem DiagInv.inside {W H i : Nat} {s : Int} (h : DiagInv W H i s) (hH : 0 < H) (hi : i < W * H) :
    ((diagAt W H i).x, (diagAt W H i).y) ∈ allWH W H := by
  rw [mem_allWH]
  dsimp only
  have h0 := h.nonneg
  rcases h.place with ⟨a, b, _, _⟩ | ⟨a, b, c, d, _⟩
  · by_contra hc
    have hw : (W : Int) ≤ max 0 (s - (H - 1)) := by omega
    have : seenD W H i = allWH W H := by
      ext p
      rw [h.seen, and_iff_left_iff_imp, mem_allWH]
      intro hp
      left
      have : 0 < W := by omega
      omega
    have e := h.card
    rw [this, card_allWH] at e
    omega
  · omega

theorem DiagInv.succ {W H i : Nat} {s : Int} (h : DiagInv W H i s) (hH : 0 < H) (hi : i < W * H) : ∃ s', DiagInv W H (i + 1) s' := by
  have hin := h.inside hH hi
  have hn : ((diagAt W H i).x, (diagAt W H i).y) ∉ seenD W H i := by
    rw [h.seen]
    have := h.sum
    dsimp only
    omega
  have hcard : (seenD W H (i + 1)).card = i + 1 := by rw [seenD_succ, Finset.card_insert_of_notMem hn, h.card]
  rw [mem_allWH] at hin
  have h0 := h.nonneg
  have hs := h.sum
  have hp := h.place
  have hseen := h.seen
  have hnext := diagAt_succ W H i
  have hsu := seenD_succ W H i
  rcases hc : diagAt W H i with ⟨x, y, top, left⟩
  rw [hc] at hin hs hp hseen hnext hsu
  dsimp only at hin hs hp hseen hnext hsu
  have htop : (if y + 1 > top ∧ y + 1 < H then y + 1 else top) = min (s + 1) ((H : Int) - 1) := by split <;> omega
  have hleft : (if y = (H : Int) - 1 then left + 1 else left) = max 0 (s + 1 - ((H : Int) - 1)) := by split <;> omega
  unfold DiagCur.next at hnext
  dsimp only at hnext
  rw [htop, hleft] at hnext
  by_cases hw : x + 1 ≥ W ∨ y - 1 < 0
  · rw [if_pos hw] at hnext
    refine ⟨s + 1, by omega, ?_, .inl ?_, ?_, hcard⟩
    · rw [hnext]
      dsimp only
      omega
    · rw [hnext]
      dsimp only
      omega
    · intro p
      rw [hsu, Finset.mem_insert, hseen, hnext, mem_allWH]
      dsimp only
      constructor
      · rintro (rfl | h)
        · dsimp only
          omega
        · omega
      · intro h
        by_cases he : p.1 = x ∧ p.2 = y
        · exact .inl (Prod.ext he.1 he.2)
        · right
          omega
  · rw [if_neg hw] at hnext
    refine ⟨s, by omega, ?_, .inr ?_, ?_, hcard⟩
    · rw [hnext]
      dsimp only
      omega
    · rw [hnext]
      dsimp only
      omega
    · intro p
      rw [hsu, Finset.mem_insert, hseen, hnext, mem_allWH]
      dsimp only
      constructor
      · rintro (rfl | h)
        · dsimp only
          omega
        · omega
      · intro h
        by_cases he : p.1 = x ∧ p.2 = y
        · exact .inl (Prod.ext he.1 he.2)
        · right
          omega

theorem diagInv (W H : Nat) (hH : 0 < H) : ∀ i ≤ W * H, ∃ s, DiagInv W H i s := by
  intro i
  induction i with
  | zero => exact fun _ => ⟨0, .zero W H hH⟩
  | succ i ih =>
    intro hi
    obtain ⟨s, h⟩ := ih (by omega)
    exact h.succ hH (by omega)

/-! ### The order of the points in the eight directions -/

/-- The point of the iteration `i` in the direction `k`. -/
def scanK (W H k i : Nat) : Int × Int := lamScan W H (diagAt W H i) i k

/-- What the loop needs of a scan. -/
structure GoodScan (W H k : Nat) : Prop where
  inside : ∀ i < W * H, inWH W H (scanK W H k i) = true
  before : ∀ i < W * H, ∀ q, LamRel k q (scanK W H k i) → inWH W H q = true → ∃ j < i, scanK W H k j = q
  all : ∀ p, inWH W H p = true → ∃ j < W * H, scanK W H k j = p

theorem inWH_iff (W H : Nat) (p : Int × Int) : inWH W H p = true ↔ 0 ≤ p.1 ∧ p.1 < W ∧ 0 ≤ p.2 ∧ p.2 < H := by
  unfold inWH
  rw [decide_eq_true_eq]

theorem goodScan_4 (W H : Nat) : GoodScan W H 4 := by
  have hH : ∀ i, i < W * H → 0 < H := fun i hi => Nat.pos_of_ne_zero fun h => by simp [h] at hi
  refine ⟨fun i hi => ?_, fun i hi q hq hin => ?_, fun p hp => ?_⟩
  · obtain ⟨s, h⟩ := diagInv W H (hH i hi) i hi.le
    rw [inWH_iff]
    exact (mem_allWH W H _).mp (h.inside (hH i hi) hi)
  · obtain ⟨s, h⟩ := diagInv W H (hH i hi) i hi.le
    have hm : q ∈ seenD W H i := by
      rw [h.seen, mem_allWH]
      refine ⟨(inWH_iff W H q).mp hin, .inl ?_⟩
      have hs := h.sum
      obtain ⟨o, ho, rfl⟩ := hq
      simp only [lamOffs, List.mem_cons, List.not_mem_nil, or_false] at ho
      rcases ho with rfl | rfl | rfl <;> simp only [scanK, lamScan] <;> omega
    obtain ⟨j, hj, e⟩ := Finset.mem_image.mp hm
    exact ⟨j, Finset.mem_range.mp hj, e⟩
  · rw [inWH_iff] at hp
    obtain ⟨s, h⟩ := diagInv W H (by omega) (W * H) le_rfl
    have hsub : seenD W H (W * H) ⊆ allWH W H := fun p hp => ((h.seen p).mp hp).1
    have he := Finset.eq_of_subset_of_card_le hsub (by rw [h.card, card_allWH])
    have hm : p ∈ seenD W H (W * H) := by rw [he, mem_allWH]; exact hp
    obtain ⟨j, hj, e⟩ := Finset.mem_image.mp hm
    exact ⟨j, Finset.mem_range.mp hj, e⟩

/-- A mirrored scan. -/
theorem GoodScan.mirror {W H k : Nat} (k' : Nat) (m : Int × Int → Int × Int) (h : GoodScan W H k) (hs : ∀ i, scanK W H k' i = m (scanK W H k i))
    (hm : ∀ p, m (m p) = p) (hin : ∀ p, inWH W H (m p) = inWH W H p) (hr : ∀ q p, LamRel k' q (m p) → LamRel k (m q) p) : GoodScan W H k' := by
  refine ⟨fun i hi => by rw [hs, hin]; exact h.inside i hi, fun i hi q hq hi' => ?_, fun p hp => ?_⟩
  · rw [hs] at hq
    obtain ⟨j, hj, e⟩ := h.before i hi (m q) (hr q _ hq) (by rw [hin]; exact hi')
    exact ⟨j, hj, by rw [hs, e, hm]⟩
  · obtain ⟨j, hj, e⟩ := h.all (m p) (by rw [hin]; exact hp)
    exact ⟨j, hj, by rw [hs, e, hm]⟩

theorem goodScan_0 (W H : Nat) : GoodScan W H 0 := by
  have hW : ∀ i, i < W * H → 0 < W := fun i hi => Nat.pos_of_ne_zero fun h => by simp [h] at hi
  have key : ∀ p : Int × Int, inWH W H p = true → scanK W H 0 (p.1.toNat + W * p.2.toNat) = p ∧ p.1.toNat + W * p.2.toNat < W * (p.2.toNat + 1) := by
    rintro ⟨x, y⟩ hp
    rw [inWH_iff] at hp
    dsimp only at hp
    have hx : x.toNat < W := by omega
    constructor
    · simp only [scanK, lamScan]
      rw [Nat.add_mul_mod_self_left, Nat.mod_eq_of_lt hx, Nat.add_mul_div_left _ _ (by omega), Nat.div_eq_of_lt hx]
      ext <;> simp <;> omega
    · dsimp only
      rw [Nat.mul_add]
      omega
  refine ⟨fun i hi => ?_, fun i hi q hq hin => ?_, fun p hp => ?_⟩
  · have := Nat.mod_lt i (hW i hi)
    have : i / W < H := Nat.div_lt_of_lt_mul hi
    rw [inWH_iff]
    exact ⟨Int.natCast_nonneg _, Int.ofNat_lt.mpr ‹_›, Int.natCast_nonneg _, Int.ofNat_lt.mpr ‹_›⟩
  · obtain ⟨e, hl⟩ := key q hin
    refine ⟨_, ?_, e⟩
    rw [inWH_iff] at hin
    have hy : q.2.toNat + 1 = i / W := by
      obtain ⟨o, ho, rfl⟩ := hq
      simp only [lamOffs, List.mem_cons, List.not_mem_nil, or_false] at ho
      rcases ho with rfl | rfl | rfl <;> simp only [scanK, lamScan] at hin ⊢ <;> omega
    rw [hy] at hl
    exact lt_of_lt_of_le hl (Nat.mul_div_le i W)
  · obtain ⟨e, hl⟩ := key p hp
    rw [inWH_iff] at hp
    exact ⟨_, lt_of_lt_of_le hl (Nat.mul_le_mul_left W (by omega)), e⟩

theorem goodScan_2 (W H : Nat) : GoodScan W H 2 := by
  have hW : ∀ i, i < W * H → 0 < H := fun i hi => Nat.pos_of_ne_zero fun h => by simp [h] at hi
  have key : ∀ p : Int × Int, inWH W H p = true → scanK W H 2 (p.2.toNat + H * p.1.toNat) = p ∧ p.2.toNat + H * p.1.toNat < H * (p.1.toNat + 1) := by
    rintro ⟨x, y⟩ hp
    rw [inWH_iff] at hp
    dsimp only at hp
    have hx : y.toNat < H := by omega
    constructor
    · simp only [scanK, lamScan]
      rw [Nat.add_mul_mod_self_left, Nat.mod_eq_of_lt hx, Nat.add_mul_div_left _ _ (by omega), Nat.div_eq_of_lt hx]
      ext <;> simp <;> omega
    · dsimp only
      rw [Nat.mul_add]
      omega
  refine ⟨fun i hi => ?_, fun i hi q hq hin => ?_, fun p hp => ?_⟩
  · have := Nat.mod_lt i (hW i hi)
    have : i / H < W := Nat.div_lt_of_lt_mul (by rw [Nat.mul_comm]; exact hi)
    rw [inWH_iff]
    exact ⟨Int.natCast_nonneg _, Int.ofNat_lt.mpr ‹_›, Int.natCast_nonneg _, Int.ofNat_lt.mpr ‹_›⟩
  · obtain ⟨e, hl⟩ := key q hin
    refine ⟨_, ?_, e⟩
    rw [inWH_iff] at hin
    have hy : q.1.toNat + 1 = i / H := by
      obtain ⟨o, ho, rfl⟩ := hq
      simp only [lamOffs, List.mem_cons, List.not_mem_nil, or_false] at ho
      rcases ho with rfl | rfl | rfl <;> simp only [scanK, lamScan] at hin ⊢ <;> omega
    rw [hy] at hl
    exact lt_of_lt_of_le hl (Nat.mul_div_le i H)
  · obtain ⟨e, hl⟩ := key p hp
    rw [inWH_iff] at hp
    refine ⟨_, lt_of_lt_of_le hl ?_, e⟩
    rw [Nat.mul_comm W H]
    exact Nat.mul_le_mul_left H (by omega)

theorem bool_iff {a b : Bool} (h : a = true ↔ b = true) : a = b := by cases a <;> cases b <;> simp_all

theorem goodScan (W H k : Nat) (hk : k < 8) : GoodScan W H k := by
  have h0 := goodScan_0 W H
  have h2 := goodScan_2 W H
  have h4 := goodScan_4 W H
  have hb : ∀ (m : Int × Int → Int × Int), (∀ p, (0 ≤ (m p).1 ∧ (m p).1 < W ∧ 0 ≤ (m p).2 ∧ (m p).2 < H) ↔ 0 ≤ p.1 ∧ p.1 < W ∧ 0 ≤ p.2 ∧ p.2 < H) →
      ∀ p, inWH W H (m p) = inWH W H p := fun m h p => bool_iff (by rw [inWH_iff, inWH_iff]; exact h p)
  interval_cases k
  · exact h0
  · refine h0.mirror 1 (fun p => (p.1, H - 1 - p.2)) (fun i => rfl) (fun p => by ext <;> simp) (hb _ fun p => by dsimp only; omega) ?_
    rintro q p ⟨o, ho, rfl⟩
    simp only [lamOffs, List.mem_cons, List.not_mem_nil, or_false] at ho
    rcases ho with rfl | rfl | rfl
    · exact ⟨(0, -1), by decide, by ext <;> dsimp only <;> omega⟩
    · exact ⟨(-1, -1), by decide, by ext <;> dsimp only <;> omega⟩
    · exact ⟨(1, -1), by decide, by ext <;> dsimp only <;> omega⟩
  · exact h2
  · refine h2.mirror 3 (fun p => (W - 1 - p.1, p.2)) (fun i => rfl) (fun p => by ext <;> simp) (hb _ fun p => by dsimp only; omega) ?_
    rintro q p ⟨o, ho, rfl⟩
    simp only [lamOffs, List.mem_cons, List.not_mem_nil, or_false] at ho
    rcases ho with rfl | rfl | rfl
    · exact ⟨(-1, 0), by decide, by ext <;> dsimp only <;> omega⟩
    · exact ⟨(-1, -1), by decide, by ext <;> dsimp only <;> omega⟩
    · exact ⟨(-1, 1), by decide, by ext <;> dsimp only <;> omega⟩
  · exact h4
  · refine h4.mirror 5 (fun p => (W - 1 - p.1, H - 1 - p.2)) (fun i => rfl) (fun p => by ext <;> simp) (hb _ fun p => by dsimp only; omega) ?_
    rintro q p ⟨o, ho, rfl⟩
    simp only [lamOffs, List.mem_cons, List.not_mem_nil, or_false] at ho
    rcases ho with rfl | rfl | rfl
    · exact ⟨(0, -1), by decide, by ext <;> dsimp only <;> omega⟩
    · exact ⟨(-1, 0), by decide, by ext <;> dsimp only <;> omega⟩
    · exact ⟨(-1, -1), by decide, by ext <;> dsimp only <;> omega⟩
  · refine h4.mirror 6 (fun p => (p.1, H - 1 - p.2)) (fun i => rfl) (fun p => by ext <;> simp) (hb _ fun p => by dsimp only; omega) ?_
    rintro q p ⟨o, ho, rfl⟩
    simp only [lamOffs, List.mem_cons, List.not_mem_nil, or_false] at ho
    rcases ho with rfl | rfl | rfl
    · exact ⟨(-1, 0), by decide, by ext <;> dsimp only <;> omega⟩
    · exact ⟨(0, -1), by decide, by ext <;> dsimp only <;> omega⟩
    · exact ⟨(-1, -1), by decide, by ext <;> dsimp only <;> omega⟩
  · refine h4.mirror 7 (fun p => (W - 1 - p.1, p.2)) (fun i => by simp only [scanK, lamScan]; ext <;> dsimp only; omega) (fun p => by ext <;> simp)
      (hb _ fun p => by dsimp only; omega) ?_
    rintro q p ⟨o, ho, rfl⟩
    simp only [lamOffs, List.mem_cons, List.not_mem_nil, or_false] at ho
    rcases ho with rfl | rfl | rfl
    · exact ⟨(-1, 0), by decide, by ext <;> dsimp only <;> omega⟩
    · exact ⟨(0, -1), by decide, by ext <;> dsimp only <;> omega⟩
    · exact ⟨(-1, -1), by decide, by ext <;> dsimp only <;> omega⟩

/-! ### The loop -/

/-- The points of the set. -/
def binSet (W H : Nat) (bin : Int × Int → Bool) (p : Int × Int) : Prop := inWH W H p = true ∧ bin p = true

/-- `lam k p` is the length of the longest chain that ends at `p`. -/
def LamOK (W H : Nat) (bin : Int × Int → Bool) (lam : Lam) (k : Nat) (p : Int × Int) : Prop :=
  ∀ n, n < lam k p ↔ Reach (LamRel k) (binSet W H bin) n p

theorem lamLoop_inv (W H : Nat) (bin : Int × Int → Bool) : ∀ n ≤ W * H, ∃ lam : Lam,
    (List.range n).foldlM (fun st i => (lamDirs W H bin st.2 i st.1).map fun lam => (lam, st.2.next W H)) ((fun _ _ => 0 : Lam), (⟨0, 0, 0, 0⟩ : DiagCur)) =
      some (lam, diagAt W H n) ∧
    (∀ k < 8, ∀ j < n, LamOK W H bin lam k (scanK W H k j)) ∧ ∀ k < 8, ∀ p, (∀ j < n, scanK W H k j ≠ p) → lam k p = 0 := by
  intro n
  induction n with
  | zero => exact fun _ => ⟨fun _ _ => 0, rfl, by omega, fun _ _ _ _ => rfl⟩
  | succ n ih =>
    intro hn
    obtain ⟨lam, he, h1, h2⟩ := ih (by omega)
    have hd := lamDirs_eq W H bin (diagAt W H n) n lam fun k hk => (goodScan W H k hk).inside n (by omega)
    set lam' : Lam := fun k p => if k < 8 ∧ p = lamScan W H (diagAt W H n) n k ∧ bin p = true then computeLambda W H lam k p else lam k p with hlam
    have hnew : ∀ k < 8, LamOK W H bin lam' k (scanK W H k n) := by
      intro k hk m
      have hin := (goodScan W H k hk).inside n (by omega)
      by_cases hb : bin (scanK W H k n) = true
      · have e : lam' k (scanK W H k n) = computeLambda W H lam k (scanK W H k n) := if_pos ⟨hk, rfl, hb⟩
        rw [e, computeLambda_spec]
        cases m with
        | zero => exact ⟨fun _ => ⟨hin, hb⟩, fun _ => .inl rfl⟩
        | succ m =>
          simp only [Nat.add_eq_zero_iff, Nat.one_ne_zero, and_false, false_or, Nat.add_sub_cancel]
          constructor
          · rintro ⟨q, hq, hqi, hl⟩
            obtain ⟨j, hj, rfl⟩ := (goodScan W H k hk).before n (by omega) q hq hqi
            exact ⟨⟨hin, hb⟩, _, hq, (h1 k hk j hj m).mp hl⟩
          · rintro ⟨_, q, hq, hr⟩
            obtain ⟨j, hj, rfl⟩ := (goodScan W H k hk).before n (by omega) q hq hr.mem.1
            exact ⟨_, hq, hr.mem.1, (h1 k hk j hj m).mpr hr⟩
      · have e : lam' k (scanK W H k n) = lam k (scanK W H k n) := if_neg fun h => hb h.2.2
        rw [e]
        by_cases hv : ∃ j < n, scanK W H k j = scanK W H k n
        · obtain ⟨j, hj, hv⟩ := hv
          rw [← hv]
          exact h1 k hk j hj m
        · rw [h2 k hk _ fun j hj h => hv ⟨j, hj, h⟩]
          exact ⟨fun h => absurd h (Nat.not_lt_zero _), fun h => absurd h.mem.2 hb⟩
    refine ⟨lam', ?_, ?_, ?_⟩
    · rw [List.range_succ, List.foldlM_append, he]
      simp only [Option.bind_eq_bind, Option.bind_some, List.foldlM_cons, List.foldlM_nil]
      rw [hd, Option.map_some, Option.bind_some, diagAt_succ]
      rfl
    · intro k hk j hj
      by_cases hs : scanK W H k j = scanK W H k n
      · rw [hs]
        exact hnew k hk
      · intro m
        have e : lam' k (scanK W H k j) = lam k (scanK W H k j) := if_neg fun h => hs h.2.1
        rw [e]
        exact h1 k hk j (by
          rcases Nat.lt_succ_iff_lt_or_eq.mp hj with h | h
          · exact h
          · exact absurd (by rw [h]) hs) m
    · intro k hk p hp
      have e : lam' k p = lam k p := if_neg fun h => hp n (by omega) h.2.1.symm
      rw [e]
      exact h2 k hk p fun j hj => hp j (by omega)

theorem lamLoop_spec (W H : Nat) (bin : Int × Int → Bool) :
    ∃ lam c, lamLoop W H bin = some (lam, c) ∧ ∀ k < 8, ∀ p, inWH W H p = true → LamOK W H bin lam k p := by
  obtain ⟨lam, he, h1, _⟩ := lamLoop_inv W H bin (W * H) le_rfl
  refine ⟨lam, _, he, fun k hk p hp => ?_⟩
  obtain ⟨j, hj, rfl⟩ := (goodScan W H k hk).all p hp
  exact h1 k hk j hj

/-- Two opposite directions together. -/
theorem pair_spec {W H : Nat} {bin : Int × Int → Bool} {lam : Lam} {p : Int × Int} (k k' : Nat) (o : Fin 4)
    (h : LamOK W H bin lam k p) (h' : LamOK W H bin lam k' p) (hr : ∀ q p, LamRel k q p ↔ PathStep o q p) (hr' : ∀ q p, LamRel k' q p ↔ PathStep o p q)
    (n : Nat) : n < lam k p + lam k' p ↔ ∃ l, IsPathIn (PathStep o) (binSet W H bin) l ∧ p ∈ l ∧ n ≤ l.length := by
  have e1 : LamRel k = PathStep o := by funext q p; exact propext (hr q p)
  have e2 : LamRel k' = fun q p => PathStep o p q := by funext q p; exact propext (hr' q p)
  unfold LamOK at h h'
  rw [e1] at h
  rw [e2] at h'
  constructor
  · intro hn
    have hS : binSet W H bin p := by
      by_cases h0 : 0 < lam k p
      · exact (h 0).mp h0
      · exact (h' 0).mp (by omega)
    have p1 : 0 < lam k p := (h 0).mpr hS
    have p2 : 0 < lam k' p := (h' 0).mpr hS
    obtain ⟨l, a, b, c⟩ := (path_through (PathStep o) (binSet W H bin) p (lam k p - 1 + (lam k' p - 1))).mpr
      ⟨lam k p - 1, lam k' p - 1, rfl, (h _).mp (by omega), (h' _).mp (by omega)⟩
    exact ⟨l, a, b, by omega⟩
  · rintro ⟨l, a, b, c⟩
    have hl : l.length ≠ 0 := fun h0 => by
      rw [List.length_eq_zero_iff.mp h0] at b
      cases b
    obtain ⟨x, y, hxy, hx, hy⟩ := (path_through (PathStep o) (binSet W H bin) p (l.length - 1)).mp ⟨l, a, b, by omega⟩
    have := (h x).mpr hx
    have := (h' y).mpr hy
    omega

/-- What `ComputeBinaryPathOpening` counts. -/
theorem binaryPaths_spec (W H : Nat) (bin : Int × Int → Bool) (hs : W * H * 8 < 2 ^ 31) :
    ∃ f, binaryPaths W H bin = some f ∧ ∀ p, inWH W H p = true → ∀ n, n < f p ↔ OnLongPath (binSet W H bin) p n := by
  obtain ⟨lam, c, he, h⟩ := lamLoop_spec W H bin
  refine ⟨_, by unfold binaryPaths; rw [if_pos hs, he, Option.map_some], fun p hp n => ?_⟩
  have h0 := pair_spec 0 1 0 (h 0 (by omega) p hp) (h 1 (by omega) p hp) (fun q p => (lamRel_step q p).1) (fun q p => (lamRel_step q p).2.1) n
  have h1 := pair_spec 2 3 1 (h 2 (by omega) p hp) (h 3 (by omega) p hp) (fun q p => (lamRel_step q p).2.2.1) (fun q p => (lamRel_step q p).2.2.2.1) n
  have h2 := pair_spec 4 5 2 (h 4 (by omega) p hp) (h 5 (by omega) p hp) (fun q p => (lamRel_step q p).2.2.2.2.1) (fun q p => (lamRel_step q p).2.2.2.2.2.1) n
  have h3 := pair_spec 6 7 3 (h 6 (by omega) p hp) (h 7 (by omega) p hp) (fun q p => (lamRel_step q p).2.2.2.2.2.2.1) (fun q p => (lamRel_step q p).2.2.2.2.2.2.2) n
  dsimp only
  rw [lt_max_iff, lt_max_iff, lt_max_iff, h0, h1, h2, h3]
  unfold OnLongPath
  constructor
  · rintro (h | h | h | h)
    exacts [⟨0, h⟩, ⟨1, h⟩, ⟨2, h⟩, ⟨3, h⟩]
  · rintro ⟨o, h⟩
    fin_cases o
    exacts [.inl h, .inr (.inl h), .inr (.inr (.inl h)), .inr (.inr (.inr h))]

end Smil
