import Verif.ZoneMatrix
import Verif.GeoMeasPts
import Mathlib.Tactic.Ring
import Mathlib.Tactic.Linarith
import Mathlib.Tactic.NormNum

/-!
# Lemmas on the zones and on the matrix
-/

namespace Smil
open Relation

/-- Invariant of the loop over the pixels, those from `m` on having been seen; `L` are the components found. -/
structure ZmRun (C : GmCfg) (S : Nat → Prop) (m : Nat) (dm : Nat → ℚ) (L : List (List Nat)) : Prop where
  bg : ∀ j, ¬ S j → dm j ≠ -1
  todo : ∀ j, S j → (∀ k, m ≤ k → ¬ ReflTransGen (C.R S) j k) → dm j = -1
  done : ∀ j, S j → ∀ k, m ≤ k → ReflTransGen (C.R S) j k → dm j ≠ -1 ∧ ∃ sv ∈ L, j ∈ sv
  comp : ∀ sv ∈ L, sv.Nodup ∧ ∃ i, S i ∧ m ≤ i ∧ ∀ k, k ∈ sv ↔ ReflTransGen (C.R S) i k
  disj : L.Pairwise fun a b => ∀ x ∈ a, x ∉ b

section
variable {C : GmCfg} (hC : GmOk C) {S : Nat → Prop} (hS : ∀ i, S i → i < C.n)
include hC hS

theorem zmPixel_spec {m : Nat} {dm : Nat → ℚ} {L : List (List Nat)} (h : ZmRun C S (m + 1) dm L) :
    ∃ dm' L', zmPixel C (dm, L.map List.length) m = some (dm', L'.map List.length) ∧ ZmRun C S m dm' L' := by
  have hsymm : ∀ {a b}, ReflTransGen (C.R S) a b → ReflTransGen (C.R S) b a := fun h => reach_symm hC hS h
  unfold zmPixel
  by_cases hm : dm m = -1
  · simp only [hm, if_true]
    have hmS : S m := by
      by_contra hn
      exact h.bg m hn hm
    have hmt : ∀ k, m + 1 ≤ k → ¬ ReflTransGen (C.R S) m k := fun k hk hmk => (h.done m hmS k hk hmk).1 hm
    have hd1 : ∀ j, ReflTransGen (C.R S) m j → dm j = -1 := fun j hj =>
      h.todo j (reach_mem hmS hj) fun k hk hjk => hmt k hk (hj.trans hjk)
    have hd2 : ∀ j, j < C.n → dm j = -1 → S j := by
      intro j _ hj
      by_contra hn
      exact h.bg j hn hj
    obtain ⟨dm1, sv, e1, hnd, hsv, hdm1⟩ := gmFlood_spec hC hS hmS hd1 hd2
    refine ⟨dm1, L ++ [sv], by rw [e1]; simp, fun j hj => ?_, fun j hj hk => ?_, fun j hj k hk hjk => ?_, fun s hs => ?_, ?_⟩
    · rw [hdm1]
      split
      · norm_num
      · exact h.bg j hj
    · have hjn : ¬ ReflTransGen (C.R S) m j := fun hr' => hk m (le_refl _) (hsymm hr')
      rw [hdm1, if_neg fun hv => hjn ((hsv j).mp hv)]
      exact h.todo j hj fun k hk' => hk k (by omega)
    · by_cases hjm : ReflTransGen (C.R S) m j
      · refine ⟨?_, sv, by simp, (hsv j).mpr hjm⟩
        rw [hdm1, if_pos ((hsv j).mpr hjm)]
        norm_num
      · have hk' : m + 1 ≤ k := by
          rcases Nat.lt_or_ge k (m + 1) with hlt | hge
          · exfalso
            have : k = m := by omega
            rw [this] at hjk
            exact hjm (hsymm hjk)
          · exact hge
        obtain ⟨h1, s, h2, h3⟩ := h.done j hj k hk' hjk
        refine ⟨?_, s, by simp [h2], h3⟩
        rw [hdm1, if_neg fun hv => hjm ((hsv j).mp hv)]
        exact h1
    · rcases List.mem_append.mp hs with hs | hs
      · obtain ⟨h1, i, h2, h3, h4⟩ := h.comp s hs
        exact ⟨h1, i, h2, by omega, h4⟩
      · rw [List.mem_singleton] at hs
        subst hs
        exact ⟨hnd, m, hmS, le_refl _, hsv⟩
    · rw [List.pairwise_append]
      refine ⟨h.disj, by simp, fun a ha b hb x hx => ?_⟩
      rw [List.mem_singleton] at hb
      subst hb
      intro hxs
      obtain ⟨-, i, h2, h3, h4⟩ := h.comp a ha
      exact hmt i h3 (((hsv x).mp hxs).trans (hsymm ((h4 x).mp hx)))
  · simp only [hm, if_false]
    refine ⟨dm, L, rfl, h.bg, fun j hj hk => h.todo j hj fun k hk' => hk k (by omega), fun j hj k hk hjk => ?_, fun s hs => ?_, h.disj⟩
    · by_cases hkm : k = m
      · subst hkm
        have hkS := reach_mem hj hjk
        by_cases hex : ∃ k', k + 1 ≤ k' ∧ ReflTransGen (C.R S) k k'
        · obtain ⟨k', h1, h2⟩ := hex
          exact h.done j hj k' h1 (hjk.trans h2)
        · exact absurd (h.todo k hkS fun k' h1 h2 => hex ⟨k', h1, h2⟩) hm
      · exact h.done j hj k (by omega) hjk
    · obtain ⟨h1, i, h2, h3, h4⟩ := h.comp s hs
      exact ⟨h1, i, h2, by omega, h4⟩

theorem zmPixels_spec : ∀ (m : Nat) (dm : Nat → ℚ) (L : List (List Nat)), ZmRun C S m dm L →
    ∃ dm' L', (List.range m).reverse.foldlM (zmPixel C) (dm, L.map List.length) = some (dm', L'.map List.length) ∧ ZmRun C S 0 dm' L'
  | 0, dm, L, h => ⟨dm, L, rfl, h⟩
  | m + 1, dm, L, h => by
    obtain ⟨dm1, L1, e, h'⟩ := zmPixel_spec hC hS h
    obtain ⟨dm2, L2, e', h''⟩ := zmPixels_spec m dm1 L1 h'
    refine ⟨dm2, L2, ?_, h''⟩
    rw [List.range_succ, List.reverse_append, List.reverse_singleton, List.singleton_append, List.foldlM_cons, e]
    exact e'

end

/-- The components of `P` as lists of points. -/
structure IsComps (N : IntPoint → IntPoint → Prop) (P : IntPoint → Prop) (L : List (List IntPoint)) : Prop where
  comp : ∀ pts ∈ L, pts.Nodup ∧ ∃ p, P p ∧ ∀ q, q ∈ pts ↔ SetPath N P p q
  all : ∀ p, P p → ∃ pts ∈ L, p ∈ pts
  disj : L.Pairwise fun a b => ∀ x ∈ a, x ∉ b

theorem zmBinary_spec (D : Dims) (hd : D.d = 1) (S : Nat → Bool) (P : IntPoint → Prop)
    (hl : GmLink D (fun _ => 0) (fun i => i < D.count ∧ S i = true) P Touch26) :
    ∃ L, zmBinary D.w D.h S = some (L.map List.length) ∧ IsComps Touch26 P L := by
  have hn : D.w * D.h * 1 = D.count := by rw [← count_whd, hd]
  have hC : GmOk ⟨D.w * D.h * 1, gmNbs D.w D.h 1 1 1 1, fun _ => 0⟩ := by
    have := gmOk D (fun _ => 0) 1 1 1
    unfold gmC at this
    rwa [hd] at this
  have hn' : (GmCfg.mk (D.w * D.h * 1) (gmNbs D.w D.h 1 1 1 1) fun _ => 0).n = D.count := hn
  obtain ⟨dm, L, e, h⟩ := zmPixels_spec (S := fun i => i < D.count ∧ S i = true) hC (fun i hi => by rw [hn']; exact hi.1) (D.w * D.h * 1)
    (fun i => if i < D.w * D.h * 1 ∧ S i = true then -1 else 0) [] ⟨fun j hj => by
      rw [hn, if_neg hj]; norm_num, fun j hj _ => by rw [hn, if_pos hj], fun j hj k hk hjk => by
        have := (reach_mem (S := fun i => i < D.count ∧ S i = true) hj hjk).1
        omega, by simp, by simp⟩
  have hR : ∀ p q, P p → Img.In D q →
      (ReflTransGen (GmCfg.R ⟨D.w * D.h * 1, gmNbs D.w D.h 1 1 1 1, fun _ => 0⟩ fun i => i < D.count ∧ S i = true) (offOf D p) (offOf D q) ↔
        SetPath Touch26 P p q) := by
    intro p q hp hq
    have := reach_iff (sx := 1) (sy := 1) (sz := 1) hl hp hq
    unfold gmC at this
    rwa [hd] at this
  refine ⟨L.map fun sv => sv.map (coordPt D), ?_, fun pts hpts => ?_, fun p hp => ?_, ?_⟩
  · unfold zmBinary
    rw [show ([] : List Nat) = ([] : List (List Nat)).map List.length from rfl, e]
    simp [Function.comp_def]
  · obtain ⟨sv, hsv, rfl⟩ := List.mem_map.mp hpts
    obtain ⟨h1, i, h2, -, h3⟩ := h.comp sv hsv
    have hlt : ∀ k ∈ sv, k < D.count := fun k hk => (reach_mem (S := fun i => i < D.count ∧ S i = true) h2 ((h3 k).mp hk)).1
    obtain ⟨c1, c2⟩ := coordPt_in h2.1
    have hP : P (coordPt D i) := (hl.iff _ c1).mp (by rw [c2]; exact h2)
    refine ⟨?_, coordPt D i, hP, fun q => ?_⟩
    · refine List.Nodup.map_on (fun a ha b hb hab => ?_) h1
      rw [← (coordPt_in (hlt a ha)).2, hab, (coordPt_in (hlt b hb)).2]
    · rw [List.mem_map]
      constructor
      · rintro ⟨k, hk, rfl⟩
        obtain ⟨k1, k2⟩ := coordPt_in (hlt k hk)
        rw [← hR _ _ hP k1, c2, k2]
        exact (h3 k).mp hk
      · intro hq
        have hqi : Img.In D q := hl.inn q hq.ends.2
        refine ⟨offOf D q, (h3 _).mpr ?_, coordPt_offOf hqi⟩
        have := (hR _ _ hP hqi).mpr hq
        rwa [c2] at this
  · have hpi := hl.inn p hp
    obtain ⟨-, sv, h1, h2⟩ := h.done (offOf D p) ((hl.iff p hpi).mpr hp) (offOf D p) (Nat.zero_le _) .refl
    exact ⟨_, List.mem_map.mpr ⟨sv, h1, rfl⟩, List.mem_map.mpr ⟨_, h2, coordPt_offOf hpi⟩⟩
  · rw [List.pairwise_map]
    refine List.Pairwise.imp_of_mem (fun {a b} ha hb hab x hx hx' => ?_) h.disj
    obtain ⟨i, hi, rfl⟩ := List.mem_map.mp hx
    obtain ⟨j, hj, e⟩ := List.mem_map.mp hx'
    have hlt : ∀ sv ∈ L, ∀ k ∈ sv, k < D.count := by
      intro sv hsv k hk
      obtain ⟨h1, i, h2, -, h3⟩ := h.comp sv hsv
      exact (reach_mem (S := fun i => i < D.count ∧ S i = true) h2 ((h3 k).mp hk)).1
    have : j = i := by
      rw [← (coordPt_in (hlt b hb j hj)).2, e, (coordPt_in (hlt a ha i hi)).2]
    subst this
    exact hab j hi hj

/-! ### The matrix -/

theorem zmAcc_fold (len : Nat) : ∀ (l : List Nat) (m : Nat → Nat), (∀ i ∈ l, i < len) →
    l.foldlM (zmAcc len) m = some fun i => m i + l.count i
  | [], m, _ => by simp
  | a :: l, m, h => by
    rw [List.foldlM_cons, zmAcc, if_pos (h a (by simp))]
    simp only [Option.bind_eq_bind, Option.bind_some]
    rw [zmAcc_fold len l _ fun i hi => h i (by simp [hi])]
    congr 1
    funext i
    by_cases hi : i = a
    · subst hi; simp; omega
    · rw [Function.update_of_ne hi, List.count_cons_of_ne (Ne.symm hi)]

theorem zmAcc_none (len : Nat) : ∀ (l : List Nat) (m : Nat → Nat), (∃ i ∈ l, len ≤ i) → l.foldlM (zmAcc len) m = none
  | [], m, h => by simp at h
  | a :: l, m, h => by
    rw [List.foldlM_cons, zmAcc]
    by_cases ha : a < len
    · rw [if_pos ha]
      simp only [Option.bind_eq_bind, Option.bind_some]
      obtain ⟨i, hi, hl⟩ := h
      rcases List.mem_cons.mp hi with rfl | hi
      · omega
      · exact zmAcc_none len l _ ⟨i, hi, hl⟩
    · rw [if_neg ha]; rfl

theorem sum_single_range (W : Nat) (c : Nat) (hc : c < W) (f : Nat → ℚ) :
    ((List.range W).map fun s => if s = c then f s else 0).sum = f c := by
  induction W with
  | zero => omega
  | succ W ih =>
    rw [List.range_succ, List.map_append, List.sum_append]
    by_cases h : c < W
    · rw [ih h]
      have : W ≠ c := by omega
      simp [this]
    · have : c = W := by omega
      subst this
      have h0 : ((List.range c).map fun s => if s = c then f s else 0).sum = 0 := by
        apply List.sum_eq_zero
        intro x hx
        obtain ⟨s, hs, rfl⟩ := List.mem_map.mp hx
        rw [if_neg]
        have := List.mem_range.mp hs
        omega
      rw [h0]
      simp

theorem sum_zero_range (W : Nat) : ((List.range W).map fun _ => (0 : ℚ)).sum = 0 := by simp

theorem sum_add_range (W : Nat) (f g : Nat → ℚ) :
    ((List.range W).map fun s => f s + g s).sum = ((List.range W).map f).sum + ((List.range W).map g).sum := by
  induction W with
  | zero => simp
  | succ W ih =>
    rw [List.range_succ, List.map_append, List.map_append, List.map_append, List.sum_append, List.sum_append, List.sum_append, ih]
    simp
    ring

theorem cell_iff {W n s i : Nat} (hs : s < W) : s + n * W = i ↔ n = i / W ∧ s = i % W := by
  constructor
  · rintro rfl
    constructor
    · rw [Nat.add_mul_div_right _ _ (by omega), Nat.div_eq_of_lt hs, Nat.zero_add]
    · rw [Nat.add_mul_mod_self_right, Nat.mod_eq_of_lt hs]
  · rintro ⟨rfl, rfl⟩
    have := Nat.mod_add_div i W
    rw [Nat.mul_comm] at this
    exact this

/-- The cell of the matrix to which an index belongs counts once. -/
theorem zmSum_cells (W N : Nat) (w : Nat → Nat → ℚ) : ∀ l : List Nat, (∀ i ∈ l, i < W * N) →
    zmSum W N (fun n s => ((l.count (s + n * W) : Nat) : ℚ) * w n s) = (l.map fun i => w (i / W) (i % W)).sum
  | [], _ => by simp [zmSum]
  | a :: l, h => by
    have hW : 0 < W := by
      have := h a (by simp)
      rcases Nat.eq_zero_or_pos W with e | e
      · rw [e] at this; simp at this
      · exact e
    rw [List.map_cons, List.sum_cons, ← zmSum_cells W N w l fun i hi => h i (by simp [hi])]
    have hn : a / W < N := by
      rw [Nat.div_lt_iff_lt_mul hW, Nat.mul_comm]
      exact h a (by simp)
    have hs : a % W < W := Nat.mod_lt _ hW
    have key : ∀ n, ((List.range W).map fun s => (((a :: l).count (s + n * W) : Nat) : ℚ) * w n s).sum =
        (if n = a / W then w n (a % W) else 0) + ((List.range W).map fun s => ((l.count (s + n * W) : Nat) : ℚ) * w n s).sum := by
      intro n
      have e1 : ((List.range W).map fun s => (((a :: l).count (s + n * W) : Nat) : ℚ) * w n s) =
          (List.range W).map fun s => (if s = a % W then (if n = a / W then w n s else 0) else 0) + ((l.count (s + n * W) : Nat) : ℚ) * w n s := by
        apply List.map_congr_left
        intro s hs
        have hs' := List.mem_range.mp hs
        rw [List.count_cons]
        have hi := cell_iff (W := W) (n := n) (s := s) (i := a) hs'
        by_cases hc : s + n * W = a
        · obtain ⟨k1, k2⟩ := hi.mp hc
          have : (a == s + n * W) = true := by simp [hc]
          rw [if_pos this, if_pos k2, if_pos k1]
          push_cast
          ring
        · have : ¬ (a == s + n * W) = true := by simp; exact fun e => hc e.symm
          rw [if_neg this]
          by_cases k2 : s = a % W
          · have k1 : n ≠ a / W := fun k1 => hc (hi.mpr ⟨k1, k2⟩)
            rw [if_pos k2, if_neg k1]
            push_cast
            ring
          · rw [if_neg k2]
            push_cast
            ring
      rw [e1, sum_add_range, sum_single_range W (a % W) hs]
    unfold zmSum
    simp only [key]
    rw [sum_add_range, sum_single_range N (a / W) hn]

theorem zmSum_congr {W N : Nat} {f g : Nat → Nat → ℚ} (h : ∀ n s, f n s = g n s) : zmSum W N f = zmSum W N g := by
  have : f = g := funext fun n => funext fun s => h n s
  rw [this]

/-- The sum of a row is the number of indices in the row. -/
theorem row_sum (W : Nat) (hW : 0 < W) (l : List Nat) (n : Nat) :
    ((List.range W).map fun s => ((l.count (s + n * W) : Nat) : ℚ)).sum = (l.countP fun i => decide (i / W = n) : Nat) := by
  induction l with
  | nil => simp
  | cons a l ih =>
    have e1 : ((List.range W).map fun s => (((a :: l).count (s + n * W) : Nat) : ℚ)) =
        (List.range W).map fun s => (if s = a % W then (if a / W = n then 1 else 0) else 0) + ((l.count (s + n * W) : Nat) : ℚ) := by
      apply List.map_congr_left
      intro s hs
      have hi := cell_iff (W := W) (n := n) (s := s) (i := a) (List.mem_range.mp hs)
      rw [List.count_cons]
      by_cases hc : s + n * W = a
      · obtain ⟨k1, k2⟩ := hi.mp hc
        rw [if_pos (by simp [hc]), if_pos k2, if_pos k1.symm]
        push_cast
        ring
      · rw [if_neg (by simp; exact fun e => hc e.symm)]
        by_cases k2 : s = a % W
        · rw [if_pos k2, if_neg fun k1 => hc (hi.mpr ⟨k1.symm, k2⟩)]
          push_cast
          ring
        · rw [if_neg k2]
          push_cast
          ring
    rw [e1, sum_add_range, sum_single_range W (a % W) (Nat.mod_lt _ hW) (fun _ => if a / W = n then 1 else 0), ih, List.countP_cons]
    by_cases hn : a / W = n
    · simp [hn]; ring
    · simp [hn]

/-- The sum of a column is the number of indices in the column. -/
theorem col_sum (W N : Nat) (l : List Nat) (hl : ∀ i ∈ l, i < W * N) (s : Nat) (hs : s < W) :
    ((List.range N).map fun n => ((l.count (s + n * W) : Nat) : ℚ)).sum = (l.countP fun i => decide (i % W = s) : Nat) := by
  induction l with
  | nil => simp
  | cons a l ih =>
    have hn : a / W < N := by
      rw [Nat.div_lt_iff_lt_mul (by omega), Nat.mul_comm]
      exact hl a (by simp)
    have e1 : ((List.range N).map fun n => (((a :: l).count (s + n * W) : Nat) : ℚ)) =
        (List.range N).map fun n => (if n = a / W then (if a % W = s then 1 else 0) else 0) + ((l.count (s + n * W) : Nat) : ℚ) := by
      apply List.map_congr_left
      intro n _
      have hi := cell_iff (W := W) (n := n) (s := s) (i := a) hs
      rw [List.count_cons]
      by_cases hc : s + n * W = a
      · obtain ⟨k1, k2⟩ := hi.mp hc
        rw [if_pos (by simp [hc]), if_pos k1, if_pos k2.symm]
        push_cast
        ring
      · rw [if_neg (by simp; exact fun e => hc e.symm)]
        by_cases k1 : n = a / W
        · rw [if_pos k1, if_neg fun k2 => hc (hi.mpr ⟨k1, k2.symm⟩)]
          push_cast
          ring
        · rw [if_neg k1]
          push_cast
          ring
    rw [e1, sum_add_range, sum_single_range N (a / W) hn (fun _ => if a % W = s then 1 else 0), ih fun i hi => hl i (by simp [hi]), List.countP_cons]
    by_cases hn : a % W = s
    · simp [hn]; ring
    · simp [hn]

end Smil
