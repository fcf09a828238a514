import Verif.CovarianceLemmas
import Verif.PropsBuild
import Mathlib.Tactic.NormNum

/-!
# Covariance (C85)
-/

namespace Smil
section
variable {t : PT}

/-- The value of a pixel. -/
def pixAt (im : Img (Px t)) (p : IntPoint) : ℚ := (im.at? p).elim 0 fun a => (a.val : ℚ)

/-- The mean of the products of the pixels of the pairs. -/
def pairMean (im1 im2 : Img (Px t)) (h : IntPoint) (pts : List IntPoint) : ℚ :=
  (pts.map fun p => pixAt im1 p * pixAt im2 ⟨p.x + h.x, p.y + h.y, p.z + h.z⟩).sum / pts.length

/-- The number of steps that can be made in the image: one less than the smallest of the sizes that the direction uses. -/
def IsReach (D : Dims) (dx dy dz H : Nat) : Prop :=
  (dx ≠ 0 → H + 1 ≤ D.w) ∧ (dy ≠ 0 → H + 1 ≤ D.h) ∧ (dz ≠ 0 → H + 1 ≤ D.d) ∧
    ((dx ≠ 0 ∧ H + 1 = D.w) ∨ (dy ≠ 0 ∧ H + 1 = D.h) ∨ (dz ≠ 0 ∧ H + 1 = D.d))

theorem covMaxH_of_reach {D : Dims} {dx dy dz H : Nat} (h : IsReach D dx dy dz H) : covMaxH D dx dy dz = H := by
  obtain ⟨h1, h2, h3, h4⟩ := h
  unfold covMaxH
  simp only
  by_cases a : dx = 0 <;> by_cases b : dy = 0 <;> by_cases c : dz = 0 <;> simp only [a, b, c, Nat.pos_iff_ne_zero, ne_eq, not_true_eq_false,
    not_false_eq_true, if_true, if_false, forall_const, true_and, false_and, false_or, or_false, IsEmpty.forall_iff] at h1 h2 h3 h4 ⊢ <;> omega

/-- Products evaluated without overflow. -/
def ProdsFit (im1 im2 : Img (Px t)) : Prop :=
  ∀ p q a b, im1.at? p = some a → im2.at? q = some b → t.promoted.lo ≤ a.val * b.val ∧ a.val * b.val ≤ t.promoted.hi

theorem mulPx_fit {a b : Px t} (h1 : t.promoted.lo ≤ a.val * b.val) (h2 : a.val * b.val ≤ t.promoted.hi) :
    mulPx a b = some ((a.val : ℚ) * (b.val : ℚ)) := by
  have e : t.cpp (a.val * b.val) = some (a.val * b.val) := by
    unfold PT.cpp
    split
    · rw [if_pos ⟨h1, h2⟩]
    · rw [t.promoted.wrap_of_mem h1 h2]
  unfold mulPx
  rw [e]
  simp

/-- For 8 bit pixels all products fit. -/
theorem prodsFit_small (im1 im2 : Img (Px t)) (hb : t.bits ≤ 8) : ProdsFit im1 im2 := by
  intro p q a b _ _
  have hp : t.promoted = INT32 := by unfold PT.promoted; rw [if_pos (by omega)]
  have hlo : -255 ≤ t.lo ∧ t.hi ≤ 255 := by
    unfold PT.lo PT.hi
    have e1 : 2 ^ (t.bits - 1) ≤ 2 ^ 7 := Nat.pow_le_pow_right (by decide) (by omega)
    have e2 : 2 ^ t.bits ≤ 2 ^ 8 := Nat.pow_le_pow_right (by decide) hb
    split <;> omega
  have ha := a.lo_le; have ha' := a.le_hi; have hb1 := b.lo_le; have hb2 := b.le_hi
  rw [hp]
  have e3 : INT32.lo = -2147483648 := by decide
  have e4 : INT32.hi = 2147483647 := by decide
  rw [e3, e4]
  have ea : |a.val| ≤ 255 := abs_le.mpr ⟨by omega, by omega⟩
  have eb : |b.val| ≤ 255 := abs_le.mpr ⟨by omega, by omega⟩
  have : |a.val * b.val| ≤ 255 * 255 := by
    rw [abs_mul]; exact mul_le_mul ea eb (abs_nonneg _) (by norm_num)
  have := abs_le.mp this
  omega

/-- **C85**, covariance without centring: as many entries as steps requested, or as fit in the image, plus one; entry `len` is the mean of the products of
all pairs of pixels at the displacement `len · (dx, dy, dz)`, as long as this displacement leads from a pixel to a pixel. Missing for the full
claim: the entries beyond (see `C85_clamp_bug`). -/
theorem C85_covariance_partial (im1 im2 : Img (Px t)) (hd : im1.dims = im2.dims) (hc : im1.dims.count ≠ 0) (dx dy dz maxSteps H n : Nat)
    (hH : IsReach im1.dims dx dy dz H) (hn : n = if maxSteps = 0 then H else min maxSteps H) (hn0 : n ≠ 0) (hfit : ProdsFit im1 im2) :
    ∃ vec : List ℚ, measCovariance im1 im2 dx dy dz maxSteps false false = some (vec.map some) ∧ vec.length = n + 1 ∧
      ∀ len ≤ n, dx * len < im1.dims.w → dy * len < im1.dims.h → dz * len < im1.dims.d →
        ∀ pts : List IntPoint, IsPairs im1.dims ⟨(dx * len : Nat), (dy * len : Nat), (dz * len : Nat)⟩ pts → pts ≠ [] ∧
          vec[len]? = some (pairMean im1 im2 ⟨(dx * len : Nat), (dy * len : Nat), (dz * len : Nat)⟩ pts) := by
  have hdir : 0 < dx + dy + dz := by
    obtain ⟨-, -, -, h | h | h⟩ := hH <;> omega
  have e := covMaxH_of_reach hH
  have hmul : ∀ p q a b, im1.at? p = some a → im2.at? q = some b → mulPx a b = some ((a.val : ℚ) * (b.val : ℚ)) :=
    fun p q a b h1 h2 => mulPx_fit (hfit p q a b h1 h2).1 (hfit p q a b h1 h2).2
  obtain ⟨vec, h1, h2, h3, -⟩ := genericCovariance_eq mulPx (fun a : Px t => (a.val : ℚ)) im1 im2 hd hc dx dy dz maxSteps hdir
    (by rw [e]; unfold covSteps; rw [← hn]; exact hn0) hmul
  rw [e, show covSteps H maxSteps = n from hn.symm] at h1 h2
  refine ⟨vec, ?_, h1, ?_⟩
  · unfold measCovariance; rw [if_neg (by decide)]; exact h3
  · intro len hl hx hy hz pts hp
    obtain ⟨v, hv, hv'⟩ := h2 len hl
    obtain ⟨k1, k2⟩ := covAt_eq mulPx (fun a : Px t => (a.val : ℚ)) im1 im2 hd dx dy dz len hx hy hz hmul pts hp
    refine ⟨k1, ?_⟩
    rw [hv', ← hv, k2]
    rfl

/-- **C85**, a direction with steps of at most one pixel: every entry is the mean over the pairs. -/
theorem C85_unit_direction (im1 im2 : Img (Px t)) (hd : im1.dims = im2.dims) (hc : im1.dims.count ≠ 0) (dx dy dz maxSteps H n : Nat)
    (hx : dx ≤ 1) (hy : dy ≤ 1) (hz : dz ≤ 1)
    (hH : IsReach im1.dims dx dy dz H) (hn : n = if maxSteps = 0 then H else min maxSteps H) (hn0 : n ≠ 0) (hfit : ProdsFit im1 im2) :
    ∃ vec : List ℚ, measCovariance im1 im2 dx dy dz maxSteps false false = some (vec.map some) ∧ vec.length = n + 1 ∧
      ∀ len ≤ n, ∀ pts : List IntPoint, IsPairs im1.dims ⟨(dx * len : Nat), (dy * len : Nat), (dz * len : Nat)⟩ pts → pts ≠ [] ∧
          vec[len]? = some (pairMean im1 im2 ⟨(dx * len : Nat), (dy * len : Nat), (dz * len : Nat)⟩ pts) := by
  obtain ⟨vec, h1, h2, h3⟩ := C85_covariance_partial im1 im2 hd hc dx dy dz maxSteps H n hH hn hn0 hfit
  refine ⟨vec, h1, h2, fun len hl => ?_⟩
  have hw : 0 < im1.dims.w ∧ 0 < im1.dims.h ∧ 0 < im1.dims.d := by
    unfold Dims.count at hc
    refine ⟨?_, ?_, ?_⟩ <;> (apply Nat.pos_of_ne_zero; intro h; simp [h] at hc)
  have hnH : n ≤ H := by rw [hn]; split <;> omega
  obtain ⟨r1, r2, r3, -⟩ := hH
  have key : ∀ a s : Nat, a ≤ 1 → 0 < s → (a ≠ 0 → H + 1 ≤ s) → a * len < s := by
    intro a s ha hs hr
    by_cases h : a = 0
    · subst h; omega
    · have := hr h
      have h1 : a = 1 := by omega
      subst h1; omega
  exact h3 len hl (key _ _ hx hw.1 r1) (key _ _ hy hw.2.1 r2) (key _ _ hz hw.2.2 r3)

/-- **C85**, the normalised covariance: the same vector divided by its first entry, when this is not zero. -/
theorem C85_normalized_partial (im1 im2 : Img (Px t)) (hd : im1.dims = im2.dims) (hc : im1.dims.count ≠ 0) (dx dy dz maxSteps H n : Nat)
    (hH : IsReach im1.dims dx dy dz H) (hn : n = if maxSteps = 0 then H else min maxSteps H) (hn0 : n ≠ 0) (hfit : ProdsFit im1 im2) :
    ∃ (v0 : ℚ) (vec : List ℚ), measCovariance im1 im2 dx dy dz maxSteps false false = some ((v0 :: vec).map some) ∧
      (v0 ≠ 0 → measCovariance im1 im2 dx dy dz maxSteps false true = some (some 1 :: vec.map fun v => some (v / v0))) := by
  have hdir : 0 < dx + dy + dz := by
    obtain ⟨-, -, -, h | h | h⟩ := hH <;> omega
  have e := covMaxH_of_reach hH
  have hmul : ∀ p q a b, im1.at? p = some a → im2.at? q = some b → mulPx a b = some ((a.val : ℚ) * (b.val : ℚ)) :=
    fun p q a b h1 h2 => mulPx_fit (hfit p q a b h1 h2).1 (hfit p q a b h1 h2).2
  obtain ⟨vec, h1, h2, h3, h4⟩ := genericCovariance_eq mulPx (fun a : Px t => (a.val : ℚ)) im1 im2 hd hc dx dy dz maxSteps hdir
    (by rw [e]; unfold covSteps; rw [← hn]; exact hn0) hmul
  cases vec with
  | nil => simp at h1
  | cons v0 vec =>
    refine ⟨v0, vec, ?_, ?_⟩
    · unfold measCovariance; rw [if_neg (by decide)]; exact h3
    · intro h0
      unfold measCovariance
      rw [if_neg (by decide), h4 v0 rfl]
      simp only [h0, if_false, List.map_cons, div_self h0]

/-- The sum of the squares of the pixels bounds the sum of the products. -/
theorem sum_mul_le (f g : IntPoint → ℚ) (L : List IntPoint) :
    2 * |(L.map fun p => f p * g p).sum| ≤ (L.map fun p => f p * f p).sum + (L.map fun p => g p * g p).sum := by
  induction L with
  | nil => simp
  | cons a L ih =>
    simp only [List.map_cons, List.sum_cons]
    have h1 := abs_add_le (f a * g a) (L.map fun p => f p * g p).sum
    have h2 : 2 * |f a * g a| ≤ f a * f a + g a * g a := by
      rw [abs_mul]
      have := mul_self_nonneg (|f a| - |g a|)
      have e1 := abs_mul_abs_self (f a)
      have e2 := abs_mul_abs_self (g a)
      linarith [this, e1, e2]
    linarith

theorem sum_sublist_le (f : IntPoint → ℚ) (hf : ∀ p, 0 ≤ f p) {A B : List IntPoint} (hA : A.Nodup) (h : ∀ p ∈ A, p ∈ B) :
    (A.map f).sum ≤ (B.map f).sum := by
  obtain ⟨C, hC, hCs⟩ := List.subperm_of_subset hA h
  rw [← (hC.map f).sum_eq]
  exact (hCs.map f).sum_le_sum (by intro a ha; rw [List.mem_map] at ha; obtain ⟨p, -, rfl⟩ := ha; exact hf p)

/-- **C85**, the auto-covariance: the first entry is the mean of the squares; no entry exceeds it in absolute value but for the numbers of pairs from
which the means are taken. -/
theorem C85_auto (im : Img (Px t)) (hc : im.dims.count ≠ 0) (dx dy dz maxSteps H n : Nat)
    (hH : IsReach im.dims dx dy dz H) (hn : n = if maxSteps = 0 then H else min maxSteps H) (hn0 : n ≠ 0) (hfit : ProdsFit im im)
    (all : List IntPoint) (hall : all.Nodup) (hall' : ∀ p, p ∈ all ↔ Img.In im.dims p) :
    ∃ vec : List ℚ, measAutoCovariance im dx dy dz maxSteps false false = some (vec.map some) ∧ vec.length = n + 1 ∧
      vec[0]? = some ((all.map fun p => pixAt im p ^ 2).sum / all.length) ∧
      ∀ len ≤ n, dx * len < im.dims.w → dy * len < im.dims.h → dz * len < im.dims.d →
        ∀ pts : List IntPoint, IsPairs im.dims ⟨(dx * len : Nat), (dy * len : Nat), (dz * len : Nat)⟩ pts → ∃ v v0, vec[len]? = some v ∧ vec[0]? = some v0 ∧
          |v| * pts.length ≤ v0 * all.length := by
  obtain ⟨vec, h1, h2, h3⟩ := C85_covariance_partial im im rfl hc dx dy dz maxSteps H n hH hn hn0 hfit
  have hw : 0 < im.dims.w ∧ 0 < im.dims.h ∧ 0 < im.dims.d := by
    unfold Dims.count at hc
    refine ⟨?_, ?_, ?_⟩ <;> (apply Nat.pos_of_ne_zero; intro h; simp [h] at hc)
  have hall0 : IsPairs im.dims ⟨(dx * 0 : Nat), (dy * 0 : Nat), (dz * 0 : Nat)⟩ all := by
    refine ⟨hall, fun p => ?_⟩
    rw [hall' p]
    simp [movePt]
  have hv0 : vec[0]? = some ((all.map fun p => pixAt im p ^ 2).sum / all.length) := by
    rw [(h3 0 (by omega) (by omega) (by omega) (by omega) all hall0).2]
    unfold pairMean
    congr 3
    apply List.map_congr_left
    intro p _
    simp [pow_two]
  refine ⟨vec, ?_, h2, hv0, ?_⟩
  · unfold measCovariance at h1
    unfold measAutoCovariance
    exact h1
  intro len hl hx hy hz pts hp
  obtain ⟨hne, hv⟩ := h3 len hl hx hy hz pts hp
  refine ⟨_, _, hv, hv0, ?_⟩
  have hlen : (0 : ℚ) < pts.length := by
    have := List.length_pos_iff.mpr hne
    exact_mod_cast this
  have hane : all ≠ [] := (h3 0 (by omega) (by omega) (by omega) (by omega) all hall0).1
  have hlena : (0 : ℚ) < all.length := by
    have := List.length_pos_iff.mpr hane
    exact_mod_cast this
  unfold pairMean
  rw [abs_div, abs_of_pos hlen, div_mul_cancel₀ _ (ne_of_gt hlen), div_mul_cancel₀ _ (ne_of_gt hlena)]
  set f : IntPoint → ℚ := pixAt im
  set mv : IntPoint → IntPoint := fun p => ⟨p.x + (dx * len : Nat), p.y + (dy * len : Nat), p.z + (dz * len : Nat)⟩ with hmv
  have k1 := sum_mul_le f (fun p => f (mv p)) pts
  have k2 : (pts.map fun p => f p * f p).sum ≤ (all.map fun p => f p ^ 2).sum := by
    have := sum_sublist_le (fun p => f p ^ 2) (fun p => by positivity) hp.1 (B := all) (fun p h => (hall' p).mpr ((hp.2 p).mp h).1)
    simpa [pow_two] using this
  have k3 : (pts.map fun p => f (mv p) * f (mv p)).sum ≤ (all.map fun p => f p ^ 2).sum := by
    have hnd : (pts.map mv).Nodup := by
      refine List.Nodup.map_on ?_ hp.1
      intro a _ b _ hab
      obtain ⟨ax, ay, az⟩ := a
      obtain ⟨bx, by', bz⟩ := b
      simp only [hmv, IntPoint.mk.injEq] at hab ⊢
      omega
    have := sum_sublist_le (fun p => f p ^ 2) (fun p => by positivity) hnd (B := all) (by
      intro p h
      rw [List.mem_map] at h
      obtain ⟨q, hq, rfl⟩ := h
      exact (hall' _).mpr ((hp.2 q).mp hq).2)
    rw [List.map_map] at this
    simpa [pow_two, Function.comp_def] using this
  have k4 : |(pts.map fun p => f p * f (mv p)).sum| ≤ (all.map fun p => f p ^ 2).sum := by linarith
  exact k4

/-- **C85**, refusals: images that are not allocated, of different sizes, no direction, a single pixel in a direction used. -/
theorem C85_refused (im1 im2 : Img (Px t)) (dx dy dz maxSteps : Nat) (normalize : Bool)
    (h : im1.dims.count = 0 ∨ im2.dims.count = 0 ∨ im1.dims ≠ im2.dims ∨ (dx = 0 ∧ dy = 0 ∧ dz = 0) ∨ IsReach im1.dims dx dy dz 0) :
    measCovariance im1 im2 dx dy dz maxSteps false normalize = some [] := by
  unfold measCovariance genericCovariance
  rw [if_neg (by decide)]
  split
  · rfl
  split
  · rfl
  split
  · rfl
  rename_i h1 h2 h3
  rcases h with h | h | h | h | h
  · exact absurd (Or.inl h) h1
  · exact absurd (Or.inr h) h1
  · exact absurd h h2
  · omega
  · simp only
    rw [covMaxH_of_reach h, if_pos (by split <;> simp)]

/-! ### Where the code departs from the claim -/

theorem subFloat_pos (v m : ℚ) : 0 < subFloat v m := by
  have : (0 : ℚ) < fltMin := by unfold fltMin; norm_num
  unfold subFloat
  split
  · exact this
  · linarith

/-- **C85**, centring: the saturated subtraction of `float` images cuts at the smallest positive number, so what lies below the mean counts for (almost)
nothing. No entry of the centred covariance of any two images is ever zero or negative. -/
theorem C85_centered_bug (im1 im2 : Img (Px t)) (dx dy dz maxSteps : Nat) (hc : im1.dims.count ≠ 0) (hc2 : im2.dims.count ≠ 0) :
    ∃ vec : List ℚ, measCovariance im1 im2 dx dy dz maxSteps true false = some (vec.map some) ∧ ∀ v ∈ vec, 0 < v := by
  unfold measCovariance
  rw [if_pos rfl, if_neg (by tauto)]
  by_cases hd : im1.dims = im2.dims
  swap
  · refine ⟨[], ?_, by simp⟩
    unfold genericCovariance
    rw [if_neg (by rw [not_or]; exact ⟨hc, hc2⟩), if_pos (by exact hd)]
    rfl
  by_cases hdir : 0 < dx + dy + dz
  swap
  · refine ⟨[], ?_, by simp⟩
    unfold genericCovariance
    rw [if_neg (by rw [not_or]; exact ⟨hc, hc2⟩), if_neg (fun h => h hd), if_pos hdir]
    rfl
  by_cases hs : covSteps (covMaxH im1.dims dx dy dz) maxSteps = 0
  · refine ⟨[], ?_, by simp⟩
    unfold genericCovariance
    rw [if_neg (by rw [not_or]; exact ⟨hc, hc2⟩), if_neg (fun h => h hd), if_neg (by omega)]
    simp only
    rw [if_pos]
    · rfl
    · unfold covSteps at hs
      rw [show (centreImg im1).dims = im1.dims from rfl]
      split at hs <;> simp_all
  obtain ⟨vec, h1, h2, h3, -⟩ := genericCovariance_eq mulQ id (centreImg im1) (centreImg im2) hd hc dx dy dz maxSteps hdir hs
    (fun _ _ _ _ _ _ => rfl)
  refine ⟨vec, h3, ?_⟩
  intro v hv
  obtain ⟨i, hi, rfl⟩ := List.getElem_of_mem hv
  obtain ⟨w, hw, hw'⟩ := h2 i (by omega)
  rw [List.getElem?_eq_getElem hi, Option.some.injEq] at hw'
  rw [hw']
  unfold covAt at hw
  simp only at hw
  rw [covSum_eq mulQ id (centreImg im1) (centreImg im2) hd _ _ _ (fun _ _ _ _ _ => rfl), Option.map_some, Option.some.injEq] at hw
  have hpos : 0 < im1.dims.w ∧ 0 < im1.dims.h ∧ 0 < im1.dims.d := by
    unfold Dims.count at hc
    refine ⟨?_, ?_, ?_⟩ <;> (apply Nat.pos_of_ne_zero; intro h; simp [h] at hc)
  have hD : (centreImg im1).dims = im1.dims := rfl
  generalize hmx : min (dx * i) ((centreImg im1).dims.w - 1) = mx at hw
  generalize hmy : min (dy * i) ((centreImg im1).dims.h - 1) = my at hw
  generalize hmz : min (dz * i) ((centreImg im1).dims.d - 1) = mz at hw
  rw [hD] at hw hmx hmy hmz
  have hn0 : (im1.dims.w - mx) * (im1.dims.h - my) * (im1.dims.d - mz) ≠ 0 := by
    refine Nat.mul_ne_zero (Nat.mul_ne_zero ?_ ?_) ?_ <;> omega
  rw [if_pos hn0] at hw
  rw [← hw]
  apply div_pos
  · apply List.sum_pos
    · intro x hx
      rw [List.mem_map] at hx
      obtain ⟨p, hp, rfl⟩ := hx
      obtain ⟨i1, i2⟩ := ((covPts_pairs im1.dims mx my mz).2 p).mp hp
      have q1 : 0 < ratAt id (centreImg im1) p := by
        unfold ratAt
        rw [Img.at?_some (centreImg im1) p i1]
        exact subFloat_pos _ _
      have q2 : 0 < ratAt id (centreImg im2) (movePt (Img.pt mx my mz) p) := by
        unfold ratAt
        rw [Img.at?_some (centreImg im2) _ (by rw [hd] at i2; exact i2)]
        exact subFloat_pos _ _
      exact mul_pos q1 q2
    · intro h
      rw [List.map_eq_nil_iff] at h
      have := length_covPts im1.dims mx my mz
      rw [h] at this
      exact hn0 this.symm
  · exact_mod_cast Nat.pos_of_ne_zero hn0

/-- The two pixels 0 and 2 have mean 1: the centred products at distance one have the mean `-1`, the code finds `1 / 2 ^ 126`. -/
theorem C85_centered_witness_bug :
    measAutoCovariance (im8 ⟨2, 1, 1⟩ [0, 2]) 1 0 0 0 true false = some [some ((fltMin * fltMin + (1 : ℚ) * 1) / 2), some (fltMin * 1)] ∧
    (fltMin * 1 : ℚ) ≠ ((0 : ℚ) - 1) * (2 - 1) := by
  constructor
  · decide +kernel
  · unfold fltMin; norm_num

/-- **C85**, steps of more than one pixel: the displacement is cut at the border. In a line of four pixels with steps of two, the entries for the displacements
four and six, which no pair of pixels has, are the product for the displacement three. -/
theorem C85_clamp_bug :
    measCovariance (im8 ⟨4, 1, 1⟩ [1, 2, 3, 5]) (im8 ⟨4, 1, 1⟩ [1, 2, 3, 5]) 2 0 0 0 false false =
      some [some (39 / 4), some (13 / 2), some 5, some 5] := by
  decide +kernel

/-- **C85**, 16 bit pixels: the product is an `int`, 65535 squared overflows. -/
theorem C85_overflow_bug (h : Nat) :
    (measAutoCovariance (t := UINT16) ⟨⟨2, 1, 1⟩, fun _ => UINT16.wrap 65535⟩ 1 0 0 h false false) = none ∧
    measAutoCovariance (t := UINT32) ⟨⟨2, 1, 1⟩, fun _ => UINT32.wrap 65536⟩ 1 0 0 0 false false = some [some 0, some 0] := by
  constructor
  · unfold measAutoCovariance genericCovariance
    rw [if_neg (by decide), if_neg (by decide), if_neg (by decide), if_neg (by decide)]
    simp only
    rw [show covMaxH ⟨2, 1, 1⟩ 1 0 0 = 1 by decide, if_neg (by split <;> omega)]
    rw [show min (if h = 0 then 1 else h) 1 = 1 by split <;> omega]
    decide +kernel
  · decide +kernel

/-- **C85**, normalisation of a covariance with first entry zero: no entry is a number. -/
theorem C85_zero_bug :
    measCovariance (im8 ⟨2, 1, 1⟩ [3, 0]) (im8 ⟨2, 1, 1⟩ [0, 4]) 1 0 0 0 false true = some [none, none] ∧
    measCovariance (im8 ⟨2, 1, 1⟩ [3, 0]) (im8 ⟨2, 1, 1⟩ [0, 4]) 1 0 0 0 false false = some [some 0, some 12] := by
  constructor <;> decide +kernel

/-- **C85**, centring images that are not allocated reads the first entry of an empty vector; without centring they are refused. -/
theorem C85_unallocated_bug (im1 im2 : Img (Px t)) (dx dy dz n : Nat) (nrm : Bool) (h : im1.dims.count = 0) :
    measCovariance im1 im2 dx dy dz n true nrm = none ∧ measCovariance im1 im2 dx dy dz n false nrm = some [] := by
  refine ⟨?_, C85_refused _ _ _ _ _ _ _ (Or.inl h)⟩
  unfold measCovariance
  rw [if_pos rfl, if_pos (Or.inl h)]

/-- The hypotheses of the theorems are met: a 3 x 2 image in the diagonal direction, one step. -/
example : IsReach (im8 ⟨3, 2, 1⟩ [1, 2, 3, 4, 5, 6]).dims 1 1 0 1 ∧ (1 = if 0 = 0 then 1 else min 0 1) ∧
    ProdsFit (im8 ⟨3, 2, 1⟩ [1, 2, 3, 4, 5, 6]) (im8 ⟨3, 2, 1⟩ [1, 2, 3, 4, 5, 6]) ∧
    measAutoCovariance (im8 ⟨3, 2, 1⟩ [1, 2, 3, 4, 5, 6]) 1 1 0 0 false false = some [some (91 / 6), some (17 / 2)] :=
  ⟨by unfold IsReach; decide, by decide, prodsFit_small _ _ (by decide), by decide +kernel⟩

end
end Smil
