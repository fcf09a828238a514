import Verif.KernelHex
import Verif.MorphoLemmas

/-! # The kernels as dilations -/

namespace Smil
variable {α : Type}

/-- `out` collects at each pixel `p` the least upper bound of the pixels `q` of `im` with `N q p`. -/
def IsDilBy [Preorder α] (N : IntPoint → IntPoint → Prop) (im out : Img α) : Prop :=
  out.dims = im.dims ∧ ∀ p, Img.In im.dims p →
    ∃ v, out.at? p = some v ∧ IsLUB { u | ∃ q, N q p ∧ im.at? q = some u } v

/-- The element as a relation between pixels. -/
def seRel (se : StrElt) (q p : IntPoint) : Prop :=
  ∃ b ∈ se.points, phys se.odd q + phys se.odd b = phys se.odd p

theorem isDil_iff [Preorder α] (se : StrElt) (im out : Img α) :
    IsDil se im out ↔ IsDilBy (seRel se) im out := by
  unfold IsDil IsDilBy dilSet seRel
  have : ∀ p, { u | ∃ q, ∃ b ∈ se.points, phys se.odd q + phys se.odd b = phys se.odd p ∧
      im.at? q = some u } = { u | ∃ q, (∃ b ∈ se.points, phys se.odd q + phys se.odd b =
      phys se.odd p) ∧ im.at? q = some u } := by
    intro p; ext u
    constructor
    · rintro ⟨q, b, hb, h, hu⟩; exact ⟨q, ⟨b, hb, h⟩, hu⟩
    · rintro ⟨q, ⟨b, hb, h⟩, hu⟩; exact ⟨q, b, hb, h, hu⟩
  simp only [this]

theorem IsDilBy.congr [Preorder α] {N N' : IntPoint → IntPoint → Prop} {im out : Img α}
    (h : ∀ q p, Img.In im.dims q → Img.In im.dims p → (N q p ↔ N' q p)) (hd : IsDilBy N im out) :
    IsDilBy N' im out := by
  refine ⟨hd.1, fun p hp => ?_⟩
  obtain ⟨v, h1, h2⟩ := hd.2 p hp
  refine ⟨v, h1, ?_⟩
  convert h2 using 1
  ext u
  constructor
  · rintro ⟨q, a, b⟩; exact ⟨q, (h q p (Img.at?_eq_some_in _ _ _ b) hp).mpr a, b⟩
  · rintro ⟨q, a, b⟩; exact ⟨q, (h q p (Img.at?_eq_some_in _ _ _ b) hp).mp a, b⟩

/-- Composition, as far as the intermediate pixel stays in the image. -/
theorem IsDilBy.comp [Preorder α] {N1 N2 : IntPoint → IntPoint → Prop} {im mid out : Img α}
    (h1 : IsDilBy N1 im mid) (h2 : IsDilBy N2 mid out) :
    IsDilBy (fun q p => ∃ r, Img.In im.dims r ∧ N1 q r ∧ N2 r p) im out := by
  refine ⟨h2.1.trans h1.1, fun p hp => ?_⟩
  obtain ⟨v, hv, hl⟩ := h2.2 p (h1.1 ▸ hp)
  refine ⟨v, hv, ?_, ?_⟩
  · rintro u ⟨q, ⟨r, hr, a, b⟩, hu⟩
    obtain ⟨vr, hvr, hlr⟩ := h1.2 r hr
    exact (hlr.1 ⟨q, a, hu⟩).trans (hl.1 ⟨r, b, hvr⟩)
  · intro w hw
    refine hl.2 ?_
    rintro ur ⟨r, b, hur⟩
    have hr : Img.In im.dims r := h1.1 ▸ Img.at?_eq_some_in _ _ _ hur
    obtain ⟨vr, hvr, hlr⟩ := h1.2 r hr
    rw [hvr] at hur
    cases hur
    refine hlr.2 ?_
    rintro u ⟨q, a, hu⟩
    exact hw ⟨q, ⟨r, hr, a, b⟩, hu⟩

/-- Dilations by the same relation agree. -/
theorem IsDilBy.unique [PartialOrder α] {N : IntPoint → IntPoint → Prop} {im im' a b : Img α}
    (hs : Img.Same im im') (ha : IsDilBy N im a) (hb : IsDilBy N im' b) : Img.Same a b := by
  refine ⟨ha.1.trans (hs.1.trans hb.1.symm), fun p => ?_⟩
  by_cases hp : Img.In im.dims p
  · obtain ⟨v, h1, h2⟩ := ha.2 p hp
    obtain ⟨v', h1', h2'⟩ := hb.2 p (hs.1 ▸ hp)
    simp only [← hs.2] at h2'
    rw [h1, h1', h2.unique h2']
  · rw [Img.at?_none _ _ (ha.1 ▸ hp), Img.at?_none _ _ (by rw [hb.1, ← hs.1]; exact hp)]

theorem IsDilBy.of_same [Preorder α] {N : IntPoint → IntPoint → Prop} {im im' a a' : Img α}
    (hs : Img.Same im im') (hs' : Img.Same a a') (h : IsDilBy N im a) : IsDilBy N im' a' := by
  refine ⟨hs'.1.symm.trans (h.1.trans hs.1), fun p hp => ?_⟩
  obtain ⟨v, h1, h2⟩ := h.2 p (hs.1 ▸ hp)
  refine ⟨v, by rw [← hs'.2, h1], ?_⟩
  simpa only [hs.2] using h2

/-! ### Images in the kernel memory -/

theorem kStore_at (D : Dims) (k : Nat) (m : KMem α) (x y z : Nat) (hx : x < D.w) (hy : y < D.h)
    (hz : z < D.d) : (kStore D k m).at? (Img.pt x y z) = some (m (.img k z y, x)) := by
  unfold kStore
  rw [Img.ofFn_at? _ _ _ ((Img.in_pt _ _ _ _).mpr ⟨hx, hy, hz⟩)]
  simp [Img.pt]

theorem in_pt_exists (D : Dims) (p : IntPoint) (hp : Img.In D p) :
    ∃ x y z : Nat, p = Img.pt x y z ∧ x < D.w ∧ y < D.h ∧ z < D.d := by
  obtain ⟨px, py, pz⟩ := p
  unfold Img.In at hp
  simp only at hp
  refine ⟨px.toNat, py.toNat, pz.toNat, ?_, by omega, by omega, by omega⟩
  simp only [Img.pt, IntPoint.mk.injEq]; omega

/-- How to prove that a kernel is a dilation. -/
theorem kStore_isDilBy [LinearOrder α] (N : IntPoint → IntPoint → Prop) (D : Dims) (ks kd : Nat)
    (m m' : KMem α)
    (h : ∀ x y z, x < D.w → y < D.h → z < D.d → ∀ u, m' (.img kd z y, x) ≤ u ↔
      ∀ x' y' z', x' < D.w → y' < D.h → z' < D.d → N (Img.pt x' y' z') (Img.pt x y z) →
        m (.img ks z' y', x') ≤ u) :
    IsDilBy N (kStore D ks m) (kStore D kd m') := by
  refine ⟨rfl, fun p hp => ?_⟩
  obtain ⟨x, y, z, rfl, hx, hy, hz⟩ := in_pt_exists _ _ hp
  have hx' : x < D.w := hx
  have hy' : y < D.h := hy
  have hz' : z < D.d := hz
  refine ⟨_, kStore_at D kd m' x y z hx' hy' hz', ?_⟩
  rw [isLUB_iff_le_iff]
  intro u
  rw [h x y z hx' hy' hz']
  constructor
  · rintro hh s ⟨q, hN, hq⟩
    obtain ⟨x', y', z', rfl, a, b, c⟩ := in_pt_exists _ _ (Img.at?_eq_some_in _ _ _ hq)
    rw [kStore_at D ks m x' y' z' a b c] at hq
    cases hq
    exact hh x' y' z' a b c hN
  · intro hh x' y' z' a b c hN
    exact hh ⟨_, hN, kStore_at D ks m x' y' z' a b c⟩

/-- All slices in turn. -/
theorem slices_spec (f : α → α → α) (border : α) (w h ks kd : Nat) (P : Nat → Prop)
    (sl : Nat → List Phase) (F : (Nat → Nat → α) → Nat → Nat → α)
    (hsl : ∀ z (m m' : KMem α) (S : Nat → Nat → α), KRun f border w (sl z) m m' →
      (∀ y x, y < h → x < w → m (.img ks z y, x) = S y x) → (∀ x, x < w → m (.border, x) = border) →
      (P z → ∀ y x, y < h → x < w → m' (.img kd z y, x) = F S y x) ∧
      ∀ id x, (∀ t b, id ≠ .buf t b) → (∀ y, id ≠ .img kd z y) → m' (id, x) = m (id, x))
    (d : Nat) (m m' : KMem α) (hrun : KRun f border w ((List.range d).flatMap sl) m m')
    (hB : ∀ x, x < w → m (.border, x) = border) :
    (∀ z y x, P z → z < d → y < h → x < w → m' (.img kd z y, x) =
      F (fun y x => m (.img ks z y, x)) y x) ∧
    ∀ id x, (∀ t b, id ≠ .buf t b) → (∀ z y, z < d → id ≠ .img kd z y) → m' (id, x) = m (id, x) := by
  induction d generalizing m' with
  | zero => cases hrun; exact ⟨fun z y x _ h => by omega, fun _ _ _ _ => rfl⟩
  | succ d ih =>
    rw [List.range_succ, List.flatMap_append, KRun.append] at hrun
    obtain ⟨m1, r1, r2⟩ := hrun
    rw [List.flatMap_singleton] at r2
    obtain ⟨i1, i2⟩ := ih m1 r1
    obtain ⟨s1, s2⟩ := hsl d m1 m' (fun y x => m (.img ks d y, x)) r2
      (fun y x _ _ => i2 _ _ (by simp) (by simp; omega))
      (fun x hx => by rw [i2 _ _ (by simp) (by simp), hB x hx])
    constructor
    · intro z y x hP hz hy hx
      by_cases hzd : z = d
      · subst hzd; exact s1 hP y x hy hx
      · rw [s2 _ _ (by simp) (by simp; omega), i1 z y x hP (by omega) hy hx]
    · intro id x h1 h2
      rw [s2 id x h1 (fun y => h2 d y (by omega)), i2 id x h1 (fun z y hz => h2 z y (by omega))]

/-! ### Neighbourhoods -/

/-- Vertical neighbours. -/
def nVert (q p : IntPoint) : Prop :=
  q.x = p.x ∧ q.z = p.z ∧ p.y - 1 ≤ q.y ∧ q.y ≤ p.y + 1
/-- Horizontal neighbours. -/
def nHoriz (q p : IntPoint) : Prop :=
  q.y = p.y ∧ q.z = p.z ∧ p.x - 1 ≤ q.x ∧ q.x ≤ p.x + 1
/-- Neighbours in depth. -/
def nDepth (q p : IntPoint) : Prop :=
  q.x = p.x ∧ q.y = p.y ∧ p.z - 1 ≤ q.z ∧ q.z ≤ p.z + 1
/-- 4-neighbours. -/
def nCross (q p : IntPoint) : Prop := nVert q p ∨ nHoriz q p
/-- 8-neighbours. -/
def nSqu (q p : IntPoint) : Prop :=
  q.z = p.z ∧ p.x - 1 ≤ q.x ∧ q.x ≤ p.x + 1 ∧ p.y - 1 ≤ q.y ∧ q.y ≤ p.y + 1
/-- 26-neighbours. -/
def nCube (q p : IntPoint) : Prop :=
  p.z - 1 ≤ q.z ∧ q.z ≤ p.z + 1 ∧ p.x - 1 ≤ q.x ∧ q.x ≤ p.x + 1 ∧ p.y - 1 ≤ q.y ∧ q.y ≤ p.y + 1
/-- 6-neighbours of the hexagonal grid (even slices). -/
def nHex (q p : IntPoint) : Prop :=
  q.z = p.z ∧ ((q.y = p.y ∧ p.x - 1 ≤ q.x ∧ q.x ≤ p.x + 1) ∨
    ((q.y = p.y - 1 ∨ q.y = p.y + 1) ∧
      ((p.y % 2 = 0 ∧ (q.x = p.x ∨ q.x = p.x - 1)) ∨ (p.y % 2 = 1 ∧ (q.x = p.x ∨ q.x = p.x + 1)))))

section
variable [LinearOrder α] [OrderBot α]

instance : Std.Associative (max : α → α → α) := ⟨max_assoc⟩
instance : Std.Commutative (max : α → α → α) := ⟨max_comm⟩
instance : Std.IdempotentOp (max : α → α → α) := ⟨max_self⟩

theorem bot_max (v : α) : max ⊥ v = v := max_eq_right bot_le

theorem shv_le (w : Nat) (dx : Int) (L : Nat → α) (x : Nat) (u : α) :
    shv ⊥ w dx L x ≤ u ↔ ∀ x', x' < w → (x' : Int) = x - dx → L x' ≤ u := by
  unfold shv
  split
  · rename_i h
    constructor
    · intro hh x' hx' e
      have : x' = ((x : Int) - dx).toNat := by omega
      rw [this]; exact hh
    · intro hh; exact hh _ (by omega) (by omega)
  · rename_i h
    exact ⟨fun _ x' hx' e => absurd ⟨by omega, by omega⟩ h, fun _ => bot_le⟩

theorem vertVal_le (h : Nat) (S : Nat → Nat → α) (y x : Nat) (hy : y < h) (u : α) :
    vertVal max ⊥ h S y x ≤ u ↔
      ∀ y', y' < h → (y : Int) - 1 ≤ y' → (y' : Int) ≤ y + 1 → S y' x ≤ u := by
  unfold vertVal lineUp lineDn
  simp only [max_le_iff]
  constructor
  · rintro ⟨⟨h1, h2⟩, _, h3⟩ y' hy' a b
    have : y' + 1 = y ∨ y' = y ∨ y' = y + 1 := by omega
    rcases this with e | e | e
    · rw [if_neg (by omega)] at h1
      have : y' = y - 1 := by omega
      rw [this]; exact h1
    · rw [e]; exact h2
    · rw [if_neg (by omega)] at h3; rw [e]; exact h3
  · intro hh
    have h0 := hh y hy (by omega) (by omega)
    refine ⟨⟨?_, h0⟩, h0, ?_⟩
    · split
      · exact bot_le
      · exact hh _ (by omega) (by omega) (by omega)
    · split
      · exact bot_le
      · exact hh _ (by omega) (by omega) (by omega)

theorem twoVal_le (w : Nat) (L : Nat → α) (x : Nat) (hx : x < w) (u : α) :
    twoVal max ⊥ w L x ≤ u ↔ ∀ x', x' < w → (x : Int) - 1 ≤ x' → (x' : Int) ≤ x + 1 → L x' ≤ u := by
  unfold twoVal
  simp only [max_le_iff, shv_le]
  constructor
  · rintro ⟨⟨h1, h2⟩, h3⟩ x' hx' a b
    have : (x' : Int) = x - 1 ∨ x' = x ∨ (x' : Int) = x - -1 := by omega
    rcases this with e | e | e
    · exact h2 x' hx' e
    · rw [e]; exact h1
    · exact h3 x' hx' e
  · intro hh
    exact ⟨⟨hh x hx (by omega) (by omega), fun x' hx' e => hh x' hx' (by omega) (by omega)⟩,
      fun x' hx' e => hh x' hx' (by omega) (by omega)⟩

theorem depthVal_le (d : Nat) (S : Nat → α) (z : Nat) (hz : z < d) (u : α) :
    depthVal max ⊥ d S z ≤ u ↔
      ∀ z', z' < d → (z : Int) - 1 ≤ z' → (z' : Int) ≤ z + 1 → S z' ≤ u := by
  unfold depthVal
  simp only [max_le_iff]
  constructor
  · rintro ⟨⟨h2, h1⟩, h3⟩ z' hz' a b
    have : z' + 1 = z ∨ z' = z ∨ z' = z + 1 := by omega
    rcases this with e | e | e
    · rw [if_neg (by omega)] at h1
      have : z' = z - 1 := by omega
      rw [this]; exact h1
    · rw [e]; exact h2
    · rw [if_neg (by omega), max_le_iff] at h3; rw [e]; exact h3.1
  · intro hh
    have h0 := hh z hz (by omega) (by omega)
    refine ⟨⟨h0, ?_⟩, ?_⟩
    · split
      · exact bot_le
      · exact hh _ (by omega) (by omega) (by omega)
    · split
      · exact bot_le
      · exact max_le (hh _ (by omega) (by omega) (by omega)) h0

theorem crossVal_le (w h : Nat) (S : Nat → Nat → α) (y x : Nat) (hy : y < h) (hx : x < w) (u : α) :
    crossVal max ⊥ w h S y x ≤ u ↔
      (∀ y', y' < h → (y : Int) - 1 ≤ y' → (y' : Int) ≤ y + 1 → S y' x ≤ u) ∧
      ∀ x', x' < w → (x : Int) - 1 ≤ x' → (x' : Int) ≤ x + 1 → S y x' ≤ u := by
  rw [← vertVal_le h S y x hy u, ← twoVal_le w (S y) x hx u]
  unfold crossVal vertVal
  simp only [max_le_iff]
  constructor
  · rintro ⟨h1, h2, h3⟩
    have : S y x ≤ u := by
      unfold twoVal at h1; simp only [max_le_iff] at h1; exact h1.1.1
    exact ⟨⟨⟨h2, this⟩, this, h3⟩, h1⟩
  · rintro ⟨⟨⟨h2, _⟩, _, h3⟩, h1⟩
    exact ⟨h1, h2, h3⟩

theorem stepV_le (w : Nat) (dx : Int) (L : Nat → α) (x : Nat) (hx : x < w) (u : α) :
    stepV max ⊥ w dx L x ≤ u ↔
      ∀ x', x' < w → ((x' : Int) = x ∨ (x' : Int) = x - dx) → L x' ≤ u := by
  unfold stepV
  simp only [max_le_iff, shv_le]
  constructor
  · rintro ⟨h1, h2⟩ x' hx' (e | e)
    · have : x' = x := by omega
      rw [this]; exact h1
    · exact h2 x' hx' e
  · intro hh
    exact ⟨hh x hx (Or.inl rfl), fun x' hx' e => hh x' hx' (Or.inr e)⟩

theorem hexDx0 (l : Nat) : hexDx l 0 = if l % 2 = 0 then -1 else 1 := by
  unfold hexDx; simp

theorem stepV2_le (w : Nat) (y : Nat) (L : Nat → α) (x : Nat) (hx : x < w) (u : α) :
    stepV max ⊥ w (hexDx (y + 1) 0) (stepV max ⊥ w (hexDx y 0) L) x ≤ u ↔
      ∀ x', x' < w → (x : Int) - 1 ≤ x' → (x' : Int) ≤ x + 1 → L x' ≤ u := by
  rw [stepV_le w _ _ x hx u]
  rw [hexDx0, hexDx0]
  constructor
  · intro hh x' hx' a b
    by_cases hp : y % 2 = 0
    · rw [if_neg (by omega), if_pos hp] at hh
      by_cases e : (x' : Int) = x - 1
      · exact (stepV_le w _ L x' hx' u).mp (hh x' hx' (Or.inr e)) x' hx' (Or.inl rfl)
      · exact (stepV_le w _ L x hx u).mp (hh x hx (Or.inl rfl)) x' hx' (by omega)
    · rw [if_pos (by omega), if_neg hp] at hh
      by_cases e : (x' : Int) = x + 1
      · exact (stepV_le w _ L x' hx' u).mp (hh x' hx' (Or.inr (by omega))) x' hx' (Or.inl rfl)
      · exact (stepV_le w _ L x hx u).mp (hh x hx (Or.inl rfl)) x' hx' (by omega)
  · intro hh x' hx' a
    rw [stepV_le w _ L x' hx' u]
    intro x'' hx'' b
    apply hh x'' hx'' <;> split_ifs at a b <;> omega

/-! ### The kernels -/

variable (D : Dims) (ks kd : Nat) (m m' : KMem α)

theorem vertKernel_dil (nt : Nat) (hh : 2 ≤ D.h)
    (hrun : KRun max ⊥ D.w (vertKernel ks kd D (kThreads nt D.h)) m m')
    (hB : ∀ x, x < D.w → m (.border, x) = ⊥) :
    IsDilBy nVert (kStore D ks m) (kStore D kd m') ∧
    ∀ id x, (∀ t b, id ≠ .buf t b) → (∀ z y, z < D.d → id ≠ .img kd z y) → m' (id, x) = m (id, x) := by
  obtain ⟨h1, h2⟩ := slices_spec max ⊥ D.w D.h ks kd (fun _ => True)
    (fun z => vertSlice ks kd D.h (kThreads nt D.h) z) (fun S => vertVal max ⊥ D.h S)
    (fun z m m' S hr hS hB => by
      obtain ⟨a, b⟩ := vertSlice_spec max ⊥ D.w ks kd z D.h _ (blocks nt D.h hh) S m m' hr hS hB
      exact ⟨fun _ => a, b⟩) D.d m m' hrun hB
  refine ⟨kStore_isDilBy _ D ks kd m m' ?_, h2⟩
  intro x y z hx hy hz u
  rw [h1 z y x trivial hz hy hx, vertVal_le _ _ _ _ hy]
  constructor
  · intro hh x' y' z' hx' hy' hz' hN
    simp only [nVert, Img.pt] at hN
    obtain ⟨a, b, c, d⟩ := hN
    have e1 : x' = x := by omega
    have e2 : z' = z := by omega
    subst e1; subst e2
    exact hh y' hy' c d
  · intro hh y' hy' a b
    exact hh x y' z hx hy' hz ⟨rfl, rfl, a, b⟩

theorem crossKernel_dil (nt : Nat) (hw : 1 ≤ D.w) (hh : 2 ≤ D.h)
    (hrun : KRun max ⊥ D.w (crossKernel ks kd D (kThreads nt D.h)) m m')
    (hB : ∀ x, x < D.w → m (.border, x) = ⊥) :
    IsDilBy nCross (kStore D ks m) (kStore D kd m') ∧
    ∀ id x, (∀ t b, id ≠ .buf t b) → (∀ z y, z < D.d → id ≠ .img kd z y) → m' (id, x) = m (id, x) := by
  obtain ⟨h1, h2⟩ := slices_spec max ⊥ D.w D.h ks kd (fun _ => True)
    (fun z => crossSlice ks kd D.h (kThreads nt D.h) z) (fun S => crossVal max ⊥ D.w D.h S)
    (fun z m m' S hr hS hB => by
      obtain ⟨a, b⟩ := crossSlice_spec max ⊥ D.w hw ks kd z D.h _ (blocks nt D.h hh) S m m' hr hS hB
      exact ⟨fun _ => a, b⟩) D.d m m' hrun hB
  refine ⟨kStore_isDilBy _ D ks kd m m' ?_, h2⟩
  intro x y z hx hy hz u
  rw [h1 z y x trivial hz hy hx, crossVal_le _ _ _ _ _ hy hx]
  constructor
  · rintro ⟨hv, hh⟩ x' y' z' hx' hy' hz' hN
    simp only [nCross, nVert, nHoriz, Img.pt] at hN
    rcases hN with ⟨a, b, c, d⟩ | ⟨a, b, c, d⟩
    · have e1 : x' = x := by omega
      have e2 : z' = z := by omega
      subst e1; subst e2
      exact hv y' hy' c d
    · have e1 : y' = y := by omega
      have e2 : z' = z := by omega
      subst e1; subst e2
      exact hh x' hx' c d
  · intro hh
    exact ⟨fun y' hy' a b => hh x y' z hx hy' hz (Or.inl ⟨rfl, rfl, a, b⟩),
      fun x' hx' a b => hh x' y z hx' hy hz (Or.inr ⟨rfl, rfl, a, b⟩)⟩

theorem horizKernel_dil (own : Nat → Nat) (hw : 1 ≤ D.w)
    (hrun : KRun max ⊥ D.w (horizKernel ks kd D own) m m') :
    IsDilBy nHoriz (kStore D ks m) (kStore D kd m') ∧
    ∀ id x, (∀ t b, id ≠ .buf t b) → (∀ z y, z < D.d → id ≠ .img kd z y) → m' (id, x) = m (id, x) := by
  obtain ⟨h1, h2⟩ := horizKernel_spec max ⊥ ks kd D hw own m m' hrun
  refine ⟨kStore_isDilBy _ D ks kd m m' ?_, h2⟩
  intro x y z hx hy hz u
  rw [h1 z y x hz hy hx, twoVal_le _ _ _ hx]
  constructor
  · intro hh x' y' z' hx' hy' hz' hN
    simp only [nHoriz, Img.pt] at hN
    obtain ⟨a, b, c, d⟩ := hN
    have e1 : y' = y := by omega
    have e2 : z' = z := by omega
    subst e1; subst e2
    exact hh x' hx' c d
  · intro hh x' hx' a b
    exact hh x' y z hx' hy hz ⟨rfl, rfl, a, b⟩

theorem depthKernel_dil (own : Nat → Nat) (hd : 1 ≤ D.d)
    (hrun : KRun max ⊥ D.w (depthKernel ks kd D own) m m')
    (hB : ∀ x, x < D.w → m (.border, x) = ⊥) :
    IsDilBy nDepth (kStore D ks m) (kStore D kd m') ∧
    ∀ id x, (∀ t b, id ≠ .buf t b) → (∀ z y, z < D.d → id ≠ .img kd z y) → m' (id, x) = m (id, x) := by
  obtain ⟨h1, h2⟩ := depthKernel_spec max ⊥ ks kd D hd bot_max own m m' hrun hB
  refine ⟨kStore_isDilBy _ D ks kd m m' ?_, h2⟩
  intro x y z hx hy hz u
  rw [h1 z y x hz hy hx, depthVal_le _ _ _ hz]
  constructor
  · intro hh x' y' z' hx' hy' hz' hN
    simp only [nDepth, Img.pt] at hN
    obtain ⟨a, b, c, d⟩ := hN
    have e1 : y' = y := by omega
    have e2 : x' = x := by omega
    subst e1; subst e2
    exact hh z' hz' c d
  · intro hh z' hz' a b
    exact hh x y z' hx hy hz' ⟨rfl, rfl, a, b⟩

theorem hexKernel_dil (hw : 1 ≤ D.w) (hh : 2 ≤ D.h) (hd : D.d ≤ 1)
    (hrun : KRun max ⊥ D.w (hexKernel ks kd D) m m')
    (hB : ∀ x, x < D.w → m (.border, x) = ⊥) :
    IsDilBy nHex (kStore D ks m) (kStore D kd m') ∧
    ∀ id x, (∀ t b, id ≠ .buf t b) → (∀ z y, z < D.d → id ≠ .img kd z y) → m' (id, x) = m (id, x) := by
  have hk : hexKernel ks kd D = (List.range D.d).flatMap fun s =>
      [fun t => if t = 0 then hexSlice ks kd D.h s else []] := by
    unfold hexKernel; rw [List.map_eq_flatMap]
  rw [hk] at hrun
  obtain ⟨h1, h2⟩ := slices_spec max ⊥ D.w D.h ks kd (fun z => z % 2 = 0) _
    (fun S => hexVal max ⊥ D.w D.h S)
    (fun z m m' S hr hS hB => by
      obtain ⟨m1, hr, rfl⟩ := hr
      have hln := hexSlice_lines D.w hw ks kd D.h z hh
      have hfree : LineFree (fun t => if t = 0 then hexSlice ks kd D.h z else []) := by
        intro t u htu op hop op' hop'
        simp only at hop hop'
        split at hop <;> [skip; simp at hop]
        split at hop' <;> [skip; simp at hop']
        omega
      have hok : PhaseOK D.w (fun t => if t = 0 then hexSlice ks kd D.h z else []) := by
        intro t op hop
        simp only at hop
        split at hop <;> [exact (hln op hop).2; simp at hop]
      constructor
      · intro hz y x hy hx
        have := PhaseRun.spec max ⊥ D.w _ m m1 hr hfree hok 0 (.img kd z y)
          (by intro u hu op hop; rw [if_neg hu] at hop; simp at hop) x
        rw [if_pos rfl] at this
        rw [this]
        exact hexSlice_spec max ⊥ bot_max D.w hw ks kd D.h z hh hz S m hS hB y x hy hx
      · intro id x a b
        refine PhaseRun.frame max ⊥ D.w _ m m1 hr hfree hok id ?_ x
        intro u op hop
        split at hop <;> [skip; simp at hop]
        rcases (hln op hop).1 with ⟨c, e⟩ | ⟨j, _, _, e⟩ <;> rw [e]
        · exact (a _ _).symm
        · exact (b _).symm) D.d m m' hrun hB
  refine ⟨kStore_isDilBy _ D ks kd m m' ?_, h2⟩
  intro x y z hx hy hz u
  rw [h1 z y x (by omega) hz hy hx]
  unfold hexVal
  simp only [max_le_iff]
  rw [stepV2_le _ _ _ _ hx]
  constructor
  · rintro ⟨hm, hup, hdn⟩ x' y' z' hx' hy' hz' hN
    simp only [nHex, Img.pt] at hN
    obtain ⟨e, hN⟩ := hN
    have e2 : z' = z := by omega
    subst e2
    rcases hN with ⟨a, b, c⟩ | ⟨a, b⟩
    · have e1 : y' = y := by omega
      subst e1
      exact hm x' hx' b c
    · rcases a with a | a
      · rw [if_neg (by omega), stepV_le _ _ _ _ hx, hexDx0] at hup
        have e1 : y' = y - 1 := by omega
        rw [e1]
        refine hup x' hx' ?_
        split_ifs <;> omega
      · rw [if_neg (by omega), stepV_le _ _ _ _ hx, hexDx0] at hdn
        have e1 : y' = y + 1 := by omega
        rw [e1]
        refine hdn x' hx' ?_
        split_ifs <;> omega
  · intro hh
    refine ⟨fun x' hx' a b => hh x' y z hx' hy hz ⟨rfl, Or.inl ⟨rfl, a, b⟩⟩, ?_, ?_⟩
    · split
      · exact bot_le
      · rw [stepV_le _ _ _ _ hx, hexDx0]
        intro x' hx' a
        refine hh x' (y - 1) z hx' (by omega) hz ⟨rfl, Or.inr ⟨Or.inl ?_, ?_⟩⟩
        · simp only [Img.pt]; omega
        · simp only [Img.pt]; split_ifs at a <;> omega
    · split
      · exact bot_le
      · rw [stepV_le _ _ _ _ hx, hexDx0]
        intro x' hx' a
        refine hh x' (y + 1) z hx' (by omega) hz ⟨rfl, Or.inr ⟨Or.inr ?_, ?_⟩⟩
        · simp only [Img.pt]; omega
        · simp only [Img.pt]; split_ifs at a <;> omega

/-- The square kernel: DMorphImageOperations.hxx:620-627. -/
theorem squKernel_dil (nt : Nat) (own : Nat → Nat) (hw : 1 ≤ D.w) (hh : 2 ≤ D.h)
    (hrun : KRun max ⊥ D.w (squKernel ks kd D (kThreads nt D.h) own) m m')
    (hB : ∀ x, x < D.w → m (.border, x) = ⊥) :
    IsDilBy nSqu (kStore D ks m) (kStore D kd m') ∧
    ∀ id x, (∀ t b, id ≠ .buf t b) → (∀ z y, z < D.d → id ≠ .img kd z y) → m' (id, x) = m (id, x) := by
  unfold squKernel at hrun
  rw [KRun.append] at hrun
  obtain ⟨m1, r1, r2⟩ := hrun
  obtain ⟨a1, b1⟩ := vertKernel_dil D ks kd m m1 nt hh r1 hB
  obtain ⟨a2, b2⟩ := horizKernel_dil D kd kd m1 m' own hw r2
  refine ⟨?_, fun id x h h' => by rw [b2 id x h h', b1 id x h h']⟩
  refine (a1.comp a2).congr ?_
  intro q p hq hp
  unfold Img.In at hq hp
  constructor
  · rintro ⟨r, hr, ⟨h1, h2, h3, h4⟩, ⟨h5, h6, h7, h8⟩⟩
    refine ⟨by omega, by omega, by omega, by omega, by omega⟩
  · rintro ⟨h1, h2, h3, h4, h5⟩
    refine ⟨⟨q.x, p.y, p.z⟩, ?_, ⟨rfl, h1, h4, h5⟩, ⟨rfl, rfl, h2, h3⟩⟩
    unfold Img.In; simp only; omega

/-- The cube kernel: DMorphImageOperations.hxx:629-637. -/
theorem cubeKernel_dil (nt : Nat) (own own' : Nat → Nat) (hw : 1 ≤ D.w) (hh : 2 ≤ D.h) (hd : 1 ≤ D.d)
    (hrun : KRun max ⊥ D.w (cubeKernel ks kd D (kThreads nt D.h) own own') m m')
    (hB : ∀ x, x < D.w → m (.border, x) = ⊥) :
    IsDilBy nCube (kStore D ks m) (kStore D kd m') ∧
    ∀ id x, (∀ t b, id ≠ .buf t b) → (∀ z y, z < D.d → id ≠ .img kd z y) → m' (id, x) = m (id, x) := by
  unfold cubeKernel at hrun
  rw [KRun.append] at hrun
  obtain ⟨m1, r1, r2⟩ := hrun
  obtain ⟨a1, b1⟩ := squKernel_dil D ks kd m m1 nt own hw hh r1 hB
  obtain ⟨a2, b2⟩ := depthKernel_dil D kd kd m1 m' own' hd r2
    (fun x hx => by rw [b1 _ _ (by simp) (by simp), hB x hx])
  refine ⟨?_, fun id x h h' => by rw [b2 id x h h', b1 id x h h']⟩
  refine (a1.comp a2).congr ?_
  intro q p hq hp
  unfold Img.In at hq hp
  constructor
  · rintro ⟨r, hr, ⟨h1, h2, h3, h4, h9⟩, ⟨h5, h6, h7, h8⟩⟩
    refine ⟨by omega, by omega, by omega, by omega, by omega, by omega⟩
  · rintro ⟨h1, h2, h3, h4, h5, h6⟩
    refine ⟨⟨p.x, p.y, q.z⟩, ?_, ⟨rfl, h3, h4, h5, h6⟩, ⟨rfl, rfl, h1, h2⟩⟩
    unfold Img.In; simp only; omega

end
end Smil
