import Verif.SkizSpec

/-! # The loop of `lblSkiz` -/

namespace Smil
variable {t : PT}

theorem lub_mem {S : Set (Px t)} {v : Px t} (h : IsLUB S v) (hv : v ≠ ⊥) : v ∈ S := by
  by_contra hn
  have h1 : t.lo < v.val := by
    have := v.lo_le
    rcases lt_or_eq_of_le this with h | h
    · exact h
    · exact absurd (Px.ext (by rw [Px.bot_val]; exact h.symm)) hv
  have h2 := v.le_hi
  have h3 := h.2 (show (⟨v.val - 1, by omega, by omega⟩ : Px t) ∈ upperBounds S from fun u hu => by
    have h4 := Px.le_iff.1 (h.1 hu)
    have h5 : u.val ≠ v.val := fun e => hn (Px.ext e ▸ hu)
    rw [Px.le_iff]
    change u.val ≤ v.val - 1
    omega)
  have h4 := Px.le_iff.1 h3
  change v.val ≤ v.val - 1 at h4
  omega

/-- What one turn of the loop does. -/
structure SkizNext (R : IntPoint → IntPoint → Prop) (m a b a' b' : Img (Px t)) : Prop where
  dims1 : a'.dims = a.dims
  dims2 : b'.dims = a.dims
  pix : ∀ p, Img.In a.dims p → ∃ u v k x y, a.at? p = some u ∧ b.at? p = some v ∧ m.at? p = some k ∧
    IsLUB { w | ∃ q, R q p ∧ a.at? q = some w } x ∧ IsLUB { w | ∃ q, R q p ∧ b.at? q = some w } y ∧
    a'.at? p = some (if k ≠ Px.zero ∧ u.val + v.val ≠ t.hi then max u x else u) ∧
    b'.at? p = some (if k ≠ Px.zero ∧ u.val + v.val ≠ t.hi then max v y else v)

theorem skiz_kernel (hs : t.signed = false) (hh : 0 < t.hi) (u v k x s : Px t) (h : kAddNoSat u v = some s) :
    kSup u (kTest (kInf k (kThresh ⊥ (t.wrap (t.hi - 1)) ⊤ ⊥ s)) x Px.zero) =
      if k ≠ Px.zero ∧ u.val + v.val ≠ t.hi then max u x else u := by
  have hlo := lo_unsigned hs
  obtain ⟨s', e, h1, h2, c, h3⟩ := C07_addNoSat (.inl hs) u v
  rw [h] at e
  cases e
  have hw : (t.wrap (t.hi - 1)).val = t.hi - 1 := PT.wrap_of_mem t (by omega) (by omega)
  have hz : (Px.zero : Px t) = ⊥ := zero_eq_bot hs
  have hu := u.lo_le; have hu' := u.le_hi
  have hv := v.lo_le; have hv' := v.le_hi
  have hs1 := s.le_hi
  unfold PT.card at h2 h3
  have hsum : (s ≥ ⊥ ∧ s ≤ t.wrap (t.hi - 1)) ↔ u.val + v.val ≠ t.hi := by
    rw [Px.le_iff, hw]
    constructor
    · rintro ⟨-, hle⟩ e
      have : c = 0 := by
        rw [hlo] at h3
        nlinarith
      subst this
      omega
    · intro hne
      refine ⟨bot_le, ?_⟩
      by_contra hgt
      have hs2 : s.val = t.hi := by omega
      apply hne
      rw [hlo] at h3
      have : c = 0 := by nlinarith
      subst this
      omega
  have hmax : ∀ a b : Px t, kSup a b = max a b := by
    intro a b
    unfold kSup
    split_ifs with hab
    · exact (max_eq_left hab.le).symm
    · exact (max_eq_right (not_lt.1 hab)).symm
  have htr : ∀ a : Px t, a.truthy = true ↔ a ≠ Px.zero := by
    intro a
    unfold Px.truthy
    rw [decide_eq_true_eq, not_iff_not]
    exact ⟨fun e => Px.ext e, fun e => by rw [e]; rfl⟩
  have hmin : ∀ a b : Px t, kInf a b = min a b := by
    intro a b
    unfold kInf
    split_ifs with hab
    · exact (min_eq_left hab.le).symm
    · exact (min_eq_right (not_lt.1 hab)).symm
  rw [hmax, hmin]
  unfold kThresh kTest
  by_cases hc : u.val + v.val ≠ t.hi
  · rw [if_pos (hsum.2 hc), min_eq_left le_top]
    by_cases hk : k = Px.zero
    · rw [if_neg (by rw [htr]; simp [hk]), if_neg (by simp [hk]), hz]
      exact max_eq_left bot_le
    · rw [if_pos ((htr k).2 hk), if_pos ⟨hk, hc⟩]
  · rw [if_neg (fun hh => hc (hsum.1 hh)), min_eq_right bot_le, if_neg (by rw [htr, hz]; simp), if_neg (fun hh => hc hh.2), hz]
    exact max_eq_left bot_le

theorem skizStep_spec (hs : t.signed = false) (hh : 0 < t.hi) (E : Env (Px t)) (se : StrElt) (m a b : Img (Px t))
    (ha : a.alloc = true) (hb : b.dims = a.dims) (hm : m.dims = a.dims) (hse : SEOk a.dims se) :
    ∃ a' b', skizStep E se m (a, b) = some (a', b') ∧ SkizNext (pathRel a.dims (seRel se) se.size) m a b a' b' := by
  obtain ⟨d1, e1, h1⟩ := dilate_spec E false se a (newLike E a) (accepts_of_dims E ha rfl) hse
  obtain ⟨d2, e2, h2⟩ := dilate_spec E false se b (newLike E b) (accepts_of_dims E (alloc_of_dims hb ha) rfl) (hb.symm ▸ hse)
  have h1 := iterDil_path _ _ _ _ h1
  have h2 := iterDil_path _ _ _ _ h2
  rw [hb] at h2
  obtain ⟨sm, e3⟩ := Img.zipK_total kAddNoSat a b hb (fun p u v _ _ => by
    obtain ⟨r, e, -⟩ := C07_addNoSat (.inl hs) u v
    rw [e]; rfl)
  obtain ⟨hsd, hsm⟩ := Img.zipK_some _ _ _ _ hb e3
  refine ⟨Img.zipF kSup a (Img.zipF (fun d k => kTest k d Px.zero) d1
        (Img.zipF (fun u v => kInf u (kThresh ⊥ (t.wrap (t.hi - 1)) ⊤ ⊥ v)) m sm)),
    Img.zipF kSup b (Img.zipF (fun d k => kTest k d Px.zero) d2
        (Img.zipF (fun u v => kInf u (kThresh ⊥ (t.wrap (t.hi - 1)) ⊤ ⊥ v)) m sm)), ?_, rfl, hb, fun p hp => ?_⟩
  · unfold skizStep
    dsimp only
    rw [e1, Option.bind_some, e2, Option.bind_some, e3, Option.map_some]
    rfl
  · have ep := Img.at?_some a p hp
    have eb := Img.at?_some b p (hb ▸ hp)
    have em := Img.at?_some m p (hm ▸ hp)
    obtain ⟨x, ex, hx⟩ := h1.2 p hp
    obtain ⟨y, ey, hy⟩ := h2.2 p (hb ▸ hp)
    obtain ⟨s, es, es'⟩ := hsm p _ _ ep eb
    have hd1 : d1.dims = a.dims := h1.1
    have hd2 : d2.dims = a.dims := h2.1.trans hb
    refine ⟨_, _, _, x, y, ep, eb, em, hx, hy, ?_, ?_⟩
    · have hth := zipF_map2 (fun u v => kInf u (kThresh ⊥ (t.wrap (t.hi - 1)) ⊤ ⊥ v)) (a := m) (b := sm) (hsd.trans hm.symm)
      have hte := zipF_map2 (fun d k => kTest k d Px.zero) (a := d1)
        (b := Img.zipF (fun u v => kInf u (kThresh ⊥ (t.wrap (t.hi - 1)) ⊤ ⊥ v)) m sm) (hm.trans hd1.symm)
      have hsu := zipF_map2 kSup (a := a) (b := Img.zipF (fun d k => kTest k d Px.zero) d1
        (Img.zipF (fun u v => kInf u (kThresh ⊥ (t.wrap (t.hi - 1)) ⊤ ⊥ v)) m sm)) hd1
      refine (hsu.2.2 p _ _ ep (hte.2.2 p _ _ ex (hth.2.2 p _ _ em es'))).trans ?_
      rw [skiz_kernel hs hh _ _ _ _ _ es]
    · have hth := zipF_map2 (fun u v => kInf u (kThresh ⊥ (t.wrap (t.hi - 1)) ⊤ ⊥ v)) (a := m) (b := sm) (hsd.trans hm.symm)
      have hte := zipF_map2 (fun d k => kTest k d Px.zero) (a := d2)
        (b := Img.zipF (fun u v => kInf u (kThresh ⊥ (t.wrap (t.hi - 1)) ⊤ ⊥ v)) m sm) (hm.trans hd2.symm)
      have hsu := zipF_map2 kSup (a := b) (b := Img.zipF (fun d k => kTest k d Px.zero) d2
        (Img.zipF (fun u v => kInf u (kThresh ⊥ (t.wrap (t.hi - 1)) ⊤ ⊥ v)) m sm)) (hd2.trans hb.symm)
      refine (hsu.2.2 p _ _ eb (hte.2.2 p _ _ ey (hth.2.2 p _ _ em es'))).trans ?_
      have es2 : kAddNoSat (b.px p.x.toNat p.y.toNat p.z.toNat) (a.px p.x.toNat p.y.toNat p.z.toNat) = some s := by
        rw [← es]
        unfold kAddNoSat
        rw [add_comm]
      rw [skiz_kernel hs hh _ _ _ _ _ es2, add_comm]

section
variable (N : IntPoint → IntPoint → Prop) (lab ms : Img (Px t))

/-- The state after `n` turns. -/
structure SkizInv (n : Nat) (a b : Img (Px t)) : Prop where
  dims1 : a.dims = lab.dims
  dims2 : b.dims = lab.dims
  zero : ∀ p, Img.In lab.dims p → (∀ j ≤ n, ∀ k, ¬ InflPath N lab ms j k p) →
    a.at? p = some Px.zero ∧ b.at? p = some Px.zero
  one : ∀ j ≤ n, ∀ p k, NearestAt N lab ms j p → (∀ k', InflPath N lab ms j k' p ↔ k' = k) →
    a.at? p = some k ∧ ∃ v, b.at? p = some v ∧ v.val = t.hi - k.val
  tie : ∀ j ≤ n, ∀ p k k', NearestAt N lab ms j p → InflPath N lab ms j k p → InflPath N lab ms j k' p →
    ∃ u v, a.at? p = some u ∧ b.at? p = some v ∧ k ≤ u ∧ t.hi - k'.val ≤ v.val
  cur : ∀ p, NearestAt N lab ms n p → (∃ u, a.at? p = some u ∧ InflPath N lab ms n u p) ∧
    ∃ v k', b.at? p = some v ∧ InflPath N lab ms n k' p ∧ v.val = t.hi - k'.val
  src : ∀ p k, a.at? p = some k → k ≠ Px.zero → ∃ j ≤ n, InflPath N lab ms j k p
  src2 : ∀ p v, b.at? p = some v → v ≠ Px.zero → ∃ j ≤ n, ∃ k, InflPath N lab ms j k p ∧ v.val = t.hi - k.val

variable {N lab ms}

theorem InflPath.in_dims {n : Nat} {k : Px t} {p : IntPoint} (hm : ms.dims = lab.dims) (h : InflPath N lab ms n k p) :
    Img.In lab.dims p := by
  cases h with
  | start h _ => exact Img.at?_eq_some_in _ _ _ h
  | step _ _ h _ => exact hm ▸ Img.at?_eq_some_in _ _ _ h

theorem InflPath.ne_zero {n : Nat} {k : Px t} {p : IntPoint} (h : InflPath N lab ms n k p) : k ≠ Px.zero := by
  induction h with
  | start _ h => exact h
  | step _ _ _ _ ih => exact ih

theorem NearestAt.pred {n : Nat} {k : Px t} {p q : IntPoint} {m : Px t} (h : NearestAt N lab ms (n + 1) p)
    (hq : InflPath N lab ms n k q) (hqp : N q p) (hm : ms.at? p = some m) (hm0 : m ≠ Px.zero) : NearestAt N lab ms n q :=
  ⟨⟨k, hq⟩, fun j hj k' hk' => h.2 (j + 1) (by omega) k' (.step hk' hqp hm hm0)⟩

theorem SkizInv.init {lab2 : Img (Px t)} (hd : lab2.dims = lab.dims)
    (h : ∀ p k v, lab.at? p = some k → lab2.at? p = some v → (k = Px.zero → v = Px.zero) ∧ (k ≠ Px.zero → v.val = t.hi - k.val)) :
    SkizInv N lab ms 0 lab lab2 := by
  have hget : ∀ p, Img.In lab.dims p → ∃ k v, lab.at? p = some k ∧ lab2.at? p = some v := fun p hp =>
    ⟨_, _, Img.at?_some lab p hp, Img.at?_some lab2 p (hd ▸ hp)⟩
  have hone : ∀ p k, InflPath N lab ms 0 k p → lab.at? p = some k ∧ k ≠ Px.zero := by
    intro p k hk
    cases hk with
    | start h1 h2 => exact ⟨h1, h2⟩
  refine ⟨rfl, hd, ?_, ?_, ?_, ?_, ?_, ?_⟩
  · intro p hp hn
    obtain ⟨k, v, e1, e2⟩ := hget p hp
    have hk : k = Px.zero := by
      by_contra hk
      exact hn 0 le_rfl k (.start e1 hk)
    rw [e1, e2, hk, (h p k v e1 e2).1 hk]
    exact ⟨rfl, rfl⟩
  · intro j hj p k _ hu
    obtain rfl : j = 0 := by omega
    obtain ⟨e1, hk⟩ := hone p k ((hu k).2 rfl)
    obtain ⟨k', v, e1', e2⟩ := hget p (Img.at?_eq_some_in _ _ _ e1)
    exact ⟨e1, v, e2, (h p k v e1 e2).2 hk⟩
  · intro j hj p k k' _ h1 h2
    obtain rfl : j = 0 := by omega
    obtain ⟨e1, hk⟩ := hone p k h1
    obtain ⟨e1', hk'⟩ := hone p k' h2
    obtain ⟨k'', v, e1'', e2⟩ := hget p (Img.at?_eq_some_in _ _ _ e1)
    exact ⟨k, v, e1, e2, le_rfl, ((h p k' v e1' e2).2 hk').ge⟩
  · rintro p ⟨⟨k, hk⟩, -⟩
    obtain ⟨e1, hk0⟩ := hone p k hk
    obtain ⟨k'', v, e1'', e2⟩ := hget p (Img.at?_eq_some_in _ _ _ e1)
    exact ⟨⟨k, e1, hk⟩, v, k, e2, hk, (h p k v e1 e2).2 hk0⟩
  · intro p k e hk
    exact ⟨0, le_rfl, .start e hk⟩
  · intro p v e hv
    obtain ⟨k, v', e1, e2⟩ := hget p (hd ▸ Img.at?_eq_some_in _ _ _ e)
    rw [e] at e2
    cases e2
    have hk : k ≠ Px.zero := fun hk => hv ((h p k v e1 e).1 hk)
    exact ⟨0, le_rfl, k, .start e1 hk, (h p k v e1 e).2 hk⟩

theorem SkizInv.next (hs : t.signed = false) (hm : ms.dims = lab.dims) {n : Nat} {a b a' b' : Img (Px t)}
    (h : SkizInv N lab ms n a b) (hn : SkizNext N ms a b a' b') :
    SkizInv N lab ms (n + 1) a' b' ∧ Img.Le a a' := by
  have hz : (Px.zero : Px t) = ⊥ := zero_eq_bot hs
  have hin : ∀ {p}, Img.In lab.dims p → Img.In a.dims p := fun hp => h.dims1.symm ▸ hp
  have hle : Img.Le a a' := by
    refine ⟨hn.dims1.symm, fun p u u' e e' => ?_⟩
    obtain ⟨u1, v, k, x, y, e1, e2, e3, h1, h2, h3, h4⟩ := hn.pix p (Img.at?_eq_some_in _ _ _ e)
    rw [e] at e1
    cases e1
    rw [e'] at h3
    cases h3
    split_ifs
    · exact le_max_left _ _
    · exact le_rfl
  -- the dilations come from labelled pixels
  have dx : ∀ p x, IsLUB { w | ∃ q, N q p ∧ a.at? q = some w } x → x ≠ Px.zero →
      ∃ q, N q p ∧ ∃ j ≤ n, InflPath N lab ms j x q := by
    intro p x hx hx0
    obtain ⟨q, h1, h2⟩ := lub_mem hx (hz ▸ hx0)
    exact ⟨q, h1, h.src q x h2 hx0⟩
  have dy : ∀ p y, IsLUB { w | ∃ q, N q p ∧ b.at? q = some w } y → y ≠ Px.zero →
      ∃ q, N q p ∧ ∃ j ≤ n, ∃ k, InflPath N lab ms j k q ∧ y.val = t.hi - k.val := by
    intro p x hx hx0
    obtain ⟨q, h1, h2⟩ := lub_mem hx (hz ▸ hx0)
    exact ⟨q, h1, h.src2 q x h2 hx0⟩
  -- pixels reached now
  have key : ∀ p, NearestAt N lab ms (n + 1) p → ∃ x y, a'.at? p = some x ∧ b'.at? p = some y ∧
      IsLUB { w | ∃ q, N q p ∧ a.at? q = some w } x ∧ IsLUB { w | ∃ q, N q p ∧ b.at? q = some w } y ∧
      ∃ m, ms.at? p = some m ∧ m ≠ Px.zero := by
    intro p hp
    obtain ⟨⟨k, hk⟩, hmin⟩ := hp
    have hpin := hk.in_dims hm
    obtain ⟨u, v, k', x, y, e1, e2, e3, h1, h2, h3, h4⟩ := hn.pix p (hin hpin)
    obtain ⟨z1, z2⟩ := h.zero p hpin (fun j hj k => hmin j (by omega) k)
    rw [z1] at e1
    rw [z2] at e2
    cases e1
    cases e2
    cases hk with
    | step hq hqp hmp hm0 =>
      rw [e3] at hmp
      cases hmp
      have hc : k' ≠ Px.zero ∧ (Px.zero : Px t).val + (Px.zero : Px t).val ≠ t.hi := by
        refine ⟨hm0, ?_⟩
        intro e
        have e0 : t.hi = 0 := by
          have : (Px.zero : Px t).val = 0 := rfl
          omega
        have := k'.le_hi
        have := k'.lo_le
        rw [lo_unsigned hs] at this
        exact hm0 (Px.ext (show k'.val = 0 by omega))
      rw [if_pos hc, hz, max_eq_right bot_le] at h3 h4
      exact ⟨x, y, h3, h4, h1, h2, k', e3, hm0⟩
  have ktie : ∀ p k k', NearestAt N lab ms (n + 1) p → InflPath N lab ms (n + 1) k p → InflPath N lab ms (n + 1) k' p →
      ∃ u v, a'.at? p = some u ∧ b'.at? p = some v ∧ k ≤ u ∧ t.hi - k'.val ≤ v.val := by
    intro p k k' hp h1 h2
    obtain ⟨x, y, e1, e2, hx, hy, m, em, hm0⟩ := key p hp
    refine ⟨x, y, e1, e2, ?_, ?_⟩
    · cases h1 with
      | step hq hqp hmp hm0 =>
        obtain ⟨u, v, f1, f2, f3, -⟩ := h.tie n le_rfl _ _ _ (hp.pred hq hqp hmp hm0) hq hq
        exact f3.trans (hx.1 ⟨_, hqp, f1⟩)
    · cases h2 with
      | step hq hqp hmp hm0 =>
        obtain ⟨u, v, f1, f2, -, f4⟩ := h.tie n le_rfl _ _ _ (hp.pred hq hqp hmp hm0) hq hq
        exact f4.trans (Px.le_iff.1 (hy.1 ⟨_, hqp, f2⟩))
  have kcur : ∀ p, NearestAt N lab ms (n + 1) p → (∃ u, a'.at? p = some u ∧ InflPath N lab ms (n + 1) u p) ∧
      ∃ v k', b'.at? p = some v ∧ InflPath N lab ms (n + 1) k' p ∧ v.val = t.hi - k'.val := by
    intro p hp
    obtain ⟨x, y, e1, e2, hx, hy, m, em, hm0⟩ := key p hp
    obtain ⟨⟨k, hk⟩, hmin⟩ := id hp
    obtain ⟨u, v, f1, f2, f3, f4⟩ := ktie p k k hp hk hk
    rw [e1] at f1
    rw [e2] at f2
    cases f1
    cases f2
    have hk0 := hk.ne_zero
    constructor
    · refine ⟨x, e1, ?_⟩
      have hx0 : x ≠ Px.zero := by
        rintro rfl
        rw [hz] at f3 hk0
        exact hk0 (le_bot_iff.1 f3)
      obtain ⟨q, hqp, j, hj, hq⟩ := dx p x hx hx0
      have hj' : ¬ j + 1 < n + 1 := fun hlt => hmin _ hlt _ (.step hq hqp em hm0)
      obtain rfl : j = n := by omega
      exact .step hq hqp em hm0
    · by_cases hy0 : y = Px.zero
      · refine ⟨y, k, e2, hk, ?_⟩
        rw [hy0] at f4 ⊢
        have h0 : (Px.zero : Px t).val = 0 := rfl
        have := k.le_hi
        omega
      · obtain ⟨q, hqp, j, hj, k', hq, ev⟩ := dy p y hy hy0
        have hj' : ¬ j + 1 < n + 1 := fun hlt => hmin _ hlt _ (.step hq hqp em hm0)
        obtain rfl : j = n := by omega
        exact ⟨y, k', e2, .step hq hqp em hm0, ev⟩
  refine ⟨⟨hn.dims1.trans h.dims1, hn.dims2.trans h.dims1, ?_, ?_, ?_, kcur, ?_, ?_⟩, hle⟩
  · intro p hp hno
    obtain ⟨u, v, k, x, y, e1, e2, e3, h1, h2, h3, h4⟩ := hn.pix p (hin hp)
    obtain ⟨z1, z2⟩ := h.zero p hp (fun j hj => hno j (by omega))
    rw [z1] at e1
    rw [z2] at e2
    cases e1
    cases e2
    rw [h3, h4]
    split_ifs with hc
    · have hx : x = Px.zero := by
        by_contra hx0
        obtain ⟨q, hqp, j, hj, hq⟩ := dx p x h1 hx0
        exact hno (j + 1) (by omega) x (.step hq hqp e3 hc.1)
      have hy : y = Px.zero := by
        by_contra hy0
        obtain ⟨q, hqp, j, hj, k', hq, -⟩ := dy p y h2 hy0
        exact hno (j + 1) (by omega) k' (.step hq hqp e3 hc.1)
      rw [hx, hy, max_self]
      exact ⟨rfl, rfl⟩
    · exact ⟨rfl, rfl⟩
  · intro j hj p k hp hu
    by_cases hjn : j = n + 1
    · subst hjn
      obtain ⟨⟨u, f1, f2⟩, v, k', f3, f4, f5⟩ := kcur p hp
      rw [(hu u).1 f2] at f1
      rw [(hu k').1 f4] at f5
      exact ⟨f1, v, f3, f5⟩
    · obtain ⟨f1, v, f2, f3⟩ := h.one j (by omega) p k hp hu
      obtain ⟨u', v', k', x, y, e1, e2, e3, h1, h2, h3, h4⟩ := hn.pix p (Img.at?_eq_some_in _ _ _ f1)
      rw [f1] at e1
      rw [f2] at e2
      cases e1
      cases e2
      rw [if_neg (fun hc => hc.2 (by omega))] at h3 h4
      exact ⟨h3, v, h4, f3⟩
  · intro j hj p k k' hp g1 g2
    by_cases hjn : j = n + 1
    · subst hjn
      exact ktie p k k' hp g1 g2
    · obtain ⟨u, v, f1, f2, f3, f4⟩ := h.tie j (by omega) p k k' hp g1 g2
      obtain ⟨u', v', k'', x, y, e1, e2, e3, h1, h2, h3, h4⟩ := hn.pix p (Img.at?_eq_some_in _ _ _ f1)
      rw [f1] at e1
      rw [f2] at e2
      cases e1
      cases e2
      refine ⟨_, _, h3, h4, ?_, ?_⟩
      · split_ifs
        · exact f3.trans (le_max_left _ _)
        · exact f3
      · split_ifs
        · exact f4.trans (Px.le_iff.1 (le_max_left _ _))
        · exact f4
  · intro p k e hk
    have hp : Img.In a.dims p := hn.dims1 ▸ Img.at?_eq_some_in _ _ _ e
    obtain ⟨u', v', k'', x, y, e1, e2, e3, h1, h2, h3, h4⟩ := hn.pix p hp
    rw [e] at h3
    have old : k = u' → ∃ j ≤ n + 1, InflPath N lab ms j k p := by
      rintro rfl
      obtain ⟨j, hj, hh⟩ := h.src p k e1 hk
      exact ⟨j, by omega, hh⟩
    split_ifs at h3 with hc
    · rcases max_choice u' x with hh | hh
      · rw [hh] at h3
        cases h3
        exact old rfl
      · rw [hh] at h3
        cases h3
        obtain ⟨q, hqp, j, hj, hq⟩ := dx p k h1 hk
        exact ⟨j + 1, by omega, .step hq hqp e3 hc.1⟩
    · cases h3
      exact old rfl
  · intro p v e hv
    have hp : Img.In a.dims p := by
      rw [← hn.dims2]
      exact Img.at?_eq_some_in _ _ _ e
    obtain ⟨u', v', k'', x, y, e1, e2, e3, h1, h2, h3, h4⟩ := hn.pix p hp
    rw [e] at h4
    have old : v = v' → ∃ j ≤ n + 1, ∃ k, InflPath N lab ms j k p ∧ v.val = t.hi - k.val := by
      rintro rfl
      obtain ⟨j, hj, hh⟩ := h.src2 p v e2 hv
      exact ⟨j, by omega, hh⟩
    split_ifs at h4 with hc
    · rcases max_choice v' y with hh | hh
      · rw [hh] at h4
        cases h4
        exact old rfl
      · rw [hh] at h4
        cases h4
        obtain ⟨q, hqp, j, hj, k, hq, ev⟩ := dy p v h2 hv
        exact ⟨j + 1, by omega, k, .step hq hqp e3 hc.1, ev⟩
    · cases h4
      exact old rfl

/-- Without any change of the first image, everything has been reached. -/
theorem SkizInv.done (hm : ms.dims = lab.dims) {n : Nat} {a b a' b' : Img (Px t)} (h : SkizInv N lab ms n a b)
    (h' : SkizInv N lab ms (n + 1) a' b') (hsame : Img.Same a a') : IsSkiz N lab ms a' b' := by
  have hno : ∀ p, ¬ NearestAt N lab ms (n + 1) p := by
    intro p hp
    obtain ⟨⟨u, e, hu⟩, -⟩ := h'.cur p hp
    obtain ⟨z, -⟩ := h.zero p (hu.in_dims hm) (fun j hj k => hp.2 j (by omega) k)
    rw [hsame.2, e] at z
    cases z
    exact hu.ne_zero rfl
  have hno' : ∀ i p, ¬ NearestAt N lab ms (n + 1 + i) p := by
    intro i
    induction i with
    | zero => exact hno
    | succ i ih =>
      intro p hp
      obtain ⟨⟨k, hk⟩, -⟩ := id hp
      rw [show n + 1 + (i + 1) = (n + 1 + i) + 1 by omega] at hp hk
      cases hk with
      | step hq hqp hmp hm0 => exact ih _ (hp.pred hq hqp hmp hm0)
  have hle : ∀ j p, NearestAt N lab ms j p → j ≤ n + 1 := by
    intro j p hp
    by_contra hlt
    refine hno' (j - (n + 1)) p ?_
    rwa [show n + 1 + (j - (n + 1)) = j by omega]
  refine ⟨h'.dims1, h'.dims2, fun p hp hh => h'.zero p hp fun j _ => hh j, fun j p k hp => h'.one j (hle j p hp) p k hp,
    fun j p k k' hp => h'.tie j (hle j p hp) p k k' hp, fun p k e hk => ?_⟩
  obtain ⟨j, -, hj⟩ := h'.src p k e hk
  exact ⟨j, hj⟩

end

theorem vol_nonneg (hs : t.signed = false) (a : Img (Px t)) : 0 ≤ a.vol := by
  unfold Img.vol
  apply List.sum_nonneg
  intro x hx
  obtain ⟨i, -, rfl⟩ := List.mem_map.1 hx
  have := (a.buf i).lo_le
  rw [lo_unsigned hs] at this
  exact this

theorem vol_top (a : Img (Px t)) : a.vol ≤ (⟨a.dims, fun _ => ⊤⟩ : Img (Px t)).vol :=
  vol_le ⟨rfl, fun p u v _ hv => by
    rw [Img.at?_some _ p (Img.at?_eq_some_in _ _ _ hv)] at hv
    cases hv
    exact le_top⟩

/-- The loop from the second test of its condition on. -/
theorem skizLoop_spec (hs : t.signed = false) (hh : 0 < t.hi) (E : Env (Px t)) (se : StrElt) (lab ms : Img (Px t))
    (ha : lab.alloc = true) (hm : ms.dims = lab.dims) (hse : SEOk lab.dims se) : ∀ (fuel n : Nat) (vol1 : Int)
    (prev s : Img (Px t) × Img (Px t)), SkizInv (pathRel lab.dims (seRel se) se.size) lab ms n prev.1 prev.2 →
    SkizInv (pathRel lab.dims (seRel se) se.size) lab ms (n + 1) s.1 s.2 → Img.Le prev.1 s.1 →
    (¬ vol1 < s.1.vol → prev.1.vol = s.1.vol) →
    (∀ r, skizLoop E se ms fuel vol1 s.1.vol s = some r → IsSkiz (pathRel lab.dims (seRel se) se.size) lab ms r.1 r.2) ∧
    ((⟨lab.dims, fun _ => ⊤⟩ : Img (Px t)).vol - s.1.vol + 1 < fuel → ∃ r, skizLoop E se ms fuel vol1 s.1.vol s = some r) := by
  intro fuel
  induction fuel with
  | zero =>
    intro n vol1 prev s h1 h2 h3 h4
    refine ⟨fun r hr => (by cases hr), fun hf => ?_⟩
    have := vol_top s.1
    rw [h2.dims1] at this
    push_cast at hf
    omega
  | succ fuel ih =>
    intro n vol1 prev s h1 h2 h3 h4
    unfold skizLoop
    by_cases hv : vol1 < s.1.vol
    · rw [if_pos hv]
      obtain ⟨a', b', e, hn⟩ := skizStep_spec hs hh E se ms s.1 s.2 (alloc_of_dims h2.dims1 ha) (h2.dims2.trans h2.dims1.symm)
        (hm.trans h2.dims1.symm) (h2.dims1.symm ▸ hse)
      rw [h2.dims1] at hn
      obtain ⟨h5, h6⟩ := h2.next hs hm hn
      obtain ⟨g1, g2⟩ := ih (n + 1) s.1.vol s (a', b') h2 h5 h6 (fun hlt => le_antisymm (vol_le h6) (not_lt.1 hlt))
      have e' : skizStep E se ms s = some (a', b') := e
      rw [e', Option.bind_some]
      refine ⟨g1, fun hf => ?_⟩
      rcases lt_or_eq_of_le (vol_le h6) with hlt | heq
      · refine g2 ?_
        change _ - a'.vol + 1 < _
        push_cast at hf
        omega
      · cases fuel with
        | zero =>
          have := vol_top s.1
          rw [h2.dims1] at this
          push_cast at hf
          omega
        | succ fuel =>
          refine ⟨(a', b'), ?_⟩
          unfold skizLoop
          rw [if_neg]
          dsimp only
          omega
    · rw [if_neg hv]
      refine ⟨fun r hr => ?_, fun _ => ⟨s, rfl⟩⟩
      obtain rfl := Option.some.inj hr
      exact h1.done hm h2 (vol_strict h3 (h4 hv))

end Smil
