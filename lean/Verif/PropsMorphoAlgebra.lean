import Verif.PropsMorpho
import Verif.PropsHomothety
import Verif.PropsArith
import Verif.Residues
import Mathlib.Algebra.Order.BigOperators.Group.List

/-!
# Algebraic properties of the morphological operators (C28 to C33, operator clause of C23)
-/

namespace Smil
open StrElt
variable {α : Type}

section
variable [LinearOrder α] [BoundedOrder α]

/-! What a successful call means, for any environment. -/

theorem accepts_of_dilate {E : Env α} {i : Bool} {se : StrElt} {im out r : Img α}
    (h : dilate E i se im out = some (.ok r)) : Accepts E im out := by
  unfold dilate guarded at h
  cases hc : checkSize E im out with
  | error c => rw [hc] at h; simp at h
  | ok o => exact (checkSize_ok_iff E im out o hc).1

theorem accepts_of_erode {E : Env α} {i : Bool} {se : StrElt} {im out r : Img α}
    (h : erode E i se im out = some (.ok r)) : Accepts E im out := by
  unfold erode guarded at h
  cases hc : checkSize E im out with
  | error c => rw [hc] at h; simp at h
  | ok o => exact (checkSize_ok_iff E im out o hc).1

theorem accepts_of_open {E : Env α} {i : Bool} {se : StrElt} {im out r : Img α}
    (h : morphOpen E i se im out = some (.ok r)) : Accepts E im out := by
  unfold morphOpen at h
  cases hc : checkSize E im out with
  | error c => rw [hc] at h; simp at h
  | ok o => exact (checkSize_ok_iff E im out o hc).1

theorem accepts_of_close {E : Env α} {i : Bool} {se : StrElt} {im out r : Img α}
    (h : morphClose E i se im out = some (.ok r)) : Accepts E im out := by
  unfold morphClose at h
  cases hc : checkSize E im out with
  | error c => rw [hc] at h; simp at h
  | ok o => exact (checkSize_ok_iff E im out o hc).1

theorem dilate_rel {E : Env α} {i : Bool} {se : StrElt} {im out r : Img α} (hse : SEOk im.dims se)
    (h : dilate E i se im out = some (.ok r)) : IterRel (IsDilBy (seRel se)) se.size im r := by
  obtain ⟨r', h1, h2⟩ := dilate_spec E i se im out (accepts_of_dilate h) hse
  rw [h] at h1; cases h1; exact h2

theorem erode_rel {E : Env α} {i : Bool} {se : StrElt} {im out r : Img α} (hse : SEOk im.dims se)
    (h : erode E i se im out = some (.ok r)) : IterRel (IsEroBy (seRel se)) se.size im r := by
  obtain ⟨r', h1, h2⟩ := erode_spec E i se im out (accepts_of_erode h) hse
  rw [h] at h1; cases h1; exact h2

theorem open_rel {E : Env α} {i : Bool} {se : StrElt} {im out r : Img α} (hse : SEOk im.dims se)
    (h : morphOpen E i se im out = some (.ok r)) : IsOpenBy (seRel se) se.size im r := by
  obtain ⟨r', h1, h2⟩ := open_spec E i se im out (accepts_of_open h) hse
  rw [h] at h1; cases h1; exact h2

theorem close_rel {E : Env α} {i : Bool} {se : StrElt} {im out r : Img α} (hse : SEOk im.dims se)
    (h : morphClose E i se im out = some (.ok r)) : IsCloseBy (seRel se) se.size im r := by
  obtain ⟨r', h1, h2⟩ := close_spec E i se im out (accepts_of_close h) hse
  rw [h] at h1; cases h1; exact h2

/-! ## C28 -/

/-- **C28**: dilation and erosion form an adjunction, for every element size, in place or not.
(partial: `SEOk`; in particular hexagonal elements on one slice. `C28_slices_bug` shows that the
claim is false on the other slices.) -/
theorem C28_adjunction_partial (E E' : Env α) (i i' : Bool) (se : StrElt) (f g o o' a b : Img α)
    (hd : f.dims = g.dims) (hse : SEOk f.dims se)
    (ha : dilate E i se f o = some (.ok a)) (hb : erode E' i' se g o' = some (.ok b)) :
    Img.Le a g ↔ Img.Le f b :=
  adj_iter se.size hd (dilate_rel hse ha) (erode_rel (hd ▸ hse) hb)

/-! ## C29 -/

/-- **C29**: dilation commutes with the supremum. -/
theorem C29_dilate_sup (E E' E'' : Env α) (i i' i'' : Bool) (se : StrElt)
    (f g h o o' o'' a b c : Img α) (hse : SEOk f.dims se) (hh : Img.IsMap2 max f g h)
    (ha : dilate E i se f o = some (.ok a)) (hb : dilate E' i' se g o' = some (.ok b))
    (hc : dilate E'' i'' se h o'' = some (.ok c)) : Img.IsMap2 max a b c :=
  dil_sup se.size hh (dilate_rel hse ha) (dilate_rel (by rw [hh.2.1]; exact hse) hb)
    (dilate_rel (by rw [hh.1]; exact hse) hc)

/-- **C29**: erosion commutes with the infimum. -/
theorem C29_erode_inf (E E' E'' : Env α) (i i' i'' : Bool) (se : StrElt)
    (f g h o o' o'' a b c : Img α) (hse : SEOk f.dims se) (hh : Img.IsMap2 min f g h)
    (ha : erode E i se f o = some (.ok a)) (hb : erode E' i' se g o' = some (.ok b))
    (hc : erode E'' i'' se h o'' = some (.ok c)) : Img.IsMap2 min a b c :=
  ero_inf se.size hh (erode_rel hse ha) (erode_rel (by rw [hh.2.1]; exact hse) hb)
    (erode_rel (by rw [hh.1]; exact hse) hc)

/-- **C29**: both operators are increasing. -/
theorem C29_increasing (E E' : Env α) (i i' : Bool) (se : StrElt) (f g o o' a b : Img α)
    (hse : SEOk f.dims se) (hle : Img.Le f g) :
    (dilate E i se f o = some (.ok a) → dilate E' i' se g o' = some (.ok b) → Img.Le a b) ∧
    (erode E i se f o = some (.ok a) → erode E' i' se g o' = some (.ok b) → Img.Le a b) :=
  ⟨fun ha hb => dil_mono se.size hle (dilate_rel hse ha) (dilate_rel (hle.1 ▸ hse) hb),
   fun ha hb => ero_mono se.size hle (erode_rel hse ha) (erode_rel (hle.1 ▸ hse) hb)⟩

theorem seRel_refl (se : StrElt) (h0 : ⟨0, 0, 0⟩ ∈ se.points) (p : IntPoint) : seRel se p p :=
  ⟨⟨0, 0, 0⟩, h0, by simp [phys]⟩

/-- **C29**: with the origin in the element, `erode f ≤ f ≤ dilate f`. -/
theorem C29_extensive (E E' : Env α) (i i' : Bool) (se : StrElt) (f o o' a b : Img α)
    (hse : SEOk f.dims se) (h0 : ⟨0, 0, 0⟩ ∈ se.points)
    (ha : dilate E i se f o = some (.ok a)) (hb : erode E' i' se f o' = some (.ok b)) :
    Img.Le f a ∧ Img.Le b f :=
  ⟨dil_ext (seRel_refl se h0) se.size (dilate_rel hse ha),
   ero_ext (seRel_refl se h0) se.size (erode_rel hse hb)⟩

/-! ## C31 -/

/-- **C31**: the opening is anti-extensive, increasing and idempotent. -/
theorem C31_open (E E' : Env α) (i i' : Bool) (se : StrElt) (f o o' a b : Img α)
    (hse : SEOk f.dims se) (ha : morphOpen E i se f o = some (.ok a)) :
    Img.Le a f ∧
    (∀ g, Img.Le f g → morphOpen E' i' se g o' = some (.ok b) → Img.Le a b) ∧
    (morphOpen E' i' se a o' = some (.ok b) → Img.Same b a) := by
  have h1 := open_rel hse ha
  refine ⟨open_antiext h1, fun g hg hb => open_mono hg h1 (open_rel (hg.1 ▸ hse) hb), fun hb => ?_⟩
  exact open_idem h1 (open_rel (by rw [open_dims h1]; exact hse) hb)

/-- **C31**: the closing is extensive, increasing and idempotent. -/
theorem C31_close (E E' : Env α) (i i' : Bool) (se : StrElt) (f o o' a b : Img α)
    (hse : SEOk f.dims se) (ha : morphClose E i se f o = some (.ok a)) :
    Img.Le f a ∧
    (∀ g, Img.Le f g → morphClose E' i' se g o' = some (.ok b) → Img.Le a b) ∧
    (morphClose E' i' se a o' = some (.ok b) → Img.Same b a) := by
  have h1 := close_rel hse ha
  refine ⟨close_ext h1, fun g hg hb => close_mono hg h1 (close_rel (hg.1 ▸ hse) hb), fun hb => ?_⟩
  exact close_idem h1 (close_rel (by rw [(close_ext h1).1] at hse; exact hse) hb)

/-- **C31**: calls on accepted images succeed, so the statements above are about every image. -/
theorem C31_total (E : Env α) (i : Bool) (se : StrElt) (f o : Img α) (h : Accepts E f o)
    (hse : SEOk f.dims se) :
    (∃ a, morphOpen E i se f o = some (.ok a)) ∧ (∃ a, morphClose E i se f o = some (.ok a)) := by
  obtain ⟨a, ha, _⟩ := open_spec E i se f o h hse
  obtain ⟨b, hb, _⟩ := close_spec E i se f o h hse
  exact ⟨⟨a, ha⟩, ⟨b, hb⟩⟩

end

/-! ## C30 -/

section
variable {t : PT}

/-- Complement of a value in the range of the type. -/
def Px.compl (a : Px t) : Px t :=
  ⟨t.hi + t.lo - a.val, by have := a.le_hi; omega, by have := a.lo_le; omega⟩

theorem Px.compl_compl (a : Px t) : a.compl.compl = a := by
  apply Px.ext; simp only [Px.compl]; omega

theorem Px.compl_anti (a b : Px t) (h : a ≤ b) : b.compl ≤ a.compl := by
  rw [Px.le_iff] at *; simp only [Px.compl]; omega

theorem invImg_map {E : Env (Px t)} {a o r : Img (Px t)} (hs : t.signed = false ∨ t.bits ≤ 16)
    (h : invImg E a o = some (.ok r)) : Img.IsMap Px.compl a r := by
  unfold invImg guarded at h
  cases hc : checkSize E a o with
  | error c => rw [hc] at h; simp at h
  | ok o' =>
    rw [hc] at h
    simp only [Option.map_eq_some_iff, Except.ok.injEq] at h
    obtain ⟨r', h1, rfl⟩ := h
    obtain ⟨h2, h3⟩ := Img.mapK_some _ _ _ h1
    refine ⟨h2, fun p u hu => ?_⟩
    obtain ⟨v, hv, hr⟩ := h3 p u hu
    rw [kInv_eq hs] at hv
    rw [hr, ← hv]; rfl

/-- **C30**: `erode(f, se) = inv(dilate(inv(f), transpose(se)))`, for all types on which `inv` is
defined (all unsigned types, INT8, INT16). (partial: `SEOk`.) -/
theorem C30_duality_partial (hs : t.signed = false ∨ t.bits ≤ 16) (E1 E2 E3 E4 : Env (Px t))
    (i i' : Bool) (se : StrElt) (f o1 o2 o3 o4 nf d r e : Img (Px t)) (hse : SEOk f.dims se)
    (h1 : invImg E1 f o1 = some (.ok nf)) (h2 : dilate E2 i se.transpose nf o2 = some (.ok d))
    (h3 : invImg E3 d o3 = some (.ok r)) (h4 : erode E4 i' se f o4 = some (.ok e)) :
    Img.Same e r := by
  have m1 := invImg_map hs h1
  have m3 := invImg_map hs h3
  have hse' : SEOk nf.dims se.transpose := by rw [m1.1]; exact hse.transpose
  have hd := dilate_rel hse' h2
  have he := erode_rel hse h4
  rw [(C22_transpose se).2.2.2.2.1] at hd
  have hrel : seRel se.transpose = fun q p => seRel se p q := by
    funext q p; exact propext (seRel_transpose se q p)
  rw [hrel] at hd
  have m2 := dil_inv Px.compl Px.compl_anti Px.compl_compl se.size m1 hd he
  refine ⟨m2.1.trans m3.1.symm, fun p => ?_⟩
  by_cases hp : Img.In d.dims p
  · have hu := Img.at?_some d p hp
    rw [m2.2 p _ hu, m3.2 p _ hu]
  · rw [Img.at?_none _ _ (by rw [m2.1]; exact hp), Img.at?_none _ _ (by rw [m3.1]; exact hp)]

/-- **C31**, duality: `open(f, se) = inv(close(inv(f), transpose(se)))`. -/
theorem C31_duality_partial (hs : t.signed = false ∨ t.bits ≤ 16) (E1 E2 E3 E4 : Env (Px t))
    (i i' : Bool) (se : StrElt) (f o1 o2 o3 o4 nf d r e : Img (Px t)) (hse : SEOk f.dims se)
    (h1 : invImg E1 f o1 = some (.ok nf)) (h2 : morphClose E2 i se.transpose nf o2 = some (.ok d))
    (h3 : invImg E3 d o3 = some (.ok r)) (h4 : morphOpen E4 i' se f o4 = some (.ok e)) :
    Img.Same e r := by
  have m1 := invImg_map hs h1
  have m3 := invImg_map hs h3
  have hse' : SEOk nf.dims se.transpose := by rw [m1.1]; exact hse.transpose
  obtain ⟨t', hd1, hd2⟩ := close_rel hse' h2
  obtain ⟨t, he1, he2⟩ := open_rel hse h4
  rw [(C22_transpose se).2.2.2.2.1] at hd1 hd2
  have hrel : seRel se.transpose = fun q p => seRel se p q := by
    funext q p; exact propext (seRel_transpose se q p)
  rw [hrel] at hd1 hd2
  have mt : Img.IsMap Px.compl t' t :=
    dil_inv Px.compl Px.compl_anti Px.compl_compl se.size m1 hd1 he1
  have m2 : Img.IsMap Px.compl e d :=
    dil_inv (N := fun q p => seRel se p q) Px.compl Px.compl_anti Px.compl_compl se.size mt he2 hd2
  have m2 := IsMap.invol Px.compl Px.compl_compl m2
  refine ⟨m2.1.trans m3.1.symm, fun p => ?_⟩
  by_cases hp : Img.In d.dims p
  · have hu := Img.at?_some d p hp
    rw [m2.2 p _ hu, m3.2 p _ hu]
  · rw [Img.at?_none _ _ (by rw [m2.1]; exact hp), Img.at?_none _ _ (by rw [m3.1]; exact hp)]

/-! ## C32 -/

/-- The image subtraction of a smaller image from a larger one is the exact difference. -/
theorem subImg_exact (hs : t.signed = false) {E : Env (Px t)} {a b out : Img (Px t)}
    (hacc : Accepts E a out) (hle : Img.Le b a) :
    ∃ r, subImg E a b out = some (.ok r) ∧ r.dims = a.dims ∧
      ∀ p u v, a.at? p = some u → b.at? p = some v → ∃ w, r.at? p = some w ∧ w.val = u.val - v.val := by
  obtain ⟨o, ho, _⟩ := checkSize_ok E a out hacc
  obtain ⟨r, hr⟩ := Img.zipK_total (kSub (t := t)) a b hle.1 (fun p u v _ _ => by
    obtain ⟨x, hx, _⟩ := C06_sub_unsigned hs u v
    rw [hx]; rfl)
  refine ⟨r, by unfold subImg guarded; rw [ho]; simp only [hr]; rfl, ?_⟩
  obtain ⟨h1, h2⟩ := Img.zipK_some _ _ _ _ hle.1 hr
  refine ⟨h1, fun p u v hu hv => ?_⟩
  obtain ⟨w, hw, hrw⟩ := h2 p u v hu hv
  refine ⟨w, hrw, ?_⟩
  obtain ⟨x, hx, hxv⟩ := C06_sub_unsigned hs u v
  rw [hw] at hx; cases hx
  rw [hxv]
  have := (Px.le_iff).mp (hle.2 p v u hv hu)
  have hv0 := v.lo_le
  have hu0 := u.le_hi
  have h0 := lo_unsigned hs
  unfold clampSpec
  rw [if_neg (by omega), if_neg (by omega)]

/-- **C32**: on unsigned images, with the origin in both elements, the gradient is the exact
difference between the dilation and the erosion. (partial: unsigned types — `C32_signed_bug`.) -/
theorem C32_gradient_partial (hs : t.signed = false) (E : Env (Px t)) (dilSe eroSe : StrElt)
    (im out : Img (Px t)) (hacc : Accepts E im out) (hd : SEOk im.dims dilSe)
    (he : SEOk im.dims eroSe) (h0 : ⟨0, 0, 0⟩ ∈ dilSe.points) (h0' : ⟨0, 0, 0⟩ ∈ eroSe.points) :
    ∃ r d e, gradient E dilSe eroSe im out = some (.ok r) ∧
      IterRel (IsDil dilSe) dilSe.size im d ∧ IterRel (IsEro eroSe) eroSe.size im e ∧
      r.dims = im.dims ∧ ∀ p u v, d.at? p = some u → e.at? p = some v →
        ∃ w, r.at? p = some w ∧ w.val = u.val - v.val := by
  have hacc' : Accepts E im ⟨im.dims, E.raw⟩ := accepts_of_dims E hacc.1 rfl
  obtain ⟨d, h1, h2⟩ := dilate_spec E false dilSe im _ hacc' hd
  obtain ⟨e, h3, h4⟩ := erode_spec E false eroSe im _ hacc' he
  have hdd := iterDil_dims h2
  have hle : Img.Le e d := (ero_ext (seRel_refl _ h0') _ h4).trans (dil_ext (seRel_refl _ h0) _ h2)
  obtain ⟨r, h5, h6, h7⟩ := subImg_exact hs (E := E) (a := d) (b := e) (out := out)
    ⟨alloc_of_dims hdd hacc.1, hacc.2.1, by rw [hdd]; exact hacc.2.2⟩ hle
  refine ⟨r, d, e, ?_, h2.mono fun a b h => (isDil_iff _ a b).mpr h,
    h4.mono fun a b h => (isEro_iff _ a b).mpr h, h6.trans hdd, h7⟩
  unfold gradient
  rw [h1]
  simp only [andThen, Option.bind_some, h3]
  exact h5

/-- **C32**: `topHat(f) + open(f) = f` exactly, on unsigned images. -/
theorem C32_topHat_partial (hs : t.signed = false) (E : Env (Px t)) (se : StrElt)
    (im out : Img (Px t)) (hacc : Accepts E im out) (hd : SEOk im.dims se) :
    ∃ r o, topHat E se im out = some (.ok r) ∧
      morphOpen E false se im ⟨im.dims, E.raw⟩ = some (.ok o) ∧ r.dims = im.dims ∧
      ∀ p u, im.at? p = some u → ∃ v w, o.at? p = some v ∧ r.at? p = some w ∧
        w.val + v.val = u.val := by
  have hacc' : Accepts E im ⟨im.dims, E.raw⟩ := accepts_of_dims E hacc.1 rfl
  obtain ⟨o, h1, h2⟩ := open_spec E false se im _ hacc' hd
  obtain ⟨r, h5, h6, h7⟩ := subImg_exact hs (E := E) (a := im) (b := o) (out := out) hacc
    (open_antiext h2)
  refine ⟨r, o, ?_, h1, h6, fun p u hu => ?_⟩
  · unfold topHat; rw [h1]; exact h5
  · have hv := Img.at?_some o p (by rw [open_dims h2]; exact Img.at?_eq_some_in _ _ _ hu)
    obtain ⟨w, hw, e⟩ := h7 p u _ hu hv
    exact ⟨_, w, hv, hw, by omega⟩

/-- **C32**: `close(f) = f + dualTopHat(f)` exactly, on unsigned images. -/
theorem C32_dualTopHat_partial (hs : t.signed = false) (E : Env (Px t)) (se : StrElt)
    (im out : Img (Px t)) (hacc : Accepts E im out) (hd : SEOk im.dims se) :
    ∃ r c, dualTopHat E se im out = some (.ok r) ∧
      morphClose E false se im ⟨im.dims, E.raw⟩ = some (.ok c) ∧ r.dims = im.dims ∧
      ∀ p u, im.at? p = some u → ∃ v w, c.at? p = some v ∧ r.at? p = some w ∧
        v.val = u.val + w.val := by
  have hacc' : Accepts E im ⟨im.dims, E.raw⟩ := accepts_of_dims E hacc.1 rfl
  obtain ⟨c, h1, h2⟩ := close_spec E false se im _ hacc' hd
  have hle := close_ext h2
  obtain ⟨r, h5, h6, h7⟩ := subImg_exact hs (E := E) (a := c) (b := im) (out := out)
    ⟨alloc_of_dims hle.1.symm hacc.1, hacc.2.1, by rw [← hle.1]; exact hacc.2.2⟩ hle
  refine ⟨r, c, ?_, h1, h6.trans hle.1.symm, fun p u hu => ?_⟩
  · unfold dualTopHat; rw [h1]; exact h5
  · have hv := Img.at?_some c p (by rw [← hle.1]; exact Img.at?_eq_some_in _ _ _ hu)
    obtain ⟨w, hw, e⟩ := h7 p _ u hv hu
    exact ⟨_, w, hv, hw, by omega⟩

/-! ## C33 -/

theorem vol_le {a b : Img (Px t)} (h : Img.Le a b) : a.vol ≤ b.vol := by
  unfold Img.vol
  rw [← h.1]
  apply List.sum_le_sum
  intro i hi
  rw [List.mem_range] at hi
  obtain ⟨p, hp, e⟩ := Img.buf_at? a i hi
  have hin := Img.at?_eq_some_in _ _ _ hp
  have hb := Img.at?_some b p (h.1 ▸ hin)
  have hle := h.2 p _ _ hp hb
  unfold Img.px at hb hle
  rw [← h.1, e] at hle
  exact hle

theorem vol_same {a b : Img (Px t)} (h : Img.Same a b) : a.vol = b.vol :=
  le_antisymm (vol_le h.le) (vol_le h.symm.le)

/-- What the loop of the granulometry maintains after `k` iterations on `f`: the eroded image, the
volume of the opening of size `k * step`, and the removed volumes. -/
structure GranInv (se : StrElt) (step : Nat) (f : Img (Px t)) (k : Nat) (s : GranState t) : Prop where
  ero : IterRel (IsEroBy (seRel se)) (k * step) f s.imEro
  size : s.seSize = (k + 1) * step
  opn : ∃ g, IsOpenBy (seRel se) (k * step) f g ∧ s.v0 = g.vol
  od : s.imOpen.dims = f.dims
  len : s.res.length = k
  nonneg : ∀ x ∈ s.res, 0 ≤ x
  sum : s.res.sum = f.vol - s.v0

theorem granStep_inv (E : Env (Px t)) (se : StrElt) (step : Nat) (f : Img (Px t))
    (ha : f.alloc = true) (hse : SEOk f.dims se) (k : Nat) (s : GranState t)
    (h : GranInv se step f k s) :
    ∃ s', granStep E se step s = some s' ∧ GranInv se step f (k + 1) s' := by
  have hd := iterEro_dims h.ero
  have hae := alloc_of_dims hd ha
  have hse1 : SEOk s.imEro.dims (se.resize step) := hd.symm ▸ hse.resize step
  obtain ⟨e, h1, h2⟩ := erode_spec E true (se.resize step) s.imEro s.imEro
    (accepts_of_dims E hae rfl) hse1
  have hd2 := iterEro_dims h2
  have hse2 : SEOk e.dims (se.resize s.seSize) := by rw [hd2, hd]; exact hse.resize _
  obtain ⟨g, h3, h4⟩ := dilate_spec E false (se.resize s.seSize) e s.imOpen
    ⟨alloc_of_dims hd2 hae, by unfold Img.alloc; rw [h.od]; exact ha,
      Or.inl (h.od.trans (hd2.trans hd).symm)⟩ hse2
  have hero : IterRel (IsEroBy (seRel se)) ((k + 1) * step) f e := by
    rw [Nat.succ_mul]
    exact iterEro_split.mpr ⟨_, h.ero, h2⟩
  have hopn : IsOpenBy (seRel se) ((k + 1) * step) f g := ⟨e, hero, by
    have := h4; rw [show (se.resize s.seSize).size = s.seSize from rfl, h.size] at this; exact this⟩
  obtain ⟨g0, hg0, hv0⟩ := h.opn
  have hle : Img.Le g g0 := by
    rw [Nat.succ_mul] at hopn
    exact open_decreasing hg0 hopn
  refine ⟨⟨e, g, s.seSize + step, g.vol, s.res ++ [s.v0 - g.vol]⟩,
    by simp only [granStep, h1, h3, Option.bind_some], ⟨hero, ?_, ⟨g, hopn, rfl⟩,
    open_dims hopn, by simp [h.len], ?_, ?_⟩⟩
  · simp only [h.size]; ring
  · intro x hx
    rcases List.mem_append.mp hx with hx | hx
    · exact h.nonneg x hx
    · rw [List.mem_singleton] at hx
      have := vol_le hle
      rw [hx, hv0]; omega
  · simp only [List.sum_append, h.sum, List.sum_cons, List.sum_nil]; omega

/-- **C33**: whenever the granulometry ends, the volumes removed at each step are non-negative and
they add up to at most the volume of the image (unsigned types); they are the differences between
the volumes of openings of growing sizes, the last one being the opening of size `n * step`.
(partial: `SEOk`, and `double` sums are taken as exact integers.) -/
theorem C33_granulometry_partial (hs : t.signed = false) (E : Env (Px t)) (se : StrElt)
    (step maxSe fuel : Nat) (f : Img (Px t)) (ha : f.alloc = true) (hse : SEOk f.dims se)
    (res : List Int) (h : measGranulometry E se step maxSe fuel f = some res) :
    (∀ x ∈ res, 0 ≤ x) ∧ res.sum ≤ f.vol ∧ res ≠ [] ∧
      ∃ g, IsOpenBy (seRel se) (res.length * step) f g ∧ res.sum = f.vol - g.vol := by
  have hinit : GranInv se step f 0 ⟨f, ⟨f.dims, E.raw⟩, step, f.vol, []⟩ :=
    ⟨by simp only [Nat.zero_mul]; exact Img.Same.refl f, by simp, ⟨f, by
      simp only [Nat.zero_mul]; exact ⟨f, Img.Same.refl f, Img.Same.refl f⟩, rfl⟩, rfl, rfl, by simp,
      by simp⟩
  have main : ∀ fuel k s s', GranInv se step f k s →
      granLoop E se step maxSe f.minVal fuel s = some s' → ∃ k', k < k' ∧ GranInv se step f k' s' := by
    intro fuel
    induction fuel with
    | zero => intro k s s' _ h; cases h
    | succ fuel ih =>
      intro k s s' hi h
      obtain ⟨s1, h1, h2⟩ := granStep_inv E se step f ha hse k s hi
      simp only [granLoop, h1, Option.bind_some] at h
      split at h
      · obtain ⟨k', hk, hi'⟩ := ih (k + 1) s1 s' h2 h
        exact ⟨k', by omega, hi'⟩
      · cases h; exact ⟨k + 1, by omega, h2⟩
  unfold measGranulometry at h
  rw [Option.map_eq_some_iff] at h
  obtain ⟨s', h1, rfl⟩ := h
  obtain ⟨k, hk, hi⟩ := main fuel 0 _ s' hinit h1
  obtain ⟨g, hg, hv⟩ := hi.opn
  have hpos : 0 ≤ g.vol := by
    unfold Img.vol
    apply List.sum_nonneg
    intro x hx
    rw [List.mem_map] at hx
    obtain ⟨i, _, rfl⟩ := hx
    have := (g.buf i).lo_le
    rw [lo_unsigned hs] at this
    exact this
  refine ⟨hi.nonneg, ?_, ?_, g, by rw [hi.len]; exact hg, by rw [hi.sum, hv]⟩
  · rw [hi.sum, hv]; omega
  · intro e
    have := hi.len
    rw [e] at this
    simp at this; omega

/-- **C33**: openings of growing sizes form a decreasing family and each absorbs the smaller ones. -/
theorem C33_family [LinearOrder α] [BoundedOrder α] (E E' E'' : Env α) (i i' i'' : Bool) (se : StrElt)
    (n k : Nat) (f o o' o'' a b c : Img α) (hse : SEOk f.dims se)
    (ha : morphOpen E i (se.resize n) f o = some (.ok a))
    (hb : morphOpen E' i' (se.resize (n + k)) f o' = some (.ok b)) :
    Img.Le b a ∧ (morphOpen E'' i'' (se.resize n) b o'' = some (.ok c) → Img.Same c b) := by
  have h1 := open_rel (hse.resize n) ha
  have h2 := open_rel (hse.resize (n + k)) hb
  refine ⟨open_decreasing (N := seRel se) (n := n) (k := k) h1 h2, fun hc => ?_⟩
  have h3 := open_rel (by rw [open_dims h2]; exact hse.resize n) hc
  exact open_absorb (N := seRel se) (n := n) (k := k) h2 h3

end

/-! ### Witnesses -/

/-- On the second slice of a 3D image an adjunction does not hold for hexagonal elements: the
parity correction of the lines is dropped by the dilation on odd slices while the transposition
used by the erosion always applies it. -/
theorem C28_slices_bug : ∃ (se : StrElt) (E : Env (Fin 2)) (f a b : Img (Fin 2)),
    se.odd = true ∧ dilate E false se f f = some (.ok a) ∧ erode E false se a f = some (.ok b) ∧
    Img.Le a a ∧ ¬ Img.Le f b := by
  let f : Img (Fin 2) := Img.ofRows 0 ⟨3, 3, 2⟩
    [[[0, 0, 0], [0, 0, 0], [0, 0, 0]], [[0, 0, 0], [0, 1, 0], [0, 0, 0]]]
  refine ⟨⟨true, .generic, 1, [⟨0, 1, 0⟩]⟩, ⟨1, false, fun _ => 0, fun _ => 0⟩, f, _, _, rfl, rfl, rfl,
    Img.Le.refl _, ?_⟩
  intro h
  have := h.2 ⟨1, 1, 1⟩ 1 0 (by decide) (by decide)
  exact absurd this (by decide)

/-- On signed images the gradient saturates: it is not the difference. -/
theorem C32_signed_bug : ∃ (E : Env (Px INT8)) (im r : Img (Px INT8)),
    gradient E (HorizSE 0) ⟨false, .generic, 1, [⟨0, 0, 0⟩]⟩ im im = some (.ok r) ∧
    im.at? ⟨0, 0, 0⟩ = some ⟨-1, by decide, by decide⟩ ∧ r.at? ⟨0, 0, 0⟩ = some ⟨-128, by decide, by decide⟩ := by
  refine ⟨⟨1, false, fun _ => ⊥, fun _ => ⊥⟩, ⟨⟨1, 1, 1⟩, fun _ => ⟨-1, by decide, by decide⟩⟩, _, rfl,
    rfl, ?_⟩
  decide

/-! ### Operator clause of C23 -/

/-- Paths of `n` steps of `N` staying in an image of dimensions `D`. -/
def pathRel (D : Dims) (N : IntPoint → IntPoint → Prop) : Nat → IntPoint → IntPoint → Prop
  | 0, q, p => q = p
  | n + 1, q, p => ∃ r, Img.In D r ∧ N q r ∧ pathRel D N n r p

theorem iterDil_path [PartialOrder α] (N : IntPoint → IntPoint → Prop) (n : Nat) (im r : Img α)
    (h : IterRel (IsDilBy N) n im r) : IsDilBy (pathRel im.dims N n) im r := by
  induction n generalizing im with
  | zero =>
    refine ⟨h.1.symm, fun p hp => ?_⟩
    have hv := Img.at?_some im p hp
    refine ⟨_, by rw [← h.2]; exact hv, ?_⟩
    constructor
    · rintro u ⟨q, rfl, hu⟩
      rw [hv] at hu; cases hu; exact le_refl _
    · intro w hw; exact hw ⟨p, rfl, hv⟩
  | succ n ih =>
    obtain ⟨m, h1, h2⟩ := h
    have h3 := ih m h2
    rw [h1.1] at h3
    exact h1.comp h3

theorem pathRel_sum (D : Dims) (se : StrElt) (n : Nat) (q p : IntPoint)
    (h : pathRel D (seRel se) n q p) : ∃ l : List IntPoint, l.length = n ∧
      (∀ b ∈ l, b ∈ se.points) ∧ phys se.odd q + physSum se.odd l = phys se.odd p := by
  induction n generalizing q with
  | zero => exact ⟨[], rfl, by simp, by cases h; simp [physSum]⟩
  | succ n ih =>
    obtain ⟨r, _, ⟨b, hb, e⟩, h⟩ := h
    obtain ⟨l, h1, h2, h3⟩ := ih r h
    refine ⟨b :: l, by simp [h1], ?_, ?_⟩
    · intro c hc
      rcases List.mem_cons.mp hc with rfl | hc
      · exact hb
      · exact h2 c hc
    · rw [← h3, ← e, add_assoc]
      congr 1

/-- **C23**, operator clause, general part: `n` successive dilations are always below the dilation
by the homothetic element. -/
theorem C23_operator_le [LinearOrder α] [BoundedOrder α] (E : Env α) (i : Bool) (se : StrElt) (n : Nat)
    (hn : 1 ≤ n) (hn2 : n < 2 ^ 32) (hz : se.odd = true → ∀ p ∈ se.points, p.z % 2 = 0)
    (im out a b : Img α) (hse : SEOk im.dims se)
    (ha : dilate E i (se.resize n) im out = some (.ok a)) (hb : IsDil (se.homothety n) im b) :
    Img.Le a b := by
  have h1 := iterDil_path _ _ _ _ (dilate_rel (hse.resize n) ha)
  rw [isDil_iff] at hb
  refine ⟨h1.1.trans hb.1.symm, fun p u v hu hv => ?_⟩
  have hp : Img.In im.dims p := h1.1 ▸ Img.at?_eq_some_in _ _ _ hu
  obtain ⟨u', hu', hl⟩ := h1.2 p hp
  obtain ⟨v', hv', hl'⟩ := hb.2 p hp
  rw [hu] at hu'; cases hu'
  rw [hv] at hv'; cases hv'
  refine hl.2 ?_
  rintro w ⟨q, hq, hw⟩
  refine hl'.1 ⟨q, ?_, hw⟩
  obtain ⟨l, h2, h3, h4⟩ := pathRel_sum _ _ _ _ _ hq
  have h2 : l.length = n := h2
  -- the displacement as a point
  have hodd : (se.homothety n).odd = se.odd := by
    unfold homothety; rw [iterate_odd]
  have hex : ∃ c : IntPoint, phys se.odd c = physSum se.odd l := by
    have h4' : physSum se.odd l = phys se.odd p - phys se.odd q := eq_sub_of_add_eq' h4
    rw [h4']
    refine ⟨⟨p.x - q.x - (if se.odd = true ∧ p.y % 2 = 0 ∧ q.y % 2 = 1 then 1 else 0), p.y - q.y,
      p.z - q.z⟩, ?_⟩
    simp only [phys, Prod.mk_sub_mk, Prod.mk.injEq, and_true]
    cases se.odd
    · simp; omega
    · simp only [true_and]
      split_ifs <;> omega
  obtain ⟨c, hc⟩ := hex
  refine ⟨c, ?_, ?_⟩
  · rw [C23_sums se n hn hn2 hz]
    exact ⟨l, by omega, by omega, h3, hc.symm⟩
  · rw [hodd, hc]; exact h4

/-- Paths of 8-neighbour steps inside a box: exactly the squares. -/
theorem pathRel_squ (D : Dims) (n : Nat) (q p : IntPoint) (hq : Img.In D q) (hp : Img.In D p) :
    pathRel D nSqu n q p ↔ q.z = p.z ∧ p.x - n ≤ q.x ∧ q.x ≤ p.x + n ∧ p.y - n ≤ q.y ∧ q.y ≤ p.y + n := by
  induction n generalizing q with
  | zero =>
    obtain ⟨a, b, c⟩ := q
    obtain ⟨x, y, z⟩ := p
    simp only [pathRel, IntPoint.mk.injEq]; omega
  | succ n ih =>
    constructor
    · rintro ⟨r, hr, h1, h2⟩
      rw [ih r hr] at h2
      unfold nSqu at h1
      push_cast
      omega
    · intro h
      push_cast at h
      obtain ⟨a, b, c⟩ := q
      obtain ⟨x, y, z⟩ := p
      unfold Img.In at hq hp
      simp only at h hq hp
      have hs : ∀ u v : Int, v - (n + 1) ≤ u → u ≤ v + (n + 1) → ∃ w : Int, u - 1 ≤ w ∧ w ≤ u + 1 ∧
          v - n ≤ w ∧ w ≤ v + n ∧ (w = u ∨ (u < w ∧ w ≤ v) ∨ (w < u ∧ v ≤ w)) := by
        intro u v h1 h2
        rcases lt_trichotomy u v with h | h | h
        · exact ⟨u + 1, by omega, by omega, by omega, by omega, by omega⟩
        · exact ⟨u, by omega, by omega, by omega, by omega, by omega⟩
        · exact ⟨u - 1, by omega, by omega, by omega, by omega, by omega⟩
      obtain ⟨w1, h11, h12, h13, h14, h15⟩ := hs a x (by omega) (by omega)
      obtain ⟨w2, h21, h22, h23, h24, h25⟩ := hs b y (by omega) (by omega)
      have hr : Img.In D ⟨w1, w2, c⟩ := by unfold Img.In; simp only; omega
      refine ⟨⟨w1, w2, c⟩, hr, ?_, ?_⟩
      · exact ⟨rfl, by simp only; omega, by simp only; omega, by simp only; omega,
          by simp only; omega⟩
      · rw [ih _ hr]; simp only; omega

/-- **C23**, operator clause for the square: `n` successive applications equal the dilation by the
homothetic square, borders included. -/
theorem C23_square_operator [LinearOrder α] [BoundedOrder α] (E : Env α) (i : Bool) (n : Nat)
    (hn : 1 ≤ n) (hn2 : n < 2 ^ 32) (im out : Img α) (h : Accepts E im out) (hh : 2 ≤ im.dims.h) :
    ∃ r, dilate E i (SquSE n) im out = some (.ok r) ∧ IsDil ((SquSE 1).homothety n) im r := by
  have hok : SEOk im.dims (SquSE n) := by
    refine ⟨?_, ?_, ?_, fun _ => ⟨?_, ?_, fun _ => hh⟩, ?_⟩
    · have : (SquSE n).points = (SquSE 1).points := rfl
      rw [this]; decide
    · simp [SquSE]
    · intro h; simp [SquSE, addPoints_odd, mk0] at h
    · intro p
      have : (SquSE n).points = squPlane 0 := by
        have : (SquSE n).points = (SquSE 1).points := rfl
        rw [this]; decide
      rw [this]; rfl
    · simp [SquSE, addPoints_odd, mk0]
    · intro hc; simp [SquSE, isInplaceSafe] at hc
  obtain ⟨r, h1, h2⟩ := dilate_spec E i (SquSE n) im out h hok
  refine ⟨r, h1, ?_⟩
  have hsz : (SquSE n).size = n := rfl
  rw [hsz] at h2
  have hrel : seRel (SquSE n) = nSqu := by
    funext q p
    refine propext (kernelRel_iff (SquSE n) rfl (hok.special rfl).1 (hok.special rfl).2.1 q p).symm
  rw [hrel] at h2
  rw [isDil_iff]
  refine (iterDil_path _ _ _ _ h2).congr' ?_
  intro q p hq hp
  have hodd : ((SquSE 1).homothety n).odd = false := by
    unfold homothety; rw [iterate_odd]; rfl
  rw [pathRel_squ _ _ _ _ hq hp, seRel_even _ hodd, C23_square n hn hn2]
  simp only
  omega

/-- The operator clause of C23 is false in general on bounded images, even with the origin in the
element: the intermediate point may fall outside. -/
theorem C23_operator_bug : ∃ (se : StrElt) (E : Env (Fin 2)) (im r : Img (Fin 2)),
    ⟨0, 0, 0⟩ ∈ se.points ∧ dilate E false (se.resize 2) im im = some (.ok r) ∧
    ¬ IsDil (se.homothety 2) im r := by
  let im : Img (Fin 2) := Img.ofRows 0 ⟨2, 1, 1⟩ [[[1, 0]]]
  refine ⟨⟨false, .generic, 1, [⟨0, 0, 0⟩, ⟨2, 0, 0⟩, ⟨-1, 0, 0⟩]⟩, ⟨1, false, fun _ => 0, fun _ => 0⟩, im,
    _, by decide, rfl, ?_⟩
  intro hd
  obtain ⟨v, hv, hl⟩ := hd.2 ⟨1, 0, 0⟩ (by decide)
  have h1 : (1 : Fin 2) ≤ v := hl.1 ⟨⟨0, 0, 0⟩, ⟨1, 0, 0⟩, by decide, by decide, by decide⟩
  have h0 : some v = some (0 : Fin 2) := by rw [← hv]; decide
  cases h0
  exact absurd h1 (by decide)

/-! ### Examples meeting the hypotheses -/

section Examples

/-- A generic, asymmetric element containing the origin. -/
def exSe : StrElt := ⟨false, .generic, 1, [⟨0, 0, 0⟩, ⟨1, 0, 0⟩]⟩

/-- Rows of a successful result. -/
def rowsOf [Inhabited α] : Option (Except Int (Img α)) → List (List (List α))
  | some (.ok r) => r.toRows
  | _ => []

/-- C28: the dilation of `exIm` is below `g` and `exIm` below the erosion of `g`. -/
example : SEOk exIm.dims exSe ∧ rowsOf (dilate exEnv false exSe exIm exIm) = [[[0, 3, 3], [0, 0, 1]]] ∧
    rowsOf (erode exEnv false exSe (Img.ofRows 0 ⟨3, 2, 1⟩ [[[0, 3, 3], [2, 1, 1]]]) exIm) =
      [[[0, 3, 3], [1, 1, 1]]] :=
  ⟨seOk_iff _ _ (by decide), by decide, by decide⟩

/-- C29 and C31: opening and closing of `exIm`. -/
example : (⟨0, 0, 0⟩ : IntPoint) ∈ exSe.points ∧
    rowsOf (morphOpen exEnv false exSe exIm exIm) = [[[0, 0, 0], [0, 0, 1]]] ∧
    rowsOf (morphClose exEnv false exSe exIm exIm) = [[[0, 3, 3], [0, 0, 1]]] := by decide

/-- An image of UINT8. -/
def exIm8 : Img (Px UINT8) := Img.ofRows ⊥ ⟨3, 1, 1⟩
  [[[⟨7, by decide, by decide⟩, ⟨250, by decide, by decide⟩, ⟨3, by decide, by decide⟩]]]
/-- An environment for UINT8. -/
def exEnv8 : Env (Px UINT8) := ⟨1, false, fun _ => ⊥, fun _ => ⊥⟩

/-- C30 and C32: the hypotheses are met by a UINT8 image and the residues are non-trivial. -/
example : Accepts exEnv8 exIm8 exIm8 ∧ SEOk exIm8.dims exSe ∧ UINT8.signed = false ∧
    (rowsOf (gradient exEnv8 exSe exSe exIm8 exIm8)).map (·.map (·.map Px.val)) = [[[0, 247, 247]]] ∧
    (rowsOf (topHat exEnv8 exSe exIm8 exIm8)).map (·.map (·.map Px.val)) = [[[0, 243, 0]]] :=
  ⟨⟨by decide, by decide, Or.inl rfl⟩, seOk_iff _ _ (by decide), by decide, by decide, by decide⟩

/-- C33: a terminating granulometry. -/
example : measGranulometry exEnv8 exSe 1 2 5 exIm8 = some [243, 8] := by decide +kernel

/-- C23: an accepted image for the square, with two lines. -/
example : Accepts exEnv exIm exIm ∧ 2 ≤ exIm.dims.h ∧ SEOk exIm.dims exSe :=
  ⟨⟨by decide, by decide, Or.inl rfl⟩, by decide, seOk_iff _ _ (by decide)⟩

end Examples

end Smil
