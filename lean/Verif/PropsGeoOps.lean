import Verif.AsfLemmas
import Verif.PropsWaterfall

/-!
# Geodesic dilation and erosion (C74), alternate sequential filters (C75)
-/

namespace Smil
open StrElt
variable {α : Type} {t : PT}

/-! ### Geodesic operators -/

section
variable [LinearOrder α] [BoundedOrder α]

/-- **C74**: at each pixel `geoDilate` gives the highest level that a path of `se.size` steps brings from a
pixel where the marker reaches it, without going below it in the mask, for every type, element and size. -/
theorem C74_geoDilate (E : Env α) (se : StrElt) (im ms out : Img α) (h : Accepts3 E im ms out)
    (hse : SEOk im.dims se) :
    ∃ r, geoDilate E false se im ms out = some (.ok r) ∧ IsGeoDil (seRel se) se.size im ms r := by
  have hD : im.dims.count ≠ 0 := by have := h.1; unfold Img.alloc at this; simpa using this
  obtain ⟨r, h1, h2⟩ := geoSteps_spec (mk := im) (ms := ms) (N := seRel se)
    (morph := fun a => dilate E true (se.resize 1) a a) (fun a ha => dilate_one E se (hse.resize 1) hD a ha)
    h.2.2.1 se.size 0 _ (isGeoDil_zero h.2.2.1)
  refine ⟨r, ?_, by rw [Nat.zero_add] at h2; exact h2⟩
  unfold geoDilate
  rw [checkSize3_ok h]
  exact h1

/-- **C74** for the dual: `geoErode` is `geoDilate` for the reversed order and the transposed element. -/
theorem C74_geoErode (E : Env α) (se : StrElt) (im ms out : Img α) (h : Accepts3 E im ms out)
    (hse : SEOk im.dims se) :
    ∃ r, geoErode E false se im ms out = some (.ok r) ∧
      IsGeoDil (α := αᵒᵈ) (fun q p => seRel se p q) se.size im ms r := by
  have hD : im.dims.count ≠ 0 := by have := h.1; unfold Img.alloc at this; simpa using this
  obtain ⟨r, h1, h2⟩ := geoSteps_spec (α := αᵒᵈ) (mk := im) (ms := ms) (N := fun q p => seRel se p q)
    (morph := fun a : Img α => erode (α := α) E true (se.resize 1) a a) (fun a ha => erode_one E se (hse.resize 1) hD a ha)
    h.2.2.1 se.size 0 _ (isGeoDil_zero (α := αᵒᵈ) h.2.2.1)
  refine ⟨r, ?_, by rw [Nat.zero_add] at h2; exact h2⟩
  unfold geoErode
  rw [checkSize3_ok h]
  exact h1

/-- A chain of sets of pixels that stops growing as soon as it pauses is complete after as many steps as
there are pixels. -/
theorem chain_stable (c : Nat) (f : Nat → Finset Nat) (hm : ∀ k, f k ⊆ f (k + 1)) (hc : ∀ k, f k ⊆ Finset.range c)
    (hs : ∀ k, f k = f (k + 1) → f (k + 1) = f (k + 2)) (m : Nat) : f m ⊆ f c := by
  have key : ∀ k, k ≤ (f k).card ∨ ∀ m, f m ⊆ f k := by
    intro k
    induction k with
    | zero => exact Or.inl (Nat.zero_le _)
    | succ k ih =>
      rcases ih with h | h
      · by_cases e : f k = f (k + 1)
        · right
          have hst : ∀ j, f (k + j) = f (k + j + 1) := by
            intro j
            induction j with
            | zero => exact e
            | succ j ih => exact hs _ ih
          have hup : ∀ j, f (k + j) = f k := by
            intro j
            induction j with
            | zero => rfl
            | succ j ih => rw [← ih]; exact (hst j).symm
          have hmono : Monotone f := monotone_nat_of_le_succ hm
          intro m
          rw [← e]
          rcases le_total m k with h | h
          · exact hmono h
          · obtain ⟨j, rfl⟩ := Nat.exists_eq_add_of_le h
            rw [hup j]
        · left
          have := Finset.card_lt_card (lt_of_le_of_ne (hm k) e)
          omega
      · exact Or.inr fun m => (h m).trans (hm k)
  rcases key c with h | h
  · have : f c = Finset.range c := Finset.eq_of_subset_of_card_le (hc c) (by rw [Finset.card_range]; exact h)
    rw [this]; exact hc m
  · exact h m

omit [BoundedOrder α] in
/-- With the origin in the element, every level that is carried is carried in as many steps as there are
pixels. -/
theorem Carried.bounded {N : IntPoint → IntPoint → Prop} (hr : ∀ p, N p p) {mk ms : Img α} {v : α} {p : IntPoint}
    (hc : Carried N mk ms v p) : CarriedIn N mk ms v ms.dims.count p := by
  classical
  obtain ⟨m, hm⟩ := hc.counted
  have hin : ∀ {k : Nat} {q : IntPoint}, CarriedIn N mk ms v k q → Img.In ms.dims q := fun h => by
    obtain ⟨b, hb, _⟩ := h.carried.mask
    exact Img.at?_eq_some_in _ _ _ hb
  have hoff : ∀ q, Img.In ms.dims q → coordPt ms.dims (offOf ms.dims q) = q := fun q hq => coordPt_offOf hq
  have h := chain_stable ms.dims.count
    (fun k => (Finset.range ms.dims.count).filter fun i => CarriedIn N mk ms v k (coordPt ms.dims i))
    (fun k i hi => by
      rw [Finset.mem_filter] at hi ⊢
      exact ⟨hi.1, hi.2.wait hr⟩)
    (fun k => Finset.filter_subset _ _)
    (fun k hk => by
      have hstep : ∀ q, CarriedIn N mk ms v (k + 1) q → CarriedIn N mk ms v k q := fun q hq => by
        have : offOf ms.dims q ∈ (Finset.range ms.dims.count).filter
            fun i => CarriedIn N mk ms v (k + 1) (coordPt ms.dims i) := by
          rw [Finset.mem_filter, hoff q (hin hq)]
          exact ⟨Finset.mem_range.mpr (offOf_lt (hin hq)), hq⟩
        rw [← hk, Finset.mem_filter, hoff q (hin hq)] at this
        exact this.2
      ext i
      rw [Finset.mem_filter, Finset.mem_filter]
      refine and_congr_right fun _ => ⟨fun hq => hq.wait hr, fun hq => ?_⟩
      cases hq with
      | step h1 h2 h3 h4 => exact .step (hstep _ h1) h2 h3 h4) m
  have hmem : offOf ms.dims p ∈ (Finset.range ms.dims.count).filter
      fun i => CarriedIn N mk ms v m (coordPt ms.dims i) := by
    rw [Finset.mem_filter, hoff p (hin hm)]
    exact ⟨Finset.mem_range.mpr (offOf_lt (hin hm)), hm⟩
  have := h hmem
  rw [Finset.mem_filter, hoff p (hin hm)] at this
  exact this.2

/-- What a successful call means. -/
theorem geoDilate_rel {E : Env α} {se : StrElt} {im ms out r : Img α} (hm : ms.dims = im.dims)
    (hse : SEOk im.dims se) (h : geoDilate E false se im ms out = some (.ok r)) :
    Accepts3 E im ms out ∧ IsGeoDil (seRel se) se.size im ms r := by
  have hacc : Accepts3 E im ms out := by
    unfold geoDilate at h
    cases hc : checkSize3 E im ms out with
    | error c => rw [hc] at h; simp at h
    | ok m => exact checkSize3_ok_iff hc hm
  obtain ⟨r', h1, h2⟩ := C74_geoDilate E se im ms out hacc hse
  rw [h] at h1; cases h1
  exact ⟨hacc, h2⟩

/-- **C74**: size 0 gives the infimum of marker and mask; the result never exceeds the mask if the element
contains its origin, and it grows with the size. -/
theorem C74_sizes {E E' : Env α} {se : StrElt} {n m : Nat} {im ms out out' r r' : Img α} (hm : ms.dims = im.dims)
    (hse : SEOk im.dims se) (h0 : ⟨0, 0, 0⟩ ∈ se.points) (hnm : n ≤ m)
    (h : geoDilate E false (se.resize n) im ms out = some (.ok r))
    (h' : geoDilate E' false (se.resize m) im ms out' = some (.ok r')) :
    Img.Le r r' ∧ Img.Le r' ms ∧ (n = 0 → Img.IsMap2 min im ms r) := by
  obtain ⟨_, h1⟩ := geoDilate_rel hm (hse.resize n) h
  obtain ⟨_, h2⟩ := geoDilate_rel hm (hse.resize m) h'
  change IsGeoDil (seRel se) n im ms r at h1
  change IsGeoDil (seRel se) m im ms r' at h2
  refine ⟨⟨h1.1.trans h2.1.symm, fun p u v hu hv => ?_⟩, ⟨h2.1.trans hm.symm, fun p u v hu hv => ?_⟩, ?_⟩
  · rcases (h1.at hu).1 with e | hc
    · rw [e]; exact bot_le
    · exact (h2.at hv).2 u (hc.wait_le (seRel_refl se h0) hnm)
  · rcases (h2.at hu).1 with e | hc
    · rw [e]; exact bot_le
    · obtain ⟨b, hb, hle⟩ := hc.carried.mask
      rw [hv] at hb; cases hb; exact hle
  · rintro rfl
    refine ⟨h1.1, hm, fun p a b ha hb => ?_⟩
    have hr := Img.at?_some r p (h1.1 ▸ Img.at?_eq_some_in _ _ _ ha)
    rw [hr]
    have hg := h1.at hr
    refine congrArg some (le_antisymm ?_ (hg.2 _ (.base ha hb (min_le_left _ _) (min_le_right _ _))))
    rcases hg.1 with e | hc
    · rw [e]; exact bot_le
    · cases hc with
      | base h3 h4 h5 h6 =>
        rw [ha] at h3; rw [hb] at h4; cases h3; cases h4
        exact le_min h5 h6

end

/-- **C74**: `geoDilate` is below the reconstruction `build` of the same marker and mask, and equal to it as
soon as the size is at least the number of pixels and the element contains its origin. -/
theorem C74_reconstruction_partial (hs : t.signed = false) (hb : t.bits ≤ 64) {E E' : Env (Px t)} {se : StrElt}
    {im ms out out' r R : Img (Px t)} (hm : ms.dims = im.dims) (hse : SEOk im.dims se)
    (h : geoDilate E false se im ms out = some (.ok r)) (h' : build E' false se im ms out' = some (.ok R)) :
    Img.Le r R ∧ (⟨0, 0, 0⟩ ∈ se.points → im.dims.count ≤ se.size → Img.Same r R) := by
  obtain ⟨_, h1⟩ := geoDilate_rel hm hse h
  have h2 := build_rel hs hb hm h'
  have hle : Img.Le r R := ⟨h1.1.trans h2.2.1.symm, fun p u v hu hv => by
    rcases (h1.at hu).1 with e | hc
    · rw [e]; exact bot_le
    · exact (h2.at hv).2 hc.carried⟩
  refine ⟨hle, fun h0 hn => Img.Le.antisymm hle ⟨h2.2.1.trans h1.1.symm, fun p u v hu hv => ?_⟩⟩
  exact (h1.at hv).2 u (((h2.at hu).1.bounded (seRel_refl se h0)).wait_le (seRel_refl se h0) (by rw [hm]; exact hn))

section
variable [LinearOrder α] [BoundedOrder α]

/-- **C74 fails** when the mask is also the output: the first infimum overwrites the mask, the result is the
ordinary dilation of the infimum. -/
theorem C74_mask_bug (E : Env α) (se : StrElt) (im ms : Img α) (h : Accepts3 E im ms ms) (hse : SEOk im.dims se) :
    ∃ i r, Img.IsMap2 min im ms i ∧ geoDilate E true se im ms ms = some (.ok r) ∧
      IterRel (IsDilBy (seRel se)) se.size i r := by
  have hD : im.dims.count ≠ 0 := by have := h.1; unfold Img.alloc at this; simpa using this
  obtain ⟨r, h1, h2⟩ := geoSteps_alias (mk := im) (ms := ms) (N := seRel se)
    (morph := fun a => dilate E true (se.resize 1) a a) (fun a ha => dilate_one E se (hse.resize 1) hD a ha)
    se.size (Img.zipF min im ms) rfl
  refine ⟨Img.zipF min im ms, r, zipF_map2 _ h.2.2.1, ?_, h2⟩
  unfold geoDilate
  rw [checkSize3_ok h]
  exact h1

/-- **C74**, refused images. -/
theorem C74_errors (E : Env α) (msOut : Bool) (se : StrElt) (im ms out : Img α) :
    (im.dims.count = 0 ∨ ms.dims.count = 0 ∨ out.dims.count = 0 →
      geoDilate E msOut se im ms out = some (.error (-99)) ∧ geoErode E msOut se im ms out = some (.error (-99))) ∧
    (im.dims.count ≠ 0 → ms.dims.count ≠ 0 → out.dims.count ≠ 0 → E.auto = false →
      ms.dims ≠ im.dims ∨ out.dims ≠ im.dims →
      geoDilate E msOut se im ms out = some (.error (-98)) ∧ geoErode E msOut se im ms out = some (.error (-98))) := by
  constructor
  · intro h
    have hc : checkSize3 E im ms out = .error (-99) := by
      unfold checkSize3 Img.alloc
      rw [if_pos (by simpa using h)]
      rfl
    unfold geoDilate geoErode
    rw [hc]
    exact ⟨rfl, rfl⟩
  · intro h1 h2 h3 ha h4
    have hc : checkSize3 E im ms out = .error (-98) := by
      unfold checkSize3 Img.alloc
      rw [if_neg (by simp [h1, h2, h3]), if_neg (by tauto), if_neg (by rw [ha]; simp)]
      rfl
    unfold geoDilate geoErode
    rw [hc]
    exact ⟨rfl, rfl⟩

end

/-- C74: the mask stops the propagation at 0, and lets it pass below 9 only as far as the size; with the mask as
output nothing stops it. -/
example : Accepts3 exEnv8 (im8 ⟨5, 1, 1⟩ [9, 0, 0, 0, 0]) (im8 ⟨5, 1, 1⟩ [9, 7, 7, 0, 9]) (im8 ⟨5, 1, 1⟩ []) ∧
    seOk ⟨5, 1, 1⟩ (HorizSE 1) = true ∧
    ⟨0, 0, 0⟩ ∈ (HorizSE 1).points ∧
    lineVals (geoDilate exEnv8 false (HorizSE 1) (im8 ⟨5, 1, 1⟩ [9, 0, 0, 0, 0]) (im8 ⟨5, 1, 1⟩ [9, 7, 7, 0, 9])
      (im8 ⟨5, 1, 1⟩ [])) = [9, 7, 0, 0, 0] ∧
    lineVals (geoDilate exEnv8 true (HorizSE 1) (im8 ⟨5, 1, 1⟩ [9, 0, 0, 0, 0]) (im8 ⟨5, 1, 1⟩ [9, 7, 7, 0, 9])
      (im8 ⟨5, 1, 1⟩ [9, 7, 7, 0, 9])) = [9, 9, 0, 0, 0] :=
  ⟨⟨by decide, by decide, rfl, Or.inl rfl⟩, by decide, by decide, by decide +kernel, by decide +kernel⟩

/-! ### Alternate sequential filters -/

/-- The common form of the four programs (used in proofs only). -/
def seqProg (first second : Env α → StrElt → Img α → Img α → Option (Except Int (Img α))) (E : Env α) (se : StrElt)
    (im out : Img α) : Option (Except Int (Img α)) :=
  match checkSize E im out with
  | .error c => some (.error c)
  | .ok o => asfLoop (first E) (second E) se se.size 1 im o

theorem asfLoop_resize (f g : StrElt → Img α → Img α → Option (Except Int (Img α))) (se : StrElt) (m n : Nat) :
    ∀ (i : Nat) (a o : Img α), asfLoop f g (se.resize m) n i a o = asfLoop f g se n i a o := by
  induction n with
  | zero => intro i a o; rfl
  | succ n ih =>
    intro i a o
    unfold asfLoop
    simp only [ih]
    rfl

theorem seqProg_same [LinearOrder α] [BoundedOrder α] {le le' : Img α → Img α → Prop} {D : Dims} {G H : Nat → Img α → Img α → Prop} {se : StrElt}
    {first second : Env α → StrElt → Img α → Img α → Option (Except Int (Img α))} (hD : D.count ≠ 0)
    (hG : ImgGran le D G) (hH : ImgGran le' D H)
    (hle : ∀ a b, le a b → le b a → Img.Same a b) (hle' : ∀ a b, le' a b → le' b a → Img.Same a b)
    (hr : ∀ a, le a a) (hr' : ∀ a, le' a a) (hsame : ∀ a b c, Img.Same a b → le b c → le a c)
    (hsame' : ∀ a b c, Img.Same a b → le' b c → le' a c)
    (h1 : ∀ E i a o, a.dims = D → Accepts E a o → ∃ b, first E (se.resize i) a o = some (.ok b) ∧ G i a b)
    (h2 : ∀ E i a o, a.dims = D → Accepts E a o → ∃ b, second E (se.resize i) a o = some (.ok b) ∧ H i a b)
    (E : Env α) (n : Nat) (im out : Img α) (hd : im.dims = D) (hacc : Accepts E im out) :
    ∃ r, seqProg first second E (se.resize n) im out = some (.ok r) ∧
      Img.Same r (altSeq hG.fn hH.fn n 1 ⟨im, hd⟩).1 := by
  obtain ⟨o, ho, hod⟩ := checkSize_ok E im out hacc
  have hal : ∀ a : Img α, a.dims = D → a.alloc = true := fun a ha => by
    unfold Img.alloc; rw [ha]; simpa using hD
  obtain ⟨r, e1, e2⟩ := asfLoop_alt (first := first E) (second := second E) (se := se) hG hH hle hle' hr hr' hsame hsame'
    (fun i a o ha ho => h1 E i a o ha (accepts_of_dims E (hal a ha) (ho.trans ha.symm)))
    (fun i a o ha ho => h2 E i a o ha (accepts_of_dims E (hal a ha) (ho.trans ha.symm))) n 1 im o ⟨im, hd⟩
    (Img.Same.refl im) (hod.trans hd)
  refine ⟨r, ?_, e2⟩
  unfold seqProg
  rw [ho]
  show asfLoop (first E) (second E) (se.resize n) n 1 im o = _
  rw [asfLoop_resize]
  exact e1

theorem seqProg_accepts [LinearOrder α] [BoundedOrder α] {first second : Env α → StrElt → Img α → Img α → Option (Except Int (Img α))} {E : Env α}
    {se : StrElt} {im out r : Img α} (h : seqProg first second E se im out = some (.ok r)) : Accepts E im out := by
  unfold seqProg at h
  cases hc : checkSize E im out with
  | error c => rw [hc] at h; simp at h
  | ok o => exact (checkSize_ok_iff E im out o hc).1

theorem seqFilter_close [LinearOrder α] [BoundedOrder α] {D : Dims} {G H : Nat → Img α → Img α → Prop} {se : StrElt}
    {opn cls : Env α → StrElt → Img α → Img α → Option (Except Int (Img α))} (hD : D.count ≠ 0)
    (hG : ImgGran Img.Le D G) (hH : ImgGran (fun a b => Img.Le b a) D H)
    (h1 : ∀ E i a o, a.dims = D → Accepts E a o → ∃ b, opn E (se.resize i) a o = some (.ok b) ∧ G i a b)
    (h2 : ∀ E i a o, a.dims = D → Accepts E a o → ∃ b, cls E (se.resize i) a o = some (.ok b) ∧ H i a b)
    (a1 : ∀ E se a o b, opn E se a o = some (.ok b) → Accepts E a o)
    (a2 : ∀ E se a o b, cls E se a o = some (.ok b) → Accepts E a o) :
    IsSeqFilter D se opn cls (seqProg cls opn) ∧ IsSeqFilter D se opn cls (seqProg opn cls) := by
  have key : ∀ {le : Img α → Img α → Prop} {G : Nat → Img α → Img α → Prop} (hG : ImgGran le D G)
      (_ : ∀ a b, le a b → le b a → Img.Same a b) (_ : ∀ a, le a a)
      (pr : Env α → StrElt → Img α → Img α → Option (Except Int (Img α)))
      (_ : ∀ E i a o, a.dims = D → Accepts E a o → ∃ b, pr E (se.resize i) a o = some (.ok b) ∧ G i a b)
      (_ : ∀ E se a o b, pr E se a o = some (.ok b) → Accepts E a o),
      ∀ E n im out r (h : im.dims = D), pr E (se.resize n) im out = some (.ok r) →
        Img.Same r (hG.fn n ⟨im, h⟩).1 := by
    intro le G hG hle hr pr hp ha E n im out r h hr1
    obtain ⟨b, e1, e2⟩ := hp E n im out h (ha _ _ _ _ _ hr1)
    rw [hr1] at e1; cases e1
    exact hle _ _ (hG.mono n im im _ _ h h (hr _) e2 (hG.fn_spec n ⟨im, h⟩))
      (hG.mono n im im _ _ h h (hr _) (hG.fn_spec n ⟨im, h⟩) e2)
  have l1 : ∀ a b : Img α, Img.Le a b → Img.Le b a → Img.Same a b := fun _ _ h h' => h.antisymm h'
  have l2 : ∀ a b : Img α, Img.Le b a → Img.Le a b → Img.Same a b := fun _ _ h h' => h'.antisymm h
  have s1 : ∀ a b c : Img α, Img.Same a b → Img.Le b c → Img.Le a c := fun _ _ _ h h' => h.le.trans h'
  have s2 : ∀ a b c : Img α, Img.Same a b → Img.Le c b → Img.Le c a := fun _ _ _ h h' => h'.trans h.symm.le
  have k1 := key hG l1 (fun a => Img.Le.refl a) opn h1 a1
  have k2 := key hH l2 (fun a => Img.Le.refl a) cls h2 a2
  constructor
  · refine seqFilter_of (altLaws_close hG.gran hH.cogran) (fun _ => rfl) ?_ ?_ k1 k2
    · intro E n im out hd hacc
      obtain ⟨r, e, _⟩ := seqProg_same hD hH hG l2 l1 (fun a => Img.Le.refl a) (fun a => Img.Le.refl a) s2 s1 h2 h1
        E n im out hd hacc
      exact ⟨r, e⟩
    · intro E n im out r hd hr
      obtain ⟨r', e, e2⟩ := seqProg_same hD hH hG l2 l1 (fun a => Img.Le.refl a) (fun a => Img.Le.refl a) s2 s1 h2 h1
        E n im out hd (seqProg_accepts hr)
      rw [hr] at e; cases e; exact e2
  · refine seqFilter_of (altLaws_open hG.gran hH.cogran) (fun _ => rfl) ?_ ?_ k1 k2
    · intro E n im out hd hacc
      obtain ⟨r, e, _⟩ := seqProg_same hD hG hH l1 l2 (fun a => Img.Le.refl a) (fun a => Img.Le.refl a) s1 s2 h1 h2
        E n im out hd hacc
      exact ⟨r, e⟩
    · intro E n im out r hd hr
      obtain ⟨r', e, e2⟩ := seqProg_same hD hG hH l1 l2 (fun a => Img.Le.refl a) (fun a => Img.Le.refl a) s1 s2 h1 h2
        E n im out hd (seqProg_accepts hr)
      rw [hr] at e; cases e; exact e2

section
variable [LinearOrder α] [BoundedOrder α]

theorem asf_laws (E0 : Env α) {D : Dims} {se : StrElt} (hD : D.count ≠ 0) (hse : SEOk D se) :
    IsSeqFilter D se (fun E => morphOpen E false) (fun E => morphClose E false) (asfClose (α := α)) ∧
    IsSeqFilter D se (fun E => morphOpen E false) (fun E => morphClose E false) (asfOpen (α := α)) :=
  seqFilter_close hD (gran_open E0 hD hse) (gran_close E0 hD hse)
    (fun E i a o ha hacc => open_spec E false (se.resize i) a o hacc (ha.symm ▸ hse.resize i))
    (fun E i a o ha hacc => close_spec E false (se.resize i) a o hacc (ha.symm ▸ hse.resize i))
    (fun _ _ _ _ _ h => accepts_of_open h) (fun _ _ _ _ _ h => accepts_of_close h)

/-- **C75**: `asfOpen` is an increasing and idempotent filter between `open` and `close` of the same size, and a
larger one absorbs the smaller ones, for every type and every element. -/
theorem C75_asfOpen (E : Env α) {D : Dims} {se : StrElt} (hD : D.count ≠ 0) (hse : SEOk D se) :
    IsSeqFilter D se (fun E => morphOpen E false) (fun E => morphClose E false) (asfOpen (α := α)) :=
  (asf_laws E hD hse).2

/-- **C75** for `asfClose`. -/
theorem C75_asfClose (E : Env α) {D : Dims} {se : StrElt} (hD : D.count ≠ 0) (hse : SEOk D se) :
    IsSeqFilter D se (fun E => morphOpen E false) (fun E => morphClose E false) (asfClose (α := α)) :=
  (asf_laws E hD hse).1

end

section
variable {D : Dims} {se : StrElt}

theorem accepts_of_buildOpen {E : Env (Px t)} {im out r : Img (Px t)}
    (h : buildOpen E false se im out = some (.ok r)) : Accepts E im out := by
  unfold buildOpen at h
  cases hc : checkSize E im out with
  | error c => rw [hc] at h; simp at h
  | ok o => exact (checkSize_ok_iff E im out o hc).1

theorem accepts_of_buildClose {E : Env (Px t)} {im out r : Img (Px t)}
    (h : buildClose E false se im out = some (.ok r)) : Accepts E im out := by
  unfold buildClose at h
  cases hc : checkSize E im out with
  | error c => rw [hc] at h; simp at h
  | ok o => exact (checkSize_ok_iff E im out o hc).1

theorem asBuild_laws (hs : t.signed = false) (hb : t.bits ≤ 64) (E0 : Env (Px t)) (hD : D.count ≠ 0)
    (hse : SEOk D se) (h0 : ⟨0, 0, 0⟩ ∈ se.points) (hsym : ∀ p q, seRel se p q → seRel se q p) :
    IsSeqFilter D se (fun E => buildOpen E false) (fun E => buildClose E false) (asBuildClose (t := t)) ∧
    IsSeqFilter D se (fun E => buildOpen E false) (fun E => buildClose E false) (asBuildOpen (t := t)) := by
  have e1 : asBuildClose (t := t) = seqProg (fun E => buildClose E false) (fun E => buildOpen E false) := by
    funext E se im out; unfold asBuildClose seqProg; cases checkSize E im out <;> rfl
  have e2 : asBuildOpen (t := t) = seqProg (fun E => buildOpen E false) (fun E => buildClose E false) := by
    funext E se im out; unfold asBuildOpen seqProg; cases checkSize E im out <;> rfl
  rw [e1, e2]
  exact seqFilter_close (se := se) (opn := fun E => buildOpen E false) (cls := fun E => buildClose E false) hD (gran_recOpen hs hb E0 hD hse h0) (gran_recClose hs hb E0 hD hse h0 hsym)
    (fun E i a o ha hacc => by
      obtain ⟨b, hb1⟩ := buildOpen_spec hs hb E hse i a o ha hacc
      exact ⟨b, hb1, buildOpen_rel hs hb (ha.symm ▸ hse.resize i) hb1⟩)
    (fun E i a o ha hacc => by
      obtain ⟨b, hb1⟩ := buildClose_spec hs hb E hse i a o ha hacc
      exact ⟨b, hb1, buildClose_rel (se := se.resize i) hs hb hsym (ha.symm ▸ hse.resize i) hb1⟩)
    (fun _ _ _ _ _ h => accepts_of_buildOpen h) (fun _ _ _ _ _ h => accepts_of_buildClose h)

/-- **C75**: `asBuildOpen` has the same laws, for unsigned types and symmetric elements with their origin. -/
theorem C75_asBuildOpen_partial (hs : t.signed = false) (hb : t.bits ≤ 64) (E : Env (Px t)) (hD : D.count ≠ 0)
    (hse : SEOk D se) (h0 : ⟨0, 0, 0⟩ ∈ se.points) (hsym : ∀ p q, seRel se p q → seRel se q p) :
    IsSeqFilter D se (fun E => buildOpen E false) (fun E => buildClose E false) (asBuildOpen (t := t)) :=
  (asBuild_laws hs hb E hD hse h0 hsym).2

/-- **C75** for `asBuildClose`. -/
theorem C75_asBuildClose_partial (hs : t.signed = false) (hb : t.bits ≤ 64) (E : Env (Px t)) (hD : D.count ≠ 0)
    (hse : SEOk D se) (h0 : ⟨0, 0, 0⟩ ∈ se.points) (hsym : ∀ p q, seRel se p q → seRel se q p) :
    IsSeqFilter D se (fun E => buildOpen E false) (fun E => buildClose E false) (asBuildClose (t := t)) :=
  (asBuild_laws hs hb E hD hse h0 hsym).1

/-- **C75**: the filters by reconstruction are levelings: between two neighbours they create no contour, reverse
none and heighten none, for unsigned types and symmetric elements. -/
theorem C75_leveling_partial (hs : t.signed = false) (hb : t.bits ≤ 64) {E : Env (Px t)} {im out : Img (Px t)}
    (hse : SEOk im.dims se) (hsym : ∀ p q, seRel se p q → seRel se q p) (hacc : Accepts E im out) :
    (∃ r, asBuildOpen E se im out = some (.ok r) ∧ IsLeveling (seRel se) im r) ∧
    (∃ r, asBuildClose E se im out = some (.ok r) ∧ IsLeveling (seRel se) im r) := by
  have hD : im.dims.count ≠ 0 := by have := hacc.1; unfold Img.alloc at this; simpa using this
  have hal : ∀ a : Img (Px t), a.dims = im.dims → a.alloc = true := fun a ha => by
    unfold Img.alloc; rw [ha]; simpa using hD
  have f1 : ∀ i (a o : Img (Px t)), a.dims = im.dims → o.dims = im.dims →
      ∃ b, buildOpen E false (se.resize i) a o = some (.ok b) ∧ IsLeveling (seRel se) a b := by
    intro i a o ha ho
    obtain ⟨b, h1⟩ := buildOpen_spec hs hb E hse i a o ha (accepts_of_dims E (hal a ha) (ho.trans ha.symm))
    obtain ⟨m, _, h2⟩ := buildOpen_rel hs hb (ha.symm ▸ hse.resize i) h1
    exact ⟨b, h1, IsBuild.leveling (N := seRel se) hsym h2⟩
  have f2 : ∀ i (a o : Img (Px t)), a.dims = im.dims → o.dims = im.dims →
      ∃ b, buildClose E false (se.resize i) a o = some (.ok b) ∧ IsLeveling (seRel se) a b := by
    intro i a o ha ho
    obtain ⟨b, h1⟩ := buildClose_spec hs hb E hse i a o ha (accepts_of_dims E (hal a ha) (ho.trans ha.symm))
    obtain ⟨_, m, _, h2⟩ := C37_buildClose_partial hs hb (ha.symm ▸ hse.resize i) h1
    exact ⟨b, h1, IsLeveling.dual hsym (IsBuild.leveling (α := (Px t)ᵒᵈ) (N := seRel se) hsym h2)⟩
  obtain ⟨o, ho, hod⟩ := checkSize_ok E im out hacc
  constructor
  · obtain ⟨r, h1, h2⟩ := asfLoop_rel (IsLeveling (seRel se)) im.dims (IsLeveling.refl) (fun _ _ _ h h' => h.trans h')
      (fun _ _ h => h.1) f1 f2 se.size 1 im o rfl hod
    refine ⟨r, ?_, h2⟩
    unfold asBuildOpen
    rw [ho]; exact h1
  · obtain ⟨r, h1, h2⟩ := asfLoop_rel (IsLeveling (seRel se)) im.dims (IsLeveling.refl) (fun _ _ _ h h' => h.trans h')
      (fun _ _ h => h.1) f2 f1 se.size 1 im o rfl hod
    refine ⟨r, ?_, h2⟩
    unfold asBuildClose
    rw [ho]; exact h1

end

/-- **C75**, refused images. -/
theorem C75_errors [LinearOrder α] [BoundedOrder α] (E : Env α) (E' : Env (Px t)) (se : StrElt) (im out : Img α)
    (im' out' : Img (Px t)) :
    (im.dims.count = 0 ∨ out.dims.count = 0 → asfOpen E se im out = some (.error (-99)) ∧
      asfClose E se im out = some (.error (-99))) ∧
    (im'.dims.count = 0 ∨ out'.dims.count = 0 → asBuildOpen E' se im' out' = some (.error (-99)) ∧
      asBuildClose E' se im' out' = some (.error (-99))) := by
  have key : ∀ {β : Type} (E : Env β) (im out : Img β), im.dims.count = 0 ∨ out.dims.count = 0 →
      checkSize E im out = .error (-99) := by
    intro β E im out h
    unfold checkSize Img.alloc
    rw [if_pos (by simpa using h)]
    rfl
  constructor
  · intro h
    unfold asfOpen asfClose
    rw [key E im out h]
    exact ⟨rfl, rfl⟩
  · intro h
    unfold asBuildOpen asBuildClose
    rw [key E' im' out' h]
    exact ⟨rfl, rfl⟩

/-- C75: a peak and a pit of one pixel are removed, in an order that matters. -/
example : Accepts exEnv8 (im8 ⟨3, 1, 1⟩ [5, 9, 1]) (im8 ⟨3, 1, 1⟩ []) ∧ seOk ⟨3, 1, 1⟩ (HorizSE 1) = true ∧
    ⟨0, 0, 0⟩ ∈ (HorizSE 1).points ∧ (∀ p q, seRel (HorizSE 1) p q → seRel (HorizSE 1) q p) ∧
    lineVals (asfOpen exEnv8 (HorizSE 1) (im8 ⟨3, 1, 1⟩ [5, 9, 1]) (im8 ⟨3, 1, 1⟩ [])) = [5, 5, 5] ∧
    lineVals (asfClose exEnv8 (HorizSE 1) (im8 ⟨3, 1, 1⟩ [5, 9, 1]) (im8 ⟨3, 1, 1⟩ [])) = [9, 9, 9] :=
  ⟨accepts_of_dims _ (by decide) rfl, by decide, by decide, seRel_symm (by decide), by decide +kernel,
    by decide +kernel⟩

end Smil
