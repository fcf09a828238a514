import Verif.LabelTwo
import Verif.PropsLabel

/-!
# C93: labelling of two partitions
-/

namespace Smil
open StrElt Relation
variable {α : Type} {t : PT}

section link
variable {se : StrElt} {keep : α → Bool} {link : α → α → Bool} {im : Img α}

/-- An instance of the propagation for any type of pixels. -/
abbrev labCfgG (M : Nat) (link : α → α → Bool) (keep : α → Bool) (se : StrElt) (im : Img α) : LabCfg :=
  ⟨im.dims.count, nbOffsets im.dims se, fun nb cur => link (im.buf nb) (im.buf cur),
    fun i => keep (im.buf i), M⟩

theorem linkPath_of_reachG {M : Nat} {i j : Nat} (hi : i < im.dims.count)
    (h : ReflTransGen (labCfgG M link keep se im).R i j) : j < im.dims.count ∧
    LinkPath (seRel se) (fun a b => link b a = true) im (coordPt im.dims i) (coordPt im.dims j) := by
  induction h with
  | refl => exact ⟨hi, .refl (coordPt_in hi).1⟩
  | @tail j k _ hjk ih =>
    obtain ⟨hj, hp⟩ := ih
    have hk := nbOffsets_lt hj hjk.1
    refine ⟨hk, .step hp ?_ (a := im.buf j) (b := im.buf k) ?_ ?_ hjk.2⟩
    · have hm := hjk.1
      change k ∈ nbOffsets im.dims se j at hm
      rw [← (coordPt_in hj).2, mem_nbOffsets (coordPt_in hj).1] at hm
      obtain ⟨p, hp, e, b, hb, _, h⟩ := hm
      rw [← e, coordPt_offOf hp]
      exact ⟨b, hb, h⟩
    · rw [Img.buf_offOf _ _ (coordPt_in hj).1, (coordPt_in hj).2]
    · rw [Img.buf_offOf _ _ (coordPt_in hk).1, (coordPt_in hk).2]

theorem reach_of_linkPathG {M : Nat} {p q : IntPoint}
    (h : LinkPath (seRel se) (fun a b => link b a = true) im p q) :
    ReflTransGen (labCfgG M link keep se im).R (offOf im.dims p) (offOf im.dims q) := by
  induction h with
  | refl _ => exact .refl
  | @step q r a b h1 h2 ha hb hab ih =>
    by_cases e : q = r
    · rw [← e]; exact ih
    · have hq := Img.at?_eq_some_in _ _ _ ha
      have hr := Img.at?_eq_some_in _ _ _ hb
      refine ih.tail ⟨(seRel_nb hq hr e).mp h2, ?_⟩
      rw [Img.buf_offOf _ _ hq] at ha
      rw [Img.buf_offOf _ _ hr] at hb
      cases ha; cases hb
      exact hab

theorem linkPath_iffG {M : Nat} {p q : IntPoint} (hp : Img.In im.dims p) (hq : Img.In im.dims q) :
    LinkPath (seRel se) (fun a b => link b a = true) im p q ↔
      ReflTransGen (labCfgG M link keep se im).R (offOf im.dims p) (offOf im.dims q) := by
  refine ⟨reach_of_linkPathG, fun h => ?_⟩
  have := (linkPath_of_reachG (offOf_lt hp) h).2
  rwa [coordPt_offOf hp, coordPt_offOf hq] at this

end link

/-- What a run of the propagation computes, for any type of pixels. -/
theorem labRun_imgG {M : Nat} {keep : α → Bool} {link : α → α → Bool} {se : StrElt} {im : Img α}
    (hl : ∀ a b, link a b = true → link b a = true) (hN : ∀ p q, seRel se p q → seRel se q p)
    (hM : 2 ≤ M) :
    ∃ s reps, labRun (labCfgG M link keep se im) = some s ∧
      IsReps (seRel se) (fun a b => link a b = true) (fun a => keep a = true) im reps ∧ s.real = reps.length ∧
      (∀ i p q, reps[i]? = some p → LinkPath (seRel se) (fun a b => link a b = true) im p q →
        (⟨im.dims, s.out⟩ : Img Nat).at? q = some (i % (M - 1) + 1)) ∧
      ∀ q, Img.In im.dims q →
        (∀ p ∈ reps, ¬ LinkPath (seRel se) (fun a b => link a b = true) im p q) →
        (⟨im.dims, s.out⟩ : Img Nat).at? q = some 0 := by
  classical
  have hll : (fun a b => link a b = true) = (fun a b => link b a = true) := by
    funext a b; exact propext ⟨hl a b, hl b a⟩
  rw [hll]
  have hl' : ∀ a b, (fun a b => link b a = true) a b → (fun a b => link b a = true) b a :=
    fun a b h => hl _ _ h
  generalize hC : labCfgG M link keep se im = C
  have hn : C.n = im.dims.count := by rw [← hC]
  have htop : C.top = M := by rw [← hC]
  have hkeep : ∀ i, C.keep i = true ↔ keep (im.buf i) = true := by
    intro i; rw [← hC]
  have toP : ∀ {i j}, i < im.dims.count → ReflTransGen C.R i j → j < im.dims.count ∧
      LinkPath (seRel se) (fun a b => link b a = true) im (coordPt im.dims i) (coordPt im.dims j) := by
    intro i j hi h; rw [← hC] at h; exact linkPath_of_reachG hi h
  have ofP : ∀ {p q}, LinkPath (seRel se) (fun a b => link b a = true) im p q →
      ReflTransGen C.R (offOf im.dims p) (offOf im.dims q) := by
    intro p q h; rw [← hC]; exact reach_of_linkPathG h
  have hnb : ∀ i < C.n, ∀ j ∈ C.nbs i, j < C.n := by
    rw [← hC]; exact fun i hi j hj => nbOffsets_lt hi hj
  have hsym : ∀ i < C.n, ∀ j, ReflTransGen C.R i j → ReflTransGen C.R j i := by
    intro i hi j h
    rw [hn] at hi
    obtain ⟨hj, hp⟩ := toP hi h
    have := ofP (hp.symm hN hl')
    rwa [(coordPt_in hi).2, (coordPt_in hj).2] at this
  obtain ⟨s, hs, hout⟩ := labRun_spec hnb hsym
  have hmem : ∀ {f}, f ∈ ((List.range C.n).filter fun f =>
      @decide (C.First f) (Classical.propDecidable _)) ↔ f < im.dims.count ∧ C.First f := by
    intro f; rw [List.mem_filter, List.mem_range, hn]; simp
  have hall : ∀ j, j < im.dims.count → keep (im.buf j) = true → ∃ f, f < im.dims.count ∧ C.First f ∧
      ReflTransGen C.R f j := by
    intro j hj hk
    obtain ⟨f, hf, hr, hmin⟩ := LabCfg.exists_first (C := C) (i := j) ⟨j, (hkeep j).mpr hk, .refl⟩
    exact ⟨f, lt_of_le_of_lt (hmin j ((hkeep j).mpr hk) .refl) hj, hf, hr⟩
  refine ⟨s, ((List.range C.n).filter fun f =>
    @decide (C.First f) (Classical.propDecidable _)).map (coordPt im.dims), hs, ⟨?_, ?_, ?_, ?_⟩, ?_,
    ?_, ?_⟩
  · intro p hp
    obtain ⟨f, hf, rfl⟩ := List.mem_map.mp hp
    obtain ⟨hf1, hf2⟩ := hmem.mp hf
    refine ⟨im.buf f, ?_, (hkeep f).mp hf2.1⟩
    rw [Img.buf_offOf _ _ (coordPt_in hf1).1, (coordPt_in hf1).2]
  · intro p hp q a hq ha hpq
    obtain ⟨f, hf, rfl⟩ := List.mem_map.mp hp
    obtain ⟨hf1, hf2⟩ := hmem.mp hf
    have hqin := Img.at?_eq_some_in _ _ _ hq
    rw [Img.buf_offOf _ _ hqin] at hq; cases hq
    have hr := ofP hpq
    rw [(coordPt_in hf1).2] at hr ⊢
    by_contra hlt
    exact hf2.2 _ (by omega) ((hkeep _).mpr ha) (hsym f (hn ▸ hf1) _ hr)
  · have hp : ((List.range C.n).filter fun f =>
        @decide (C.First f) (Classical.propDecidable _)).Pairwise (· < ·) :=
      List.Pairwise.filter _ List.pairwise_lt_range
    refine List.pairwise_map.mpr (hp.imp_of_mem ?_)
    intro f g hf hg hlt
    obtain ⟨hf1, hf2⟩ := hmem.mp hf
    obtain ⟨hg1, hg2⟩ := hmem.mp hg
    rw [(coordPt_in hf1).2, (coordPt_in hg1).2]
    refine ⟨hlt, fun hr => ?_⟩
    have := ofP hr
    rw [(coordPt_in hf1).2, (coordPt_in hg1).2] at this
    exact hg2.2 f hlt hf2.1 this
  · intro q a hq ha
    have hqin := Img.at?_eq_some_in _ _ _ hq
    rw [Img.buf_offOf _ _ hqin] at hq; cases hq
    obtain ⟨f, hf1, hf2, hr⟩ := hall _ (offOf_lt hqin) ha
    refine ⟨coordPt im.dims f, List.mem_map_of_mem (hmem.mpr ⟨hf1, hf2⟩), ?_⟩
    have := (toP hf1 hr).2
    rwa [coordPt_offOf hqin] at this
  · rw [hout.real, List.length_map]; rfl
  · intro i p q hi hpq
    rw [List.getElem?_map, Option.map_eq_some_iff] at hi
    obtain ⟨f, hf, rfl⟩ := hi
    have hrank := LabCfg.rank_index _ _ _ hf
    obtain ⟨hf1, hf2⟩ := hmem.mp (List.mem_of_getElem? hf)
    have hr := ofP hpq
    rw [(coordPt_in hf1).2] at hr
    have := hout.hit f (hn ▸ hf1) hf2 _ hr
    rw [Img.buf_offOf ⟨im.dims, s.out⟩ q hpq.in.2]
    simp only [this, hrank, htop, labNo_eq M hM]
  · intro q hq h
    rw [Img.buf_offOf ⟨im.dims, s.out⟩ q hq]
    refine congrArg some (hout.miss _ fun f hf hff hr => ?_)
    rw [hn] at hf
    refine h (coordPt im.dims f) (List.mem_map_of_mem (hmem.mpr ⟨hf, hff⟩)) ?_
    have := (toP hf hr).2
    rwa [coordPt_offOf hq] at this

/-! ## The theorems -/

/-- The two images as one image of pairs. -/
def pairIm (im im2 : Img (Px t)) : Img (Px t × Px t) := ⟨im.dims, fun i => (im.buf i, im2.buf i)⟩

theorem pairIm_at? (im im2 : Img (Px t)) (hd : im2.dims = im.dims) (p : IntPoint) (a b : Px t) :
    (pairIm im im2).at? p = some (a, b) ↔ im.at? p = some a ∧ im2.at? p = some b := by
  constructor
  · intro h
    have hin : Img.In im.dims p := Img.at?_eq_some_in (pairIm im im2) _ _ h
    rw [Img.buf_offOf (pairIm im im2) p hin] at h
    rw [Img.buf_offOf im p hin, Img.buf_offOf im2 p (by rw [hd]; exact hin), hd]
    simpa [pairIm] using h
  · rintro ⟨h1, h2⟩
    have hin : Img.In im.dims p := Img.at?_eq_some_in _ _ _ h1
    rw [Img.buf_offOf im p hin] at h1
    rw [Img.buf_offOf im2 p (by rw [hd]; exact hin), hd] at h2
    rw [Img.buf_offOf (pairIm im im2) p hin]
    simp only [Option.some.injEq] at h1 h2
    simp [pairIm, h1, h2]

/-- `q` can be reached from `p` by steps of `N` along which neither image changes its value. -/
inductive BothPath (N : IntPoint → IntPoint → Prop) (im im2 : Img (Px t)) : IntPoint → IntPoint → Prop
  | refl {p} : Img.In im.dims p → BothPath N im im2 p p
  | step {p q r a b} : BothPath N im im2 p q → N q r → im.at? q = some a → im.at? r = some a →
      im2.at? q = some b → im2.at? r = some b → BothPath N im im2 p r

theorem bothPath_iff {N : IntPoint → IntPoint → Prop} {im im2 : Img (Px t)} (hd : im2.dims = im.dims)
    {p q : IntPoint} : BothPath N im im2 p q ↔ LinkPath N (· = ·) (pairIm im im2) p q := by
  constructor
  · intro h
    induction h with
    | refl h => exact .refl h
    | step _ h1 h2 h3 h4 h5 ih =>
      exact .step ih h1 ((pairIm_at? im im2 hd _ _ _).mpr ⟨h2, h4⟩) ((pairIm_at? im im2 hd _ _ _).mpr ⟨h3, h5⟩) rfl
  · intro h
    induction h with
    | refl h => exact .refl h
    | @step q r a b _ h1 h2 h3 h4 ih =>
      subst h4
      obtain ⟨a, b⟩ := a
      obtain ⟨g1, g2⟩ := (pairIm_at? im im2 hd _ _ _).mp h2
      obtain ⟨g3, g4⟩ := (pairIm_at? im im2 hd _ _ _).mp h3
      exact .step ih h1 g1 g3 g2 g4

/-- `reps` lists the first pixels of the regions, in raster order: pixels that are not zero in the first image, each the
first of its region, in different regions, with all the regions. -/
structure IsFirsts (N : IntPoint → IntPoint → Prop) (im im2 : Img (Px t)) (reps : List IntPoint) : Prop where
  kept : ∀ p ∈ reps, ∃ a, im.at? p = some a ∧ a.val ≠ 0
  first : ∀ p ∈ reps, ∀ q, BothPath N im im2 p q → offOf im.dims p ≤ offOf im.dims q
  apart : reps.Pairwise fun p q => offOf im.dims p < offOf im.dims q ∧ ¬ BothPath N im im2 p q
  all : ∀ q a, im.at? q = some a → a.val ≠ 0 → ∃ p ∈ reps, BothPath N im im2 p q

theorem px_ne_zero (a : Px t) : a ≠ Px.zero ↔ a.val ≠ 0 := by
  rw [Ne, Px.ext_iff']; rfl

/-- **C93**. With images of the same size, an element with a point apart from the origin and a symmetric neighbourhood,
the number returned is that of the regions of the pixels that are not zero in the first image, where a region joins
pixels by steps along which neither image changes. The region of index `i` (from 0) in the order of the first pixels has
the label `i mod (M - 2) + 1` on all of its pixels, and the pixels that are zero in the first image have the label 0. -/
theorem C93_labels_partial (auto : Bool) (M : Nat) (se : StrElt) (im im2 : Img (Px t)) (dout : Dims)
    (hN : ∀ p q, seRel se p q → seRel se q p) (hM : 3 ≤ M) (hse : se.noCenter.points ≠ [])
    (h : AcceptsD auto im.dims dout) (hd : im2.dims = im.dims) :
    ∃ (n : Nat) (out : Img Nat) (reps : List IntPoint), label2Partitions auto M se im im2 dout = some (.ok (n, out)) ∧
      out.dims = im.dims ∧ IsFirsts (seRel se) im im2 reps ∧ reps.length = n ∧
      (∀ i p q, reps[i]? = some p → BothPath (seRel se) im im2 p q → out.at? q = some (i % (M - 2) + 1)) ∧
      ∀ q a, im.at? q = some a → a.val = 0 → out.at? q = some 0 := by
  have hN' : ∀ p q, seRel se.noCenter p q → seRel se.noCenter q p := by
    intro p q hpq
    by_cases e : p = q
    · subst e; exact hpq
    · rw [seRel_noCenter (Ne.symm e)]
      exact hN _ _ ((seRel_noCenter e).mp hpq)
  obtain ⟨s, reps, h1, h2, h3, h4, h5⟩ := labRun_imgG (M := M - 1) (im := pairIm im im2)
    (link := fun a b => decide (a = b)) (keep := fun a => decide (a.1 ≠ Px.zero)) (se := se.noCenter)
    (fun a b h => by simp only [decide_eq_true_eq] at h ⊢; exact h.symm) hN' (by omega)
  have e : (fun a b : Px t × Px t => decide (a = b) = true) = (· = ·) := by funext a b; simp
  rw [e] at h2 h4 h5
  rw [linkPath_noCenter] at h4 h5
  have hfl : ∀ p q, BothPath (seRel se) im im2 p q → im.at? p = im.at? q := by
    intro p q hpq
    induction hpq with
    | refl => rfl
    | step _ _ h2 h3 _ _ ih => rw [ih, h2, h3]
  have hcfg : labCfgG (M - 1) (fun a b : Px t × Px t => decide (a = b)) (fun a => decide (a.1 ≠ Px.zero)) se.noCenter
      (pairIm im im2) = ⟨im.dims.count, nbOffsets im.dims se.noCenter,
            fun nb cur => im.buf nb = im.buf cur ∧ im2.buf nb = im2.buf cur, fun i => im.buf i ≠ Px.zero, M - 1⟩ := by
    simp only [labCfgG, pairIm, LabCfg.mk.injEq, Prod.mk.injEq, true_and, and_true]
    funext a; rfl
  rw [hcfg] at h1
  have hrepin : ∀ p ∈ reps, ∃ a, im.at? p = some a ∧ a.val ≠ 0 := by
    intro p hp
    obtain ⟨⟨a, b⟩, g1, g2⟩ := h2.kept p hp
    obtain ⟨g3, -⟩ := (pairIm_at? im im2 hd _ _ _).mp g1
    simp only [decide_eq_true_eq] at g2
    exact ⟨a, g3, (px_ne_zero a).mp g2⟩
  have hpair : ∀ q a, im.at? q = some a → ∃ b, (pairIm im im2).at? q = some (a, b) := by
    intro q a hq
    have hin : Img.In im2.dims q := by rw [hd]; exact Img.at?_eq_some_in _ _ _ hq
    exact ⟨_, (pairIm_at? im im2 hd _ _ _).mpr ⟨hq, Img.buf_offOf im2 q hin⟩⟩
  have hall : ∀ q a, im.at? q = some a → a.val ≠ 0 → ∃ p ∈ reps, BothPath (seRel se) im im2 p q := by
    intro q a hq ha
    obtain ⟨b, hb⟩ := hpair q a hq
    obtain ⟨p, hp, hl⟩ := h2.all q (a, b) hb (by simp only [decide_eq_true_eq]; exact (px_ne_zero a).mpr ha)
    rw [linkPath_noCenter] at hl
    exact ⟨p, hp, (bothPath_iff hd).mpr hl⟩
  refine ⟨s.real, ⟨im.dims, s.out⟩, reps, ?_, rfl, ⟨hrepin, ?_, ?_, hall⟩, h3.symm, ?_, ?_⟩
  · unfold label2Partitions
    rw [if_neg (by rw [hd]; exact h.1), checkDims_ok h]
    simp only
    rw [checkDims_ok ⟨by rw [hd]; exact h.1, h.1, Or.inl hd.symm⟩]
    simp only
    rw [if_neg hse, if_neg (by simpa using hd), h1]; rfl
  · intro p hp q hpq
    obtain ⟨a, ha, hnz⟩ := hrepin p hp
    rw [hfl p q hpq] at ha
    obtain ⟨b, hb⟩ := hpair q a ha
    refine h2.first p hp q (a, b) hb (by simp only [decide_eq_true_eq]; exact (px_ne_zero a).mpr hnz) ?_
    rw [linkPath_noCenter]
    exact (bothPath_iff hd).mp hpq
  · refine h2.apart.imp fun {p q} hpq => ⟨hpq.1, fun hb => hpq.2 ?_⟩
    rw [linkPath_noCenter]
    exact (bothPath_iff hd).mp hb
  · intro i p q hi hpq
    have := h4 i p q hi ((bothPath_iff hd).mp hpq)
    rw [show M - 1 - 1 = M - 2 by omega] at this
    exact this
  · intro q a hq ha
    refine h5 q (Img.at?_eq_some_in im _ _ hq) fun p hp hl => ?_
    obtain ⟨b, hb, hnz⟩ := hrepin p hp
    rw [hfl p q ((bothPath_iff hd).mpr hl), hq] at hb
    cases hb
    exact hnz ha

/-- **C93**, two partitions: with at most `M - 2` regions, two pixels that are not zero in the first image have the same
label exactly if they are in the same region. -/
theorem C93_same (auto : Bool) (M : Nat) (se : StrElt) (im im2 : Img (Px t)) (dout : Dims)
    (hN : ∀ p q, seRel se p q → seRel se q p) (hM : 3 ≤ M) (hse : se.noCenter.points ≠ [])
    (h : AcceptsD auto im.dims dout) (hd : im2.dims = im.dims) :
    ∃ (n : Nat) (out : Img Nat), label2Partitions auto M se im im2 dout = some (.ok (n, out)) ∧
      (n ≤ M - 2 → ∀ p q a b, im.at? p = some a → a.val ≠ 0 → im.at? q = some b → b.val ≠ 0 →
        (out.at? p = out.at? q ↔ BothPath (seRel se) im im2 p q)) := by
  obtain ⟨n, out, reps, h1, -, h3, h4, h5, -⟩ := C93_labels_partial auto M se im im2 dout hN hM hse h hd
  refine ⟨n, out, h1, fun hn p q a b hp ha hq hb => ?_⟩
  have hsym : ∀ p q, BothPath (seRel se) im im2 p q → BothPath (seRel se) im im2 q p := by
    intro p q hpq
    rw [bothPath_iff hd] at hpq ⊢
    exact LinkPath.symm hN (fun _ _ h => h.symm) hpq
  have htr : ∀ p q r, BothPath (seRel se) im im2 p q → BothPath (seRel se) im im2 q r → BothPath (seRel se) im im2 p r := by
    intro p q r hpq hqr
    rw [bothPath_iff hd] at hpq hqr ⊢
    exact hpq.trans hqr
  obtain ⟨p', hp', hpp⟩ := h3.all p a hp ha
  obtain ⟨q', hq', hqq⟩ := h3.all q b hq hb
  obtain ⟨i, hi⟩ := List.getElem?_of_mem hp'
  obtain ⟨j, hj⟩ := List.getElem?_of_mem hq'
  obtain ⟨hi', ei⟩ := List.getElem?_eq_some_iff.mp hi
  obtain ⟨hj', ej⟩ := List.getElem?_eq_some_iff.mp hj
  rw [h5 i p' p hi hpp, h5 j q' q hj hqq, Nat.mod_eq_of_lt (by omega), Nat.mod_eq_of_lt (by omega)]
  simp only [Option.some.injEq, Nat.add_right_cancel_iff]
  constructor
  · intro e
    subst e
    rw [ei] at ej
    subst ej
    exact htr _ _ _ (hsym _ _ hpp) hqq
  · intro hpq
    have hpq' := htr _ _ _ (htr _ _ _ hpp hpq) (hsym _ _ hqq)
    have hw := List.pairwise_iff_getElem.mp h3.apart
    rcases Nat.lt_trichotomy i j with hl | hl | hl
    · exact absurd (by rw [ei, ej]; exact hpq') (hw i j hi' hj' hl).2
    · exact hl
    · exact absurd (by rw [ei, ej]; exact hsym _ _ hpq') (hw j i hj' hi' hl).2

/-- **C93**, errors: images that are not allocated or of different sizes are refused; with an element without a point
apart from the origin the output is cleared and nothing is counted. -/
theorem C93_errors (auto : Bool) (M : Nat) (se : StrElt) (im im2 : Img (Px t)) (dout : Dims) :
    (im.dims.count = 0 ∨ im2.dims.count = 0 ∨ dout.count = 0 →
      label2Partitions auto M se im im2 dout = some (.error errBadAllocation)) ∧
    (im.dims.count ≠ 0 → im2.dims.count ≠ 0 → dout.count ≠ 0 → auto = false → (dout ≠ im.dims ∨ im2.dims ≠ im.dims) →
      label2Partitions auto M se im im2 dout = some (.error errBadSize)) ∧
    (AcceptsD auto im.dims dout → im2.dims = im.dims → se.noCenter.points = [] →
      ∃ out : Img Nat, label2Partitions auto M se im im2 dout = some (.ok (0, out)) ∧ ∀ q k, out.at? q = some k → k = 0) := by
  refine ⟨fun h => ?_, fun h1 h2 h3 ha h => ?_, fun h hd hse => ?_⟩
  · unfold label2Partitions
    by_cases h2 : im2.dims.count = 0
    · rw [if_pos h2]
    · rw [if_neg h2]
      unfold checkDims
      rw [if_pos (show im.dims.count = 0 ∨ dout.count = 0 by tauto)]
  · unfold label2Partitions
    rw [if_neg h2]
    unfold checkDims
    rw [if_neg (show ¬ (im.dims.count = 0 ∨ dout.count = 0) by tauto),
      if_neg (show ¬ (im2.dims.count = 0 ∨ im.dims.count = 0) by tauto)]
    subst ha
    by_cases hd : dout = im.dims
    · rw [if_pos hd]
      simp only
      rw [if_neg (show ¬ im.dims = im2.dims by
        rcases h with h | h
        · exact absurd hd h
        · exact fun e => h e.symm)]
      rfl
    · rw [if_neg hd]
      rfl
  · refine ⟨⟨im2.dims, fun _ => 0⟩, ?_, fun q k hq => ?_⟩
    · unfold label2Partitions
      rw [if_neg (by rw [hd]; exact h.1), checkDims_ok h]
      simp only
      rw [checkDims_ok ⟨by rw [hd]; exact h.1, h.1, Or.inl hd.symm⟩]
      simp only
      rw [if_pos hse]
    · have hin := Img.at?_eq_some_in _ _ _ hq
      rw [Img.buf_offOf _ q hin] at hq
      exact (Option.some.inj hq).symm

/-- **C93**, exception: pixels that are zero in the first image never get a label, although they are regions of the
second, while zeros of the second image do. -/
theorem C93_zero_bug :
    labs (label2Partitions false 255 (SquSE 1) (im8 ⟨3, 1, 1⟩ [0, 0, 5]) (im8 ⟨3, 1, 1⟩ [1, 1, 0]) ⟨3, 1, 1⟩) =
      some (1, [0, 0, 1]) ∧
    labs (label2Partitions false 255 (SquSE 1) (im8 ⟨3, 1, 1⟩ [1, 1, 0]) (im8 ⟨3, 1, 1⟩ [0, 0, 5]) ⟨3, 1, 1⟩) =
      some (1, [1, 1, 0]) := by decide +kernel

/-- **C93**, exception: with a label type of maximum 4 the third region has the label 1 again, although the type has the
values 3 and 4. -/
theorem C93_wrap_bug :
    labs (label2Partitions false 4 (SquSE 1) (im8 ⟨3, 1, 1⟩ [7, 7, 7]) (im8 ⟨3, 1, 1⟩ [1, 2, 3]) ⟨3, 1, 1⟩) =
      some (3, [1, 2, 1]) := by decide +kernel

/-- **C93**, exception: in the mode that resizes, a second image of another size is not refused. -/
theorem C93_resize_bug :
    (label2Partitions true 255 (SquSE 1) (im8 ⟨3, 1, 1⟩ [7, 7, 7]) (im8 ⟨2, 1, 1⟩ [1, 2]) ⟨3, 1, 1⟩).isNone = true := by
  decide +kernel

/-- C93: the intersections of two partitions, with the hypotheses of the theorems. -/
example : AcceptsD false (im8 ⟨4, 2, 1⟩ [7, 7, 0, 7, 7, 9, 9, 7]).dims ⟨4, 2, 1⟩ ∧ (SquSE 1).noCenter.points ≠ [] ∧
    (∀ p q, seRel (SquSE 1) p q → seRel (SquSE 1) q p) ∧
    labs (label2Partitions false 255 (SquSE 1) (im8 ⟨4, 2, 1⟩ [7, 7, 0, 7, 7, 9, 9, 7])
      (im8 ⟨4, 2, 1⟩ [1, 2, 2, 2, 1, 2, 3, 3]) ⟨4, 2, 1⟩) = some (6, [1, 2, 0, 3, 1, 4, 5, 6]) :=
  ⟨⟨by decide, by decide, Or.inl rfl⟩, by decide, seRel_symm (by decide), by decide +kernel⟩

end Smil
