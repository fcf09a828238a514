import Verif.LabelLemmas
import Verif.PropsBuild

/-!
# C39: labelling

Specification: two pixels are linked when a path of steps of the neighbourhood joins them inside the
image, consecutive values being related.
-/

namespace Smil
open StrElt Relation
variable {α : Type} {t : PT}

/-- `q` can be reached from `p` by steps of `N` along which consecutive values are related by
`link`. -/
inductive LinkPath (N : IntPoint → IntPoint → Prop) (link : α → α → Prop) (im : Img α) :
    IntPoint → IntPoint → Prop
  | refl {p} : Img.In im.dims p → LinkPath N link im p p
  | step {p q r a b} : LinkPath N link im p q → N q r → im.at? q = some a → im.at? r = some b →
      link a b → LinkPath N link im p r

/-- A path of equal values. -/
abbrev FlatPath (N : IntPoint → IntPoint → Prop) (im : Img α) := LinkPath N (· = ·) im

/-- `reps` lists the first pixels of the components of the kept pixels, in raster order. -/
structure IsReps (N : IntPoint → IntPoint → Prop) (link : α → α → Prop) (keep : α → Prop)
    (im : Img α) (reps : List IntPoint) : Prop where
  kept : ∀ p ∈ reps, ∃ a, im.at? p = some a ∧ keep a
  first : ∀ p ∈ reps, ∀ q a, im.at? q = some a → keep a → LinkPath N link im p q →
    offOf im.dims p ≤ offOf im.dims q
  apart : reps.Pairwise fun p q => offOf im.dims p < offOf im.dims q ∧ ¬ LinkPath N link im p q
  all : ∀ q a, im.at? q = some a → keep a → ∃ p ∈ reps, LinkPath N link im p q

theorem LinkPath.in {N : IntPoint → IntPoint → Prop} {link : α → α → Prop} {im : Img α}
    {p q : IntPoint} (h : LinkPath N link im p q) : Img.In im.dims p ∧ Img.In im.dims q := by
  induction h with
  | refl h => exact ⟨h, h⟩
  | step _ _ _ hb _ ih => exact ⟨ih.1, Img.at?_eq_some_in _ _ _ hb⟩

theorem LinkPath.trans {N : IntPoint → IntPoint → Prop} {link : α → α → Prop} {im : Img α}
    {p q r : IntPoint} (h : LinkPath N link im p q) (h' : LinkPath N link im q r) :
    LinkPath N link im p r := by
  induction h' with
  | refl _ => exact h
  | step _ h1 h2 h3 h4 ih => exact .step ih h1 h2 h3 h4

theorem LinkPath.symm {N : IntPoint → IntPoint → Prop} {link : α → α → Prop} {im : Img α}
    (hN : ∀ p q, N p q → N q p) (hl : ∀ a b, link a b → link b a)
    {p q : IntPoint} (h : LinkPath N link im p q) : LinkPath N link im q p := by
  induction h with
  | refl h => exact .refl h
  | step h1 h2 ha hb hab ih =>
    exact (LinkPath.step (.refl (Img.at?_eq_some_in _ _ _ hb)) (hN _ _ h2) hb ha (hl _ _ hab)).trans ih

/-- The values along a path of equal values are equal. -/
theorem FlatPath.val {N : IntPoint → IntPoint → Prop} {im : Img α} {p q : IntPoint}
    (h : FlatPath N im p q) : im.at? p = im.at? q := by
  induction h with
  | refl _ => rfl
  | step _ _ ha hb hab ih => rw [ih, ha, hb, hab]

/-- An element whose points come in opposite pairs gives a symmetric relation. -/
theorem seRel_symm {se : StrElt}
    (h : ∀ b ∈ se.points, ∃ b' ∈ se.points, phys se.odd b + phys se.odd b' = 0) (p q : IntPoint)
    (hr : seRel se p q) : seRel se q p := by
  obtain ⟨b, hb, e⟩ := hr
  obtain ⟨b', hb', e'⟩ := h b hb
  refine ⟨b', hb', ?_⟩
  rw [← e, add_assoc, e', add_zero]

section link
variable {se : StrElt} {link : Px t → Px t → Bool} {im : Img (Px t)}

/-- The instance of the propagation run by `labelExec`. -/
abbrev labCfg (M : Nat) (link : Px t → Px t → Bool) (se : StrElt) (im : Img (Px t)) : LabCfg :=
  ⟨im.dims.count, nbOffsets im.dims se, fun nb cur => link (im.buf nb) (im.buf cur),
    fun i => im.buf i ≠ Px.zero, M⟩

theorem linkPath_of_reach {M : Nat} {i j : Nat} (hi : i < im.dims.count)
    (h : ReflTransGen (labCfg M link se im).R i j) : j < im.dims.count ∧
    LinkPath (seRel se) (fun a b => link b a = true) im (coordPt im.dims i) (coordPt im.dims j) := by
  induction h with
  | refl => exact ⟨hi, .refl (coordPt_in hi).1⟩
  | @tail j k _ hjk ih =>
    obtain ⟨hj, hp⟩ := ih
    have hk := nbOffsets_lt hj hjk.1
    refine ⟨hk, .step hp ?_ (a := im.buf j) (b := im.buf k) ?_ ?_ hjk.2⟩
    · have hm := hjk.1
      change k ∈ nbOffsets im.dims se j at hm
      rw [← (coordPt_in hj).2, mem_nbOffsets (coordPt_in hj).1] at hm
      obtain ⟨p, hp, e, b, hb, _, h⟩ := hm
      rw [← e, coordPt_offOf hp]
      exact ⟨b, hb, h⟩
    · rw [Img.buf_offOf _ _ (coordPt_in hj).1, (coordPt_in hj).2]
    · rw [Img.buf_offOf _ _ (coordPt_in hk).1, (coordPt_in hk).2]

theorem reach_of_linkPath {M : Nat} {p q : IntPoint}
    (h : LinkPath (seRel se) (fun a b => link b a = true) im p q) :
    ReflTransGen (labCfg M link se im).R (offOf im.dims p) (offOf im.dims q) := by
  induction h with
  | refl _ => exact .refl
  | @step q r a b h1 h2 ha hb hab ih =>
    by_cases e : q = r
    · rw [← e]; exact ih
    · have hq := Img.at?_eq_some_in _ _ _ ha
      have hr := Img.at?_eq_some_in _ _ _ hb
      refine ih.tail ⟨(seRel_nb hq hr e).mp h2, ?_⟩
      rw [Img.buf_offOf _ _ hq] at ha
      rw [Img.buf_offOf _ _ hr] at hb
      cases ha; cases hb
      exact hab

theorem linkPath_iff {M : Nat} {p q : IntPoint} (hp : Img.In im.dims p) (hq : Img.In im.dims q) :
    LinkPath (seRel se) (fun a b => link b a = true) im p q ↔
      ReflTransGen (labCfg M link se im).R (offOf im.dims p) (offOf im.dims q) := by
  refine ⟨reach_of_linkPath, fun h => ?_⟩
  have := (linkPath_of_reach (offOf_lt hp) h).2
  rwa [coordPt_offOf hp, coordPt_offOf hq] at this

end link

theorem LabCfg.rank_index {C : LabCfg} : ∀ (m i f : Nat),
    ((List.range m).filter fun f => @decide (C.First f) (Classical.propDecidable _))[i]? = some f →
    C.rank (f + 1) = i + 1
  | 0, i, f, h => by simp at h
  | m + 1, i, f, h => by
    classical
    rw [List.range_succ, List.filter_append] at h
    by_cases hF : C.First m
    · rw [show List.filter (fun f => @decide (C.First f) (Classical.propDecidable _)) [m] = [m] by
        simp [hF], List.getElem?_append] at h
      split at h
      · exact rank_index m i f h
      · rename_i hi
        have h1 : i - ((List.range m).filter fun f =>
            @decide (C.First f) (Classical.propDecidable _)).length = 0 := by
          by_contra hne
          rw [List.getElem?_eq_none (by simp; omega)] at h
          cases h
        rw [h1] at h
        simp at h; subst h
        rw [rank_succ_pos hF]
        unfold rank
        omega
    · rw [show List.filter (fun f => @decide (C.First f) (Classical.propDecidable _)) [m] = [] by
        simp [hF], List.append_nil] at h
      exact rank_index m i f h

/-- The checks succeed. -/
def AcceptsD (auto : Bool) (di dout : Dims) : Prop :=
  di.count ≠ 0 ∧ dout.count ≠ 0 ∧ (dout = di ∨ auto = true)

theorem checkDims_ok {auto : Bool} {di dout : Dims} (h : AcceptsD auto di dout) :
    checkDims auto di dout = .ok () := by
  obtain ⟨h1, h2, h3⟩ := h
  unfold checkDims
  rw [if_neg (by tauto)]
  rcases h3 with h3 | h3
  · rw [if_pos h3]
  · split
    · rfl
    · simp [h3]

/-- What a run of the propagation computes, at the level of images. -/
theorem labRun_img {M : Nat} {link : Px t → Px t → Bool} {se : StrElt} {im : Img (Px t)}
    (hl : ∀ a b, link a b = true → link b a = true) (hN : ∀ p q, seRel se p q → seRel se q p)
    (hM : 2 ≤ M) :
    ∃ s reps, labRun (labCfg M link se im) = some s ∧
      IsReps (seRel se) (fun a b => link a b = true) (· ≠ Px.zero) im reps ∧ s.real = reps.length ∧
      (∀ i p q, reps[i]? = some p → LinkPath (seRel se) (fun a b => link a b = true) im p q →
        (⟨im.dims, s.out⟩ : Img Nat).at? q = some (i % (M - 1) + 1)) ∧
      ∀ q, Img.In im.dims q →
        (∀ p ∈ reps, ¬ LinkPath (seRel se) (fun a b => link a b = true) im p q) →
        (⟨im.dims, s.out⟩ : Img Nat).at? q = some 0 := by
  classical
  have hll : (fun a b => link a b = true) = (fun a b => link b a = true) := by
    funext a b; exact propext ⟨hl a b, hl b a⟩
  rw [hll]
  have hl' : ∀ a b, (fun a b => link b a = true) a b → (fun a b => link b a = true) b a :=
    fun a b h => hl _ _ h
  generalize hC : labCfg M link se im = C
  have hn : C.n = im.dims.count := by rw [← hC]
  have htop : C.top = M := by rw [← hC]
  have hkeep : ∀ i, C.keep i = true ↔ im.buf i ≠ Px.zero := by
    intro i; rw [← hC]; simp
  have toP : ∀ {i j}, i < im.dims.count → ReflTransGen C.R i j → j < im.dims.count ∧
      LinkPath (seRel se) (fun a b => link b a = true) im (coordPt im.dims i) (coordPt im.dims j) := by
    intro i j hi h; rw [← hC] at h; exact linkPath_of_reach hi h
  have ofP : ∀ {p q}, LinkPath (seRel se) (fun a b => link b a = true) im p q →
      ReflTransGen C.R (offOf im.dims p) (offOf im.dims q) := by
    intro p q h; rw [← hC]; exact reach_of_linkPath h
  have hnb : ∀ i < C.n, ∀ j ∈ C.nbs i, j < C.n := by
    rw [← hC]; exact fun i hi j hj => nbOffsets_lt hi hj
  have hsym : ∀ i < C.n, ∀ j, ReflTransGen C.R i j → ReflTransGen C.R j i := by
    intro i hi j h
    rw [hn] at hi
    obtain ⟨hj, hp⟩ := toP hi h
    have := ofP (hp.symm hN hl')
    rwa [(coordPt_in hi).2, (coordPt_in hj).2] at this
  obtain ⟨s, hs, hout⟩ := labRun_spec hnb hsym
  have hmem : ∀ {f}, f ∈ ((List.range C.n).filter fun f =>
      @decide (C.First f) (Classical.propDecidable _)) ↔ f < im.dims.count ∧ C.First f := by
    intro f; rw [List.mem_filter, List.mem_range, hn]; simp
  have hall : ∀ j, j < im.dims.count → im.buf j ≠ Px.zero → ∃ f, f < im.dims.count ∧ C.First f ∧
      ReflTransGen C.R f j := by
    intro j hj hk
    obtain ⟨f, hf, hr, hmin⟩ := LabCfg.exists_first (C := C) (i := j) ⟨j, (hkeep j).mpr hk, .refl⟩
    exact ⟨f, lt_of_le_of_lt (hmin j ((hkeep j).mpr hk) .refl) hj, hf, hr⟩
  refine ⟨s, ((List.range C.n).filter fun f =>
    @decide (C.First f) (Classical.propDecidable _)).map (coordPt im.dims), hs, ⟨?_, ?_, ?_, ?_⟩, ?_,
    ?_, ?_⟩
  · intro p hp
    obtain ⟨f, hf, rfl⟩ := List.mem_map.mp hp
    obtain ⟨hf1, hf2⟩ := hmem.mp hf
    refine ⟨im.buf f, ?_, (hkeep f).mp hf2.1⟩
    rw [Img.buf_offOf _ _ (coordPt_in hf1).1, (coordPt_in hf1).2]
  · intro p hp q a hq ha hpq
    obtain ⟨f, hf, rfl⟩ := List.mem_map.mp hp
    obtain ⟨hf1, hf2⟩ := hmem.mp hf
    have hqin := Img.at?_eq_some_in _ _ _ hq
    rw [Img.buf_offOf _ _ hqin] at hq; cases hq
    have hr := ofP hpq
    rw [(coordPt_in hf1).2] at hr ⊢
    by_contra hlt
    exact hf2.2 _ (by omega) ((hkeep _).mpr ha) (hsym f (hn ▸ hf1) _ hr)
  · have hp : ((List.range C.n).filter fun f =>
        @decide (C.First f) (Classical.propDecidable _)).Pairwise (· < ·) :=
      List.Pairwise.filter _ List.pairwise_lt_range
    refine List.pairwise_map.mpr (hp.imp_of_mem ?_)
    intro f g hf hg hlt
    obtain ⟨hf1, hf2⟩ := hmem.mp hf
    obtain ⟨hg1, hg2⟩ := hmem.mp hg
    rw [(coordPt_in hf1).2, (coordPt_in hg1).2]
    refine ⟨hlt, fun hr => ?_⟩
    have := ofP hr
    rw [(coordPt_in hf1).2, (coordPt_in hg1).2] at this
    exact hg2.2 f hlt hf2.1 this
  · intro q a hq ha
    have hqin := Img.at?_eq_some_in _ _ _ hq
    rw [Img.buf_offOf _ _ hqin] at hq; cases hq
    obtain ⟨f, hf1, hf2, hr⟩ := hall _ (offOf_lt hqin) ha
    refine ⟨coordPt im.dims f, List.mem_map_of_mem (hmem.mpr ⟨hf1, hf2⟩), ?_⟩
    have := (toP hf1 hr).2
    rwa [coordPt_offOf hqin] at this
  · rw [hout.real, List.length_map]; rfl
  · intro i p q hi hpq
    rw [List.getElem?_map, Option.map_eq_some_iff] at hi
    obtain ⟨f, hf, rfl⟩ := hi
    have hrank := LabCfg.rank_index _ _ _ hf
    obtain ⟨hf1, hf2⟩ := hmem.mp (List.mem_of_getElem? hf)
    have hr := ofP hpq
    rw [(coordPt_in hf1).2] at hr
    have := hout.hit f (hn ▸ hf1) hf2 _ hr
    rw [Img.buf_offOf ⟨im.dims, s.out⟩ q hpq.in.2]
    simp only [this, hrank, htop, labNo_eq M hM]
  · intro q hq h
    rw [Img.buf_offOf ⟨im.dims, s.out⟩ q hq]
    refine congrArg some (hout.miss _ fun f hf hff hr => ?_)
    rw [hn] at hf
    refine h (coordPt im.dims f) (List.mem_map_of_mem (hmem.mpr ⟨hf, hff⟩)) ?_
    have := (toP hf hr).2
    rwa [coordPt_offOf hq] at this

/-! ## The theorems -/

theorem px_eq_symm : ∀ a b : Px t, (decide (a = b)) = true → (decide (b = a)) = true := by
  intro a b h; simp only [decide_eq_true_eq] at h ⊢; exact h.symm

theorem linkPath_decide {N : IntPoint → IntPoint → Prop} {im : Img (Px t)} {p q : IntPoint} :
    LinkPath N (fun a b => decide (a = b) = true) im p q ↔ FlatPath N im p q := by
  have : (fun a b : Px t => decide (a = b) = true) = (· = ·) := by funext a b; simp
  rw [this]

/-- Two listed first pixels are linked only if they are the same. -/
theorem IsReps.inj {N : IntPoint → IntPoint → Prop} {link : α → α → Prop} {keep : α → Prop}
    {im : Img α} {reps : List IntPoint} (h : IsReps N link keep im reps)
    (hs : ∀ p q, LinkPath N link im p q → LinkPath N link im q p) {i j : Nat} {p q : IntPoint}
    (hi : reps[i]? = some p) (hj : reps[j]? = some q) (hpq : LinkPath N link im p q) : i = j := by
  obtain ⟨hi', rfl⟩ := List.getElem?_eq_some_iff.mp hi
  obtain ⟨hj', rfl⟩ := List.getElem?_eq_some_iff.mp hj
  rcases Nat.lt_trichotomy i j with hl | hl | hl
  · exact absurd hpq ((List.pairwise_iff_getElem.mp h.apart) i j hi' hj' hl).2
  · exact hl
  · exact absurd (hs _ _ hpq) ((List.pairwise_iff_getElem.mp h.apart) j i hj' hi' hl).2

/-- `out` labels the components of the pixels satisfying `keep`: nothing outside, the same label
exactly on linked pixels, the labels `1..n`, numbered in the order of the first pixels. -/
structure IsLabelling (N : IntPoint → IntPoint → Prop) (link : α → α → Prop) (keep : α → Prop)
    (im : Img α) (n : Nat) (out : Img Nat) : Prop where
  zero : ∀ p, Img.In im.dims p → (out.at? p = some 0 ↔
    ¬ ∃ q a, im.at? q = some a ∧ keep a ∧ LinkPath N link im q p)
  same : ∀ p q k l, out.at? p = some k → out.at? q = some l → k ≠ 0 →
    (k = l ↔ LinkPath N link im p q)
  labels : ∀ k, (1 ≤ k ∧ k ≤ n) ↔ (k ≠ 0 ∧ ∃ p, out.at? p = some k)
  order : ∀ p q k l, out.at? p = some k → out.at? q = some l → k ≠ 0 → k < l →
    ∃ p' a, im.at? p' = some a ∧ keep a ∧ LinkPath N link im p p' ∧
      ∀ q' b, im.at? q' = some b → keep b → LinkPath N link im q q' →
        offOf im.dims p' < offOf im.dims q'

/-- From the numbering of the first pixels to the specification. -/
theorem isLabelling_of_reps {N : IntPoint → IntPoint → Prop} {link : α → α → Prop}
    {keep : α → Prop} {im : Img α} {reps : List IntPoint} {out : Img Nat} {M : Nat}
    (hd : out.dims = im.dims)
    (hs : ∀ p q, LinkPath N link im p q → LinkPath N link im q p)
    (h : IsReps N link keep im reps) (hn : reps.length < M)
    (hit : ∀ i p q, reps[i]? = some p → LinkPath N link im p q →
      out.at? q = some (i % (M - 1) + 1))
    (miss : ∀ q, Img.In im.dims q → (∀ p ∈ reps, ¬ LinkPath N link im p q) → out.at? q = some 0) :
    IsLabelling N link keep im reps.length out := by
  have hit' : ∀ i p q, reps[i]? = some p → LinkPath N link im p q → out.at? q = some (i + 1) := by
    intro i p q hi hpq
    obtain ⟨hi', _⟩ := List.getElem?_eq_some_iff.mp hi
    rw [hit i p q hi hpq, Nat.mod_eq_of_lt (by omega)]
  have cases : ∀ q k, out.at? q = some k → k ≠ 0 → ∃ i p, reps[i]? = some p ∧ k = i + 1 ∧
      LinkPath N link im p q := by
    intro q k hq hk
    by_cases hex : ∃ p ∈ reps, LinkPath N link im p q
    · obtain ⟨p, hp, hpq⟩ := hex
      obtain ⟨i, hi⟩ := List.mem_iff_getElem?.mp hp
      refine ⟨i, p, hi, ?_, hpq⟩
      rw [hit' i p q hi hpq] at hq
      cases hq; rfl
    · push Not at hex
      rw [miss q (hd ▸ Img.at?_eq_some_in _ _ _ hq) hex] at hq
      cases hq; exact absurd rfl hk
  constructor
  · intro p hp
    constructor
    · rintro h0 ⟨q, a, hq, ha, hqp⟩
      obtain ⟨r, hr, hrq⟩ := h.all q a hq ha
      obtain ⟨i, hi⟩ := List.mem_iff_getElem?.mp hr
      rw [hit' i r p hi (hrq.trans hqp)] at h0
      cases h0
    · intro hno
      refine miss p hp fun r hr hrp => hno ?_
      obtain ⟨a, ha, hk⟩ := h.kept r hr
      exact ⟨r, a, ha, hk, hrp⟩
  · intro p q k l hp hq hk
    obtain ⟨i, r, hi, rfl, hrp⟩ := cases p k hp hk
    constructor
    · rintro rfl
      obtain ⟨j, r', hj, e, hrq⟩ := cases q _ hq hk
      obtain rfl : i = j := by omega
      rw [hi] at hj; cases hj
      exact (hs _ _ hrp).trans hrq
    · intro hpq
      rw [hit' i r q hi (hrp.trans hpq)] at hq
      cases hq; rfl
  · intro k
    constructor
    · rintro ⟨h1, h2⟩
      refine ⟨by omega, ?_⟩
      obtain ⟨p, hp⟩ : ∃ p, reps[k - 1]? = some p := ⟨_, List.getElem?_eq_getElem (by omega)⟩
      obtain ⟨a, ha, _⟩ := h.kept p (List.mem_of_getElem? hp)
      exact ⟨p, by rw [hit' _ p p hp (.refl (Img.at?_eq_some_in _ _ _ ha))]; congr 1; omega⟩
    · rintro ⟨h0, p, hp⟩
      obtain ⟨i, r, hi, rfl, _⟩ := cases p k hp h0
      obtain ⟨hi', _⟩ := List.getElem?_eq_some_iff.mp hi
      omega
  · intro p q k l hp hq hk hlt
    obtain ⟨i, r, hi, rfl, hrp⟩ := cases p k hp hk
    obtain ⟨j, r', hj, rfl, hrq⟩ := cases q l hq (by omega)
    obtain ⟨a, ha, hka⟩ := h.kept r (List.mem_of_getElem? hi)
    refine ⟨r, a, ha, hka, hs _ _ hrp, fun q' b hq' hb hl => ?_⟩
    have h1 := h.first r' (List.mem_of_getElem? hj) q' b hq' hb (hrq.trans hl)
    obtain ⟨hi', rfl⟩ := List.getElem?_eq_some_iff.mp hi
    obtain ⟨hj', rfl⟩ := List.getElem?_eq_some_iff.mp hj
    have h2 := ((List.pairwise_iff_getElem.mp h.apart) i j hi' hj' (by omega)).1
    omega

/-- The propagation with any symmetric comparison. -/
theorem labelExec_spec {auto : Bool} {M : Nat} {link : Px t → Px t → Bool} {se : StrElt}
    {im : Img (Px t)} {dout : Dims} (hl : ∀ a b, link a b = true → link b a = true)
    (hN : ∀ p q, seRel (execSe se) p q → seRel (execSe se) q p) (hM : 2 ≤ M)
    (h : AcceptsD auto im.dims dout) :
    ∃ reps out, labelExec auto M link se im dout = some (.ok (reps.length, out)) ∧
      out.dims = im.dims ∧
      IsReps (seRel (execSe se)) (fun a b => link a b = true) (· ≠ Px.zero) im reps ∧
      (∀ i p q, reps[i]? = some p →
        LinkPath (seRel (execSe se)) (fun a b => link a b = true) im p q →
        out.at? q = some (i % (M - 1) + 1)) ∧
      ∀ q, Img.In im.dims q →
        (∀ p ∈ reps, ¬ LinkPath (seRel (execSe se)) (fun a b => link a b = true) im p q) →
        out.at? q = some 0 := by
  obtain ⟨s, reps, h1, h2, h3, h4, h5⟩ := labRun_img (M := M) (im := im) hl hN hM
  refine ⟨reps, ⟨im.dims, s.out⟩, ?_, rfl, h2, h4, h5⟩
  unfold labelExec
  rw [checkDims_ok h]
  simp only
  rw [h1, ← h3]; rfl

/-- **C39**: `label` returns the number `n` of components of equal non-zero value and, when it is below
the maximum `M` of the label type, the labelling: zero exactly on the zero pixels, equal labels exactly
on pixels joined by a path of equal values, labels `1..n` in the raster order of the first pixels. -/
theorem C39_label (auto : Bool) (M : Nat) (dflt se : StrElt) (im : Img (Px t)) (dout : Dims)
    (hN : ∀ p q, seRel (execSe se) p q → seRel (execSe se) q p) (hM : 2 ≤ M)
    (h : AcceptsD auto im.dims dout) :
    ∃ n out, label auto M false dflt se im dout = some (.ok (n, out)) ∧ out.dims = im.dims ∧
      (∃ reps, IsReps (seRel (execSe se)) (· = ·) (· ≠ Px.zero) im reps ∧ reps.length = n) ∧
      (∀ p a k, im.at? p = some a → out.at? p = some k → (k = 0 ↔ a = Px.zero)) ∧
      (n < M → IsLabelling (seRel (execSe se)) (· = ·) (· ≠ Px.zero) im n out) := by
  obtain ⟨reps, out, h1, h2, h3, h4, h5⟩ := labelExec_spec (M := M) (im := im)
    (link := fun a b => decide (a = b)) px_eq_symm hN hM h
  have e : (fun a b : Px t => decide (a = b) = true) = (· = ·) := by funext a b; simp
  rw [e] at h3
  simp only [linkPath_decide] at h4 h5
  refine ⟨reps.length, out, h1, h2, ⟨reps, h3, rfl⟩, ?_, fun hn => ?_⟩
  · intro p a k hp hk
    constructor
    · rintro rfl
      by_contra ha
      obtain ⟨r, hr, hrp⟩ := h3.all p a hp ha
      obtain ⟨i, hi⟩ := List.mem_iff_getElem?.mp hr
      rw [h4 i r p hi hrp] at hk; cases hk
    · rintro rfl
      rw [h5 p (Img.at?_eq_some_in _ _ _ hp) ?_] at hk
      · cases hk; rfl
      · intro r hr hrp
        obtain ⟨a, ha, hka⟩ := h3.kept r hr
        rw [FlatPath.val hrp, hp] at ha
        cases ha; exact hka rfl
  · exact isLabelling_of_reps h2 (fun p q hpq => hpq.symm hN fun _ _ h => h.symm) h3 hn h4 h5

/-- **C39**, labels that do not fit: the component number `i` (from zero) always gets
`i % (M - 1) + 1`, where `M` is the maximum of the label type. -/
theorem C39_wrap (auto : Bool) (M : Nat) (dflt se : StrElt) (im : Img (Px t)) (dout : Dims)
    (hN : ∀ p q, seRel (execSe se) p q → seRel (execSe se) q p) (hM : 2 ≤ M)
    (h : AcceptsD auto im.dims dout) :
    ∃ reps out, label auto M false dflt se im dout = some (.ok (reps.length, out)) ∧
      IsReps (seRel (execSe se)) (· = ·) (· ≠ Px.zero) im reps ∧
      ∀ i p q, reps[i]? = some p → FlatPath (seRel (execSe se)) im p q →
        out.at? q = some (i % (M - 1) + 1) := by
  obtain ⟨reps, out, h1, h2, h3, h4, h5⟩ := labelExec_spec (M := M) (im := im)
    (link := fun a b => decide (a = b)) px_eq_symm hN hM h
  have e : (fun a b : Px t => decide (a = b) = true) = (· = ·) := by funext a b; simp
  rw [e] at h3
  simp only [linkPath_decide] at h4
  exact ⟨reps, out, h1, h3, h4⟩

/-- **C39 fails silently** when the number of components reaches the maximum of the label type (no
message is printed for exactly the maximum, DMorphoLabel.hpp:552): two separate components carry the
label 1. -/
theorem C39_overflow_bug (auto : Bool) (M : Nat) (dflt se : StrElt) (im : Img (Px t)) (dout : Dims)
    (hN : ∀ p q, seRel (execSe se) p q → seRel (execSe se) q p) (hM : 2 ≤ M)
    (h : AcceptsD auto im.dims dout) (n : Nat) (out : Img Nat)
    (hr : label auto M false dflt se im dout = some (.ok (n, out))) (hn : M ≤ n) :
    ∃ p q, out.at? p = some 1 ∧ out.at? q = some 1 ∧ ¬ FlatPath (seRel (execSe se)) im p q := by
  obtain ⟨reps, out', h1, h2, h3⟩ := C39_wrap auto M dflt se im dout hN hM h
  rw [hr] at h1
  cases h1
  have hp : reps[0]? = some reps[0] := List.getElem?_eq_getElem (by omega)
  have hq : reps[M - 1]? = some reps[M - 1] := List.getElem?_eq_getElem (by omega)
  obtain ⟨a, ha, _⟩ := h2.kept _ (List.mem_of_getElem? hp)
  obtain ⟨b, hb, _⟩ := h2.kept _ (List.mem_of_getElem? hq)
  refine ⟨reps[0], reps[M - 1], ?_, ?_, ?_⟩
  · rw [h3 0 _ _ hp (.refl (Img.at?_eq_some_in _ _ _ ha))]; simp
  · rw [h3 _ _ _ hq (.refl (Img.at?_eq_some_in _ _ _ hb))]; simp
  · intro hpath
    have := h2.inj (fun p q hpq => LinkPath.symm hN (fun _ _ h => h.symm) hpq) hp hq hpath
    omega

/-- **C39**, lambda-flat zones: with `lambdaLabel` pixels are linked by steps of at most `lam`. -/
theorem C39_lambdaLabel (auto : Bool) (M : Nat) (lam : Px t) (se : StrElt) (im : Img (Px t))
    (dout : Dims) (hN : ∀ p q, seRel (execSe se) p q → seRel (execSe se) q p) (hM : 2 ≤ M)
    (h : AcceptsD auto im.dims dout) :
    ∃ n out, lambdaLabel auto M lam se im dout = some (.ok (n, out)) ∧ out.dims = im.dims ∧
      (n < M → IsLabelling (seRel (execSe se)) (fun a b : Px t => |a.val - b.val| ≤ lam.val)
        (· ≠ Px.zero) im n out) := by
  have e : ∀ a b : Px t, lambdaCmp lam a b = true ↔ |a.val - b.val| ≤ lam.val := by
    intro a b
    unfold lambdaCmp
    split <;> rw [decide_eq_true_eq]
    · rw [abs_of_nonneg (by omega)]
    · rw [abs_of_nonpos (by omega)]; omega
  obtain ⟨reps, out, h1, h2, h3, h4, h5⟩ := labelExec_spec (M := M) (im := im)
    (link := lambdaCmp lam) (fun a b hab => by rw [e] at hab ⊢; rwa [abs_sub_comm]) hN hM h
  simp only [e] at h3 h4 h5
  refine ⟨reps.length, out, h1, h2, fun hn => ?_⟩
  exact isLabelling_of_reps h2 (fun p q hpq => hpq.symm hN fun a b h => by
    rwa [abs_sub_comm]) h3 hn h4 h5

/-- Rejected images: the return value is an error code converted to `size_t`, not the documented
zero. -/
theorem C39_error_code_bug (im : Img (Px t)) (dout : Dims) (M : Nat) (dflt se : StrElt)
    (h : AcceptsD true im.dims dout) (hne : dout ≠ im.dims) :
    (label false M false dflt se im dout).map labelRet = some (2 ^ 64 - 98) := by
  obtain ⟨h1, h2, _⟩ := h
  unfold label labelExec checkDims
  rw [if_neg (by tauto), if_neg hne]
  rfl

/-- The element without its origin links the same pixels. -/
theorem seRel_noCenter {se : StrElt} {p q : IntPoint} (h : p ≠ q) :
    seRel se.noCenter p q ↔ seRel se p q := by
  have ho : se.noCenter.odd = se.odd := addPoints_odd _ _
  unfold seRel
  rw [ho]
  constructor
  · rintro ⟨b, hb, e⟩
    unfold noCenter at hb
    rw [mem_addPoints] at hb
    rcases hb with hb | hb
    · simp at hb
    · exact ⟨b, (List.mem_filter.mp hb).1, e⟩
  · rintro ⟨b, hb, e⟩
    refine ⟨b, ?_, e⟩
    unfold noCenter
    rw [mem_addPoints]
    right
    rw [List.mem_filter]
    refine ⟨hb, ?_⟩
    by_contra hz
    simp at hz
    apply h
    apply phys_inj se.odd
    rw [← e]
    obtain ⟨x, y, z⟩ := b
    simp only at hz
    obtain ⟨⟨rfl, rfl⟩, rfl⟩ := hz
    simp [phys]

theorem LinkPath.of_offdiag {N N' : IntPoint → IntPoint → Prop} {link : α → α → Prop} {im : Img α}
    (hN : ∀ p q, p ≠ q → N p q → N' p q) {p q : IntPoint} (h : LinkPath N link im p q) :
    LinkPath N' link im p q := by
  induction h with
  | refl h => exact .refl h
  | @step q r a b _ h1 ha hb hab ih =>
    by_cases e : q = r
    · exact e ▸ ih
    · exact .step ih (hN _ _ e h1) ha hb hab

theorem linkPath_noCenter {se : StrElt} {link : α → α → Prop} {im : Img α} :
    LinkPath (seRel se.noCenter) link im = LinkPath (seRel se) link im := by
  funext p q
  exact propext ⟨LinkPath.of_offdiag fun _ _ h => (seRel_noCenter h).mp,
    LinkPath.of_offdiag fun _ _ h => (seRel_noCenter h).mpr⟩

/-- **C39**, `labelWithoutFunctor` computes the same labelling for elements with at least one point
apart from the origin, up to one label less (`M - 1` instead of `M`). The size of the element is
ignored. -/
theorem C39_withoutFunctor (auto : Bool) (M : Nat) (se : StrElt) (im : Img (Px t)) (dout : Dims)
    (hN : ∀ p q, seRel se p q → seRel se q p) (hM : 3 ≤ M) (hse : se.noCenter.points ≠ [])
    (h : AcceptsD auto im.dims dout) :
    ∃ n out, labelWithoutFunctor auto M se im dout = some (.ok (n, out)) ∧
      (∃ reps, IsReps (seRel se) (· = ·) (· ≠ Px.zero) im reps ∧ reps.length = n) ∧
      (n < M - 1 → IsLabelling (seRel se) (· = ·) (· ≠ Px.zero) im n out) := by
  have hN' : ∀ p q, seRel se.noCenter p q → seRel se.noCenter q p := by
    intro p q hpq
    by_cases e : p = q
    · subst e; exact hpq
    · rw [seRel_noCenter (Ne.symm e)]
      exact hN _ _ ((seRel_noCenter e).mp hpq)
  obtain ⟨s, reps, h1, h2, h3, h4, h5⟩ := labRun_img (M := M - 1) (im := im)
    (link := fun a b => decide (a = b)) (se := se.noCenter) px_eq_symm hN' (by omega)
  have e : (fun a b : Px t => decide (a = b) = true) = (· = ·) := by funext a b; simp
  rw [e] at h2
  simp only [linkPath_decide] at h4 h5
  have h2' : IsReps (seRel se) (· = ·) (· ≠ Px.zero) im reps :=
    ⟨h2.kept, by simpa only [linkPath_noCenter] using h2.first,
      by simpa only [linkPath_noCenter] using h2.apart,
      by simpa only [linkPath_noCenter] using h2.all⟩
  rw [FlatPath, linkPath_noCenter] at h4 h5
  refine ⟨s.real, ⟨im.dims, s.out⟩, ?_, ⟨reps, h2', h3.symm⟩, fun hn => ?_⟩
  · unfold labelWithoutFunctor
    rw [checkDims_ok h]
    simp only
    rw [if_neg hse, h1]; rfl
  · rw [h3] at hn ⊢
    exact isLabelling_of_reps rfl (fun p q hpq => LinkPath.symm hN (fun _ _ h => h.symm) hpq) h2' hn
      h4 h5

/-! ### Failures outside of the hypotheses, and examples -/

/-- Number and labels of a result. -/
def labs : Option (Except Int (Nat × Img Nat)) → Option (Nat × List Nat)
  | some (.ok (n, r)) => some (n, (List.range r.dims.count).map r.buf)
  | _ => none

/-- **C39 needs symmetry**: with the element {(-1, 0)} the two equal pixels are counted twice and no
pixel has the label 1. -/
theorem C39_asymmetric_bug :
    labs (label false 255 false (SquSE 1) ⟨false, .generic, 1, [⟨-1, 0, 0⟩]⟩
      (im8 ⟨2, 1, 1⟩ [7, 7]) ⟨2, 1, 1⟩) = some (2, [2, 2]) := by decide +kernel

/-- **C39 fails in place**: the element is replaced by the default one; with a horizontal segment the two
lines are two components, in place they are one. -/
theorem C39_inplace_bug :
    labs (label false 255 false (SquSE 1) (HorizSE 1) (im8 ⟨2, 2, 1⟩ [1, 1, 1, 1]) ⟨2, 2, 1⟩) =
      some (2, [1, 1, 2, 2]) ∧
    labs (label false 255 true (SquSE 1) (HorizSE 1) (im8 ⟨2, 2, 1⟩ [1, 1, 1, 1]) ⟨2, 2, 1⟩) =
      some (1, [1, 1, 1, 1]) := by decide +kernel

/-- `lambdaLabel` labels zero pixels that a component reaches. -/
theorem C39_lambda_zero_bug :
    labs (lambdaLabel false 255 (UINT8.wrap 1) (SquSE 1) (im8 ⟨3, 1, 1⟩ [0, 1, 0]) ⟨3, 1, 1⟩) =
      some (1, [1, 1, 1]) := by decide +kernel

/-- `labelWithoutFunctor` with an element reduced to its origin finds nothing at all. -/
theorem C39_origin_bug :
    labs (labelWithoutFunctor false 255 ⟨false, .generic, 1, [⟨0, 0, 0⟩]⟩
      (im8 ⟨2, 1, 1⟩ [7, 7]) ⟨2, 1, 1⟩) = some (0, [0, 0]) ∧
    labs (label false 255 false (SquSE 1) ⟨false, .generic, 1, [⟨0, 0, 0⟩]⟩
      (im8 ⟨2, 1, 1⟩ [7, 7]) ⟨2, 1, 1⟩) = some (2, [1, 2]) := by decide +kernel

/-- The usual elements are symmetric. -/
theorem seRel_symm_Squ : ∀ p q, seRel (execSe (SquSE 1)) p q → seRel (execSe (SquSE 1)) q p :=
  seRel_symm (by decide)

theorem seRel_symm_Hex : ∀ p q, seRel (execSe (HexSE 1)) p q → seRel (execSe (HexSE 1)) q p :=
  seRel_symm (by decide)

/-- C39: an accepted image with three components, two of the same value. -/
example : AcceptsD false (im8 ⟨4, 2, 1⟩ [7, 0, 0, 7, 7, 9, 0, 7]).dims ⟨4, 2, 1⟩ ∧
    labs (label false 255 false (SquSE 1) (HexSE 1) (im8 ⟨4, 2, 1⟩ [7, 0, 0, 7, 7, 9, 0, 7])
      ⟨4, 2, 1⟩) = some (3, [1, 0, 0, 2, 1, 3, 0, 2]) ∧ 3 < 255 := by
  refine ⟨⟨by decide, by decide, Or.inl rfl⟩, by decide +kernel, by decide⟩

/-- C39, overflow: with a label type of maximum 3 the third component gets the label 1 again. -/
example : labs (label false 3 false (SquSE 1) (SquSE 1) (im8 ⟨5, 1, 1⟩ [1, 0, 1, 0, 1])
      ⟨5, 1, 1⟩) = some (3, [1, 0, 2, 0, 1]) := by decide +kernel

/-- C39, `lambdaLabel` and `labelWithoutFunctor` on accepted images. -/
example : labs (lambdaLabel false 255 (UINT8.wrap 2) (SquSE 1) (im8 ⟨5, 1, 1⟩ [5, 7, 9, 20, 3])
      ⟨5, 1, 1⟩) = some (3, [1, 1, 1, 2, 3]) ∧
    (SquSE 1).noCenter.points ≠ [] ∧
    labs (labelWithoutFunctor false 255 (SquSE 1) (im8 ⟨4, 1, 1⟩ [5, 5, 0, 6]) ⟨4, 1, 1⟩) =
      some (2, [1, 1, 0, 2]) := by decide +kernel

/-- C39, rejected sizes. -/
example : AcceptsD true (im8 ⟨2, 1, 1⟩ [1, 1]).dims ⟨1, 1, 1⟩ ∧
    (⟨1, 1, 1⟩ : Dims) ≠ (im8 ⟨2, 1, 1⟩ [1, 1]).dims :=
  ⟨⟨by decide, by decide, Or.inr rfl⟩, by decide⟩

end Smil
