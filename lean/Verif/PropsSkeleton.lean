import Verif.SkeletonLemmas

/-!
# C70: skeletons
-/

namespace Smil
variable {t s : PT}
open StrElt

/-- **C70**: on a binary image (hexagonal grid, one slice) `skiz` ends; its result is a binary image, drawn off the objects, and divides the
image in zones of influence: every pixel off the skiz is connected off the skiz to an object, and two object pixels are connected off the
skiz only if they are connected in the object, so that there is exactly one zone for each connected object. The components of the background
are those of the skiz: none is lost, created, split or merged. In the image no line of the skiz has an end. -/
theorem C70_skiz (E : Env (Px t)) (hs : t.signed = false ∨ t.bits ≤ 16) (hn : (⊥ : Px t) ≠ ⊤) (im out : Img (Px t))
    (h : Accepts E im out) (hd : im.dims.d ≤ 1) (hbin : BinImg im) (fuel : Nat)
    (hfuel : (im.dims.count * (t.hi - t.lo)).toNat + 1 ≤ fuel) :
    ∃ r, skiz E fuel im out = some (.ok r) ∧ r.dims = im.dims ∧ BinImg r ∧
      (∀ p, r.at? p = some ⊤ → im.at? p = some ⊥) ∧
      (∀ p, r.at? p = some ⊥ → ∃ q, im.at? q = some ⊤ ∧ ConnIn HexAdj {x | r.at? x = some ⊥} p q) ∧
      (∀ p q, im.at? p = some ⊤ → im.at? q = some ⊤ → ConnIn HexAdj {x | r.at? x = some ⊥} p q →
        ConnIn HexAdj {x | im.at? x = some ⊤} p q) ∧
      (∀ p, im.at? p = some ⊥ → ∃ q, r.at? q = some ⊤ ∧ ConnIn HexAdj {x | im.at? x = some ⊥} p q) ∧
      (∀ p q, r.at? p = some ⊤ → r.at? q = some ⊤ → ConnIn HexAdj {x | im.at? x = some ⊥} p q →
        ConnIn HexAdj {x | r.at? x = some ⊤} p q) ∧
      (∀ p q, r.at? p = some ⊤ → (∀ x, HexAdj p x → Img.In im.dims x) → HexAdj p q → r.at? q = some ⊤ →
        ∃ q', q' ≠ q ∧ HexAdj p q' ∧ r.at? q' = some ⊤) := by
  obtain ⟨o, ho, hod⟩ := checkSize_ok E im out h
  obtain ⟨cl, hcl, hL, hLok⟩ := hmtL_some
  obtain ⟨cm, hcm, hM, hMall, hMok⟩ := hmtM_some
  have hw : 1 ≤ im.dims.w := by
    have := h.1
    rcases Nat.eq_zero_or_pos im.dims.w with h0 | h0
    · simp [Img.alloc, Dims.count, h0] at this
    · exact h0
  have hmono : ∀ se : StrElt, ShiftOK 1 se → ShiftOK im.dims.w se := by
    intro se hse b hb
    have := hse b hb
    constructor
    · have := this.1; push_cast at this; omega
    · have := this.2; push_cast at this; omega
  have mk : ∀ (D : Dims), D = im.dims → ∀ c : CompStrElt, (c.fg.points ≠ [] ∧ c.bg.points ≠ [] ∧ c.fg.seT = .generic ∧ c.bg.seT = .generic ∧
      c.fg.size = 1 ∧ c.bg.size = 1 ∧ ShiftOK 1 c.fg.transpose ∧ ShiftOK 1 c.bg.transpose) → HmtOK D c.fg ∧ HmtOK D c.bg := by
    rintro D rfl c ⟨h1, h2, h3, h4, h5, h6, h7, h8⟩
    exact ⟨⟨h1, h3, h5, hmono _ h7, fun _ => hd⟩, ⟨h2, h4, h6, hmono _ h8, fun _ => hd⟩⟩
  obtain ⟨o1, ho1, hmap⟩ := invImg_ok E hs im o (accepts_of_dims E h.1 hod)
  have hd1 : o1.dims = im.dims := hmap.1
  have hb1 : BinImg o1 := by
    intro p u hu
    rw [isMap_at? hmap] at hu
    obtain ⟨w, hw, rfl⟩ := Option.map_eq_some_iff.mp hu
    rcases hbin p w hw with rfl | rfl
    · exact Or.inr Px.compl_bot
    · exact Or.inl Px.compl_top
  have hset : ∀ p, o1.at? p = some ⊤ ↔ im.at? p = some ⊥ := by
    intro p
    rw [isMap_at? hmap]
    constructor
    · intro hu
      obtain ⟨w, hw, he⟩ := Option.map_eq_some_iff.mp hu
      rcases hbin p w hw with rfl | rfl
      · exact hw
      · rw [Px.compl_top] at he; exact absurd he hn
    · intro hu; rw [hu]; simp [Px.compl_bot]
  have hset' : ∀ p, o1.at? p = some ⊥ ↔ im.at? p = some ⊤ := by
    intro p
    rw [isMap_at? hmap]
    constructor
    · intro hu
      obtain ⟨w, hw, he⟩ := Option.map_eq_some_iff.mp hu
      rcases hbin p w hw with rfl | rfl
      · rw [Px.compl_bot] at he; exact absurd he.symm hn
      · exact hw
    · intro hu; rw [hu]; simp [Px.compl_top]
  obtain ⟨tmp, htmp, hst, -⟩ := C52_fullThin_partial E hs cl o1 ⟨im.dims, E.raw⟩
    (accepts_of_dims E (alloc_of_dims hd1 h.1) hd1.symm) (fun c hc => mk _ hd1 c (hLok c hc)) fuel (by unfold thinFuel; rw [hd1]; exact hfuel)
  obtain ⟨hbt, hdt, hht⟩ := steps_homotopic hn hst (fun c hc => (hL c hc).imp fun ab hab => ⟨hab.1, Or.inl hab.2⟩) hb1
  have hdt' : tmp.dims = im.dims := hdt.trans hd1
  obtain ⟨r, hr, hst', hfix⟩ := C52_fullThin_partial E hs cm tmp o1
    (accepts_of_dims E (alloc_of_dims hdt' h.1) (hd1.trans hdt'.symm)) (fun c hc => mk _ hdt' c (hMok c hc)) fuel
    (by unfold thinFuel; rw [hdt']; exact hfuel)
  obtain ⟨hbr, hdr, hhr⟩ := steps_homotopic hn hst' (fun c hc => (hM c hc).imp fun ab hab => ⟨hab.1, Or.inr hab.2⟩) hbt
  have hdr' : r.dims = im.dims := hdr.trans hdt'
  have fe : ∀ {a : Img (Px t)}, a.dims = im.dims → frameOf a = frameOf im := fun ha => by unfold frameOf; rw [ha]
  rw [fe hdt'] at hhr
  rw [fe hd1] at hht
  have hh := hht.trans hhr
  have eX : pxSet ⊤ o1 = {x | im.at? x = some ⊥} := by ext p; exact hset p
  have eB : frameOf im \ pxSet ⊤ o1 = {x | im.at? x = some ⊤} := by
    rw [← fe hd1, bin_bg hn hb1]; ext p; exact hset' p
  have eB' : frameOf im \ pxSet ⊤ r = {x | r.at? x = some ⊥} := by
    rw [← fe hdr', bin_bg hn hbr]; rfl
  obtain ⟨h1, h2, h3, h4, h5⟩ := hh
  rw [eB, eB'] at h4 h5
  rw [eX] at h1 h2 h3
  refine ⟨r, ?_, hdr', hbr, fun p hp => h1 hp, fun p hp => h4 p hp, fun p q hp hq => h5 p hp q hq, fun p hp => h2 p hp,
    fun p q hp hq => h3 p hp q hq, fun p q hp hin hpq hq => ?_⟩
  · unfold skiz
    rw [ho]
    simp only [hcl, hcm, Option.bind_some, ho1, htmp, andThen]
    exact hr
  · by_contra hno
    have hbg : ∀ x, HexAdj p x → x ≠ q → r.at? x = some ⊥ := by
      intro x hx hxq
      have ha := Img.at?_some r x (hdr' ▸ hin x hx)
      rcases hbr x _ ha with h | h
      · rw [ha, h]
      · exact absurd ⟨x, hxq, hx, by rw [ha, h]⟩ hno
    -- the direction of the only neighbour
    have hdir := (hexAdj_phys p q).mp hpq
    obtain ⟨ab, hab, hva⟩ : ∃ ab ∈ hexPairs, phys true q - phys true p = ab.1 := by
      rcases hdir with h | h | h | h | h | h
      · exact ⟨((2, 0, 0), (1, -1, 0)), by decide, h⟩
      · exact ⟨((1, -1, 0), (-1, -1, 0)), by decide, h⟩
      · exact ⟨((-1, -1, 0), (-2, 0, 0)), by decide, h⟩
      · exact ⟨((-2, 0, 0), (-1, 1, 0)), by decide, h⟩
      · exact ⟨((-1, 1, 0), (1, 1, 0)), by decide, h⟩
      · exact ⟨((1, 1, 0), (2, 0, 0)), by decide, h⟩
    obtain ⟨c, hc, hcM⟩ := hMall ab hab
    have hno2 := (((isThin_binary hn hbr (hfix c hc)).2 p).mp hp).2
    apply hno2
    rw [matches_M hn hcM hbr]
    have nb : ∀ v, HexDir ab.1 ab.2 v → v ≠ ab.1 → phys true p + v ∈ phys true '' frameOf r \ phys true '' pxSet ⊤ r := by
      intro v hv hva'
      rw [← image_bg hn hbr]
      obtain ⟨x, hx⟩ : ∃ x, phys true p + v = phys true x := by
        exact hex_reach p ab hab v hv
      have hvx : phys true x - phys true p = v := by rw [← hx]; abel
      rw [hx]
      refine ⟨x, hbg x ((hexAdj_dir ab hab p x).mpr (by rw [hvx]; exact hv)) ?_, rfl⟩
      rintro rfl
      exact hva' (hvx ▸ hva)
    have hne : ab.2 - ab.1 ≠ ab.1 ∧ -ab.1 ≠ ab.1 ∧ -ab.2 ≠ ab.1 :=
      (show ∀ ab ∈ hexPairs, ab.2 - ab.1 ≠ ab.1 ∧ -ab.1 ≠ ab.1 ∧ -ab.2 ≠ ab.1 by decide) ab hab
    refine ⟨⟨q, hq, by rw [← hva]; abel⟩, ?_, ?_, ?_⟩
    · rw [add_sub_assoc]; exact nb _ (Or.inr (Or.inr (Or.inl rfl))) hne.1
    · rw [sub_eq_add_neg]; exact nb _ (Or.inr (Or.inr (Or.inr (Or.inl rfl)))) hne.2.1
    · rw [sub_eq_add_neg]; exact nb _ (Or.inr (Or.inr (Or.inr (Or.inr (Or.inl rfl))))) hne.2.2

/-- **C70**: `skeleton` ends, for every image of an unsigned type, and its result is the pointwise supremum of the residues
`ε^k(f) - open(ε^k(f))` of the levels `k = 1 … K`, where `K` is the first level that adds nothing to the supremum of the levels before it. -/
theorem C70_skeleton (E : Env (Px t)) (hs : t.signed = false) (se : StrElt) (im out : Img (Px t)) (h : Accepts E im out)
    (hse : SEOk im.dims se) (fuel : Nat) (hfuel : (im.dims.count * (t.hi - t.lo)).toNat + 1 ≤ fuel) :
    ∃ K S r, 1 ≤ K ∧ IsSkelLevels se im K S ∧ skeleton E se fuel im out = some (.ok r) ∧ r.dims = im.dims ∧
      (∀ p, Img.In im.dims p → ∃ v, r.at? p = some v ∧ IsLUB {u | ∃ k, 1 ≤ k ∧ k ≤ K ∧ (S k).at? p = some u} v) ∧
      (∀ p w, (S K).at? p = some w → w.val = 0 ∨ ∃ k w', 1 ≤ k ∧ k < K ∧ (S k).at? p = some w' ∧ w ≤ w') ∧
      (∀ k, 1 ≤ k → k < K → ∃ p w, (S k).at? p = some w ∧ 0 < w.val ∧ ∀ j w', 1 ≤ j → j < k → (S j).at? p = some w' → w' < w) := by
  obtain ⟨o, ho, hd⟩ := checkSize_ok E im out h
  set z : Img (Px t) := ⟨o.dims, fun _ => ⊥⟩ with hz
  have hzat : ∀ p, Img.In im.dims p → z.at? p = some ⊥ := fun p hp =>
    Img.at?_some z p (show Img.In o.dims p from hd.symm ▸ hp)
  have hzat' : ∀ p b, z.at? p = some b → b = ⊥ := fun p b hb => by
    have hin : Img.In im.dims p := hd ▸ Img.at?_eq_some_in z p _ hb
    rw [hzat p hin] at hb; exact (Option.some.inj hb).symm
  obtain ⟨K, S, r, hK, hlev, hr, hrd, hval, hstop, hgrow⟩ := skelLoop_spec E hs se fuel im ⟨im.dims, E.raw⟩ z h.1 hse rfl hd (by
    have := vol_lower z
    rw [show z.dims = im.dims from hd] at this
    rw [mul_sub] at hfuel
    omega)
  have hSd := levels_dims hlev
  have hbv : (⊥ : Px t).val = 0 := by rw [Px.bot_val, lo_unsigned hs]
  refine ⟨K, S, r, hK, hlev, ?_, hrd, fun p hp => ?_, fun p w hw => ?_, fun k h1 h2 => ?_⟩
  · unfold skeleton; rw [ho]; exact hr
  · obtain ⟨v, hv, hu⟩ := hval p ⊥ (hzat p hp)
    refine ⟨v, hv, ?_, fun u hub => ?_⟩
    · rintro u ⟨k, h1, h2, h3⟩
      exact ((hu v).mp (le_refl _)).2 k u h1 h2 h3
    · exact (hu u).mpr ⟨bot_le, fun k w h1 h2 h3 => hub ⟨k, h1, h2, h3⟩⟩
  · have hin : Img.In im.dims p := by rw [← hSd K hK (le_refl _)]; exact Img.at?_eq_some_in _ _ _ hw
    rcases hstop p ⊥ w (hzat p hin) hw with h | h
    · left; rw [le_bot_iff.mp h, hbv]
    · exact Or.inr h
  · obtain ⟨p, b, w, hb, hw, hlt, hj⟩ := hgrow k h1 h2
    refine ⟨p, w, hw, ?_, hj⟩
    have := Px.lt_iff.mp hlt
    rwa [hzat' p b hb, hbv] at this

/-- **C70**, a defect: the image itself is not one of the levels, and the loop stops at the first level that adds nothing, although the next
ones may. As soon as the first erosion is left unchanged by the opening (any large square or hexagon, any object that the first erosion
removes) the result is empty. -/
theorem C70_skeleton_bug (E : Env (Px t)) (hs : t.signed = false) (se : StrElt) (im out e : Img (Px t)) (h : Accepts E im out)
    (hse : SEOk im.dims se) (he : IterRel (IsEroBy (seRel se)) se.size im e) (ho : IsOpenBy (seRel se) se.size e e) (fuel : Nat)
    (hfuel : (im.dims.count * (t.hi - t.lo)).toNat + 1 ≤ fuel) :
    ∃ r, skeleton E se fuel im out = some (.ok r) ∧ ∀ p, Img.In im.dims p → ∃ v, r.at? p = some v ∧ v.val = 0 := by
  obtain ⟨K, S, r, hK, hlev, hr, hrd, hval, -, hgrow⟩ := C70_skeleton E hs se im out h hse fuel hfuel
  have hSd := levels_dims hlev
  have hz : ∀ p w, (S 1).at? p = some w → w.val = 0 := by
    obtain ⟨es, h0, h1⟩ := hlev
    obtain ⟨g1, o, g2, g3, g4⟩ := h1 0 (by omega)
    rw [h0] at g1
    have hsame : Img.Same e (es 1) := IterRel.unique (fun _ _ _ _ => isEroBy_unique) (Img.Same.refl im) he g1
    obtain ⟨m, hm1, hm2⟩ := ho
    obtain ⟨m', hm1', hm2'⟩ := g2
    have hmm : Img.Same m m' := IterRel.unique (fun _ _ _ _ => isEroBy_unique) hsame hm1 hm1'
    have hoo : Img.Same e o := IterRel.unique (fun _ _ _ _ => IsDilBy.unique) hmm hm2 hm2'
    intro p w hw
    have hin : Img.In (es 1).dims p := by rw [← g3]; exact Img.at?_eq_some_in _ _ _ hw
    have hu := Img.at?_some (es 1) p hin
    have hv : o.at? p = some _ := (hoo.2 p).symm.trans ((hsame.2 p).trans hu)
    obtain ⟨w', hw', e'⟩ := g4 p _ _ hu hv
    rw [show S (0 + 1) = S 1 from rfl, hw] at hw'; cases hw'
    rw [e', sub_self]
  have hK1 : K = 1 := by
    by_contra hne
    obtain ⟨p, w, hw, hpos, -⟩ := hgrow 1 (le_refl _) (by omega)
    rw [hz p w hw] at hpos; exact absurd hpos (lt_irrefl _)
  subst hK1
  refine ⟨r, hr, fun p hp => ?_⟩
  obtain ⟨v, hv, hl⟩ := hval p hp
  refine ⟨v, hv, ?_⟩
  have : v ≤ ⊥ := hl.2 (by
    rintro u ⟨k, h1, h2, h3⟩
    obtain rfl : k = 1 := by omega
    have := hz p u h3
    rw [Px.le_iff, Px.bot_val, lo_unsigned hs]; omega)
  rw [le_bot_iff.mp this, Px.bot_val, lo_unsigned hs]

/-- **C70**: `extinctionValues` ends (input of an unsigned type, element with the origin): with the residues of the levels `1 … K`, the value of
a pixel is, in the arithmetic of the output type, the last level with a residue at this pixel, and the minimum of the type if there is none.
If `K` fits in the output type, it is the first level without any residue. -/
theorem C70_extinction (E : Env (Px t)) (hs : t.signed = false) (hs2 : s.signed = false ∨ s.bits ≤ 16) (se : StrElt)
    (h0 : ⟨0, 0, 0⟩ ∈ se.points) (im : Img (Px t)) (out : Img (Px s)) (ha : im.alloc = true) (hb : out.alloc = true)
    (hd : out.dims = im.dims ∨ E.auto = true) (hse : SEOk im.dims se) (fuel : Nat)
    (hfuel : (im.dims.count * (t.hi - t.lo)).toNat + 1 ≤ fuel) :
    ∃ K S r, 1 ≤ K ∧ IsSkelLevels se im K S ∧ extinctionValues E se fuel im out = some (.ok r) ∧ r.dims = im.dims ∧
      (∀ p, Img.In im.dims p → ∃ v, r.at? p = some v ∧
        ((∀ k w, 1 ≤ k → k ≤ K → (S k).at? p = some w → w.val = 0) → v.val = s.lo) ∧
        ∀ k w, 1 ≤ k → k ≤ K → (S k).at? p = some w → w.val ≠ 0 →
          (∀ j w', k < j → j ≤ K → (S j).at? p = some w' → w'.val = 0) → s.card ∣ (k - v.val) ∧ (k ≤ s.hi → v.val = k)) ∧
      (K ≤ s.hi → (∀ p w, (S K).at? p = some w → w.val = 0) ∧ ∀ k, 1 ≤ k → k < K → ∃ p w, (S k).at? p = some w ∧ w.val ≠ 0) := by
  have hrefl : ∀ p, seRel se p p := fun p => ⟨⟨0, 0, 0⟩, h0, by simp [phys]⟩
  obtain ⟨K, S, r, hK, hlev, hr, hrd, hval, hstop⟩ := extLoop_spec E hs hs2 se hrefl fuel 0 im ⟨im.dims, E.raw⟩ (⟨im.dims, fun _ => ⊥⟩ : Img (Px s))
    ha hse rfl rfl (by
      have := vol_upper im
      rw [mul_sub] at hfuel
      omega)
  refine ⟨K, S, r, hK, hlev, ?_, hrd, fun p hp => ?_, fun hKs => ?_⟩
  · unfold extinctionValues
    rw [if_neg (by rw [ha, hb]; simp), if_neg (by rcases hd with h | h <;> simp [h])]
    exact hr
  · obtain ⟨v, hv, h1, h2⟩ := hval p ⊥ (Img.at?_some (⟨im.dims, fun _ => ⊥⟩ : Img (Px s)) p hp)
    refine ⟨v, hv, fun h => ?_, fun k w hk1 hk2 hk3 hk4 hk5 => ?_⟩
    · rw [h1 h, Px.bot_val]
    · have := h2 k w hk1 hk2 hk3 hk4 hk5
      rw [this]
      refine ⟨by simpa using s.wrap_dvd k, fun hk => ?_⟩
      simpa using s.wrap_of_mem (v := (k : Int)) (by have := s.lo_nonpos; omega) hk
  · have := hstop (fun p b hb => by
      have hin : Img.In im.dims p := Img.at?_eq_some_in (⟨im.dims, fun _ => ⊥⟩ : Img (Px s)) p _ hb
      have := Img.at?_some (⟨im.dims, fun _ => ⊥⟩ : Img (Px s)) p hin
      rw [hb] at this
      rw [Option.some.inj this]
      show (⊥ : Px s).val ≤ _
      rw [Px.bot_val]
      exact s.lo_nonpos) (by push_cast; omega)
    exact this

/-- **C70**: `pruneSkiz` keeps exactly the values strictly between zero and the maximum that do not have both a larger and a smaller neighbour,
the maximum apart; the neighbours are the points of the element added to the coordinates. -/
theorem C70_prune (E : Env (Px t)) (se : StrElt) (im out : Img (Px t)) (h : Accepts E im out) :
    ∃ r, pruneSkiz E false se im out = some (.ok r) ∧ r.dims = im.dims ∧ ∀ p v, im.at? p = some v →
      ∃ u, r.at? p = some u ∧
      ((0 < v.val ∧ v.val < t.hi ∧
        ¬ ((∃ b ∈ se.points, ∃ w, im.at? ⟨p.x + b.x, p.y + b.y, p.z + b.z⟩ = some w ∧ w.val < t.hi ∧ v.val < w.val) ∧
          ∃ b ∈ se.points, ∃ w, im.at? ⟨p.x + b.x, p.y + b.y, p.z + b.z⟩ = some w ∧ w.val < t.hi ∧ w.val < v.val)) → u = v) ∧
      (¬ (0 < v.val ∧ v.val < t.hi ∧
        ¬ ((∃ b ∈ se.points, ∃ w, im.at? ⟨p.x + b.x, p.y + b.y, p.z + b.z⟩ = some w ∧ w.val < t.hi ∧ v.val < w.val) ∧
          ∃ b ∈ se.points, ∃ w, im.at? ⟨p.x + b.x, p.y + b.y, p.z + b.z⟩ = some w ∧ w.val < t.hi ∧ w.val < v.val)) → u.val = 0) := by
  obtain ⟨o, ho, -⟩ := checkSize_ok E im out h
  have hall : ∀ i, i < im.dims.count → (prunePx se im i).isSome := by
    intro i hi
    obtain ⟨hin, hoff⟩ := coordPt_in hi
    obtain ⟨r, hr, -⟩ := prunePx_spec se im hin (Img.at?_some im _ hin)
    rw [hoff] at hr
    rw [hr]; rfl
  refine ⟨⟨im.dims, fun i => (prunePx se im i).getD default⟩, by
    unfold pruneSkiz; rw [ho]; simp only [Bool.false_eq_true, if_false]; rw [if_pos hall], rfl, fun p v hv => ?_⟩
  have hp := Img.at?_eq_some_in _ _ _ hv
  obtain ⟨r, hr, h1, h2⟩ := prunePx_spec se im hp hv
  have ht : ∀ w : Px t, w ≠ ⊤ ↔ w.val < t.hi := fun w => by
    rw [← lt_top_iff_ne_top, Px.lt_iff, Px.top_val]
  simp only [ht, Px.lt_iff, plainShift] at h1 h2
  refine ⟨r, ?_, h1, fun hc => by rw [h2 hc]; rfl⟩
  rw [Img.buf_offOf (⟨im.dims, fun i => (prunePx se im i).getD default⟩ : Img (Px t)) p hp]
  show some ((prunePx se im (offOf im.dims p)).getD default) = some r
  rw [hr]; rfl

/-- **C70**, a defect: in place, `pruneSkiz` first erases its input; the result is always empty. -/
theorem C70_prune_inplace_bug (E : Env (Px t)) (se : StrElt) (im : Img (Px t)) (h : Accepts E im im) :
    ∃ r, pruneSkiz E true se im im = some (.ok r) ∧ ∀ p, Img.In im.dims p → ∃ v, r.at? p = some v ∧ v.val = 0 := by
  obtain ⟨o, ho, -⟩ := checkSize_ok E im im h
  set z : Img (Px t) := ⟨im.dims, fun _ => Px.zero⟩ with hz
  have hat : ∀ p, Img.In im.dims p → ∃ r, prunePx se z (offOf im.dims p) = some r ∧ r.val = 0 := by
    intro p hp
    obtain ⟨r, hr, h1, h2⟩ := prunePx_spec se z (show Img.In z.dims p from hp) (Img.at?_some z p hp)
    refine ⟨r, hr, ?_⟩
    rw [h2 (fun hc => absurd hc.1 (show ¬ 0 < (Px.zero : Px t).val from lt_irrefl _))]; rfl
  have hall : ∀ i, i < im.dims.count → (prunePx se z i).isSome := by
    intro i hi
    obtain ⟨hin, hoff⟩ := coordPt_in hi
    obtain ⟨r, hr, -⟩ := hat _ hin
    rw [hoff] at hr
    rw [hr]; rfl
  refine ⟨⟨im.dims, fun i => (prunePx se z i).getD default⟩, by
    unfold pruneSkiz; rw [ho]; simp only [if_true]; rw [if_pos hall], fun p hp => ?_⟩
  obtain ⟨r, hr, h0⟩ := hat p hp
  refine ⟨r, ?_, h0⟩
  rw [Img.buf_offOf (⟨im.dims, fun i => (prunePx se z i).getD default⟩ : Img (Px t)) p hp]
  show some ((prunePx se z (offOf im.dims p)).getD default) = some r
  rw [hr]; rfl

/-- **C70**: images that are not allocated, or of different sizes while the sizes may not be changed, are refused. -/
theorem C70_errors (E : Env (Px t)) (se : StrElt) (fuel : Nat) (im out : Img (Px t)) (c : Int) (h : checkSize E im out = .error c) :
    skiz E fuel im out = some (.error c) ∧ skeleton E se fuel im out = some (.error c) ∧
      (∀ inPl, pruneSkiz E inPl se im out = some (.error c)) ∧
      ∀ out' : Img (Px s), (im.alloc = false ∨ out'.alloc = false → extinctionValues E se fuel im out' = some (.error errBadAllocation)) ∧
        (im.alloc = true → out'.alloc = true → out'.dims ≠ im.dims → E.auto = false →
          extinctionValues E se fuel im out' = some (.error errBadSize)) := by
  refine ⟨by unfold skiz; rw [h], by unfold skeleton; rw [h], fun inPl => by unfold pruneSkiz; rw [h], fun out' => ⟨fun h => ?_, fun h1 h2 h3 h4 => ?_⟩⟩
  · unfold extinctionValues; rw [if_pos h]
  · unfold extinctionValues; rw [if_neg (by rw [h1, h2]; simp), if_pos ⟨h3, h4⟩]

end Smil
