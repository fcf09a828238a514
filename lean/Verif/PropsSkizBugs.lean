import Verif.PropsSkiz
import Mathlib.Tactic.IntervalCases

/-! # Property C66: where the zones of influence are not what they should be -/

namespace Smil
variable {t s : PT}

theorem particle_le {N : IntPoint → IntPoint → Prop} {im : Img (Px s)} {n : Nat} (h : ParticleNumber N im n) :
    n ≤ im.dims.count := by
  obtain ⟨reps, hr, rfl⟩ := h
  have h1 : (reps.map (offOf im.dims)).Nodup := by
    rw [List.Nodup, List.pairwise_map]
    exact hr.apart.imp fun h => h.1.ne
  have h2 : (reps.map (offOf im.dims)) ⊆ List.range im.dims.count := by
    intro i hi
    obtain ⟨p, hp, rfl⟩ := List.mem_map.1 hi
    obtain ⟨a, ha, -⟩ := hr.kept p hp
    exact List.mem_range.2 (offOf_lt (Img.at?_eq_some_in _ _ _ ha))
  have h3 := (List.subperm_of_subset h1 h2).length_le
  simpa using h3

/-- The particle in the second line is alone. -/
theorem exSeeds_alone (q : IntPoint) (h : FlatPath (seRel (CrossSE 1)) exSeeds ⟨1, 1, 0⟩ q) : q = ⟨1, 1, 0⟩ := by
  generalize hp : (⟨1, 1, 0⟩ : IntPoint) = p at h
  induction h with
  | refl _ => rfl
  | step _ hN ha hb hab ih =>
    have e := ih
    subst e
    subst hp
    rename_i r a b _
    have hr := Img.at?_eq_some_in _ _ _ hb
    rw [seRel_even _ rfl] at hN
    obtain ⟨x, y, z⟩ := r
    obtain ⟨h1, h2, h3, h4, h5, h6⟩ := hr
    change x < 3 at h2
    change y < 2 at h4
    change z < 1 at h6
    dsimp only at h1 h3 h5
    have ha' : exSeeds.at? ⟨1, 1, 0⟩ = some (UINT8.wrap 255) := by decide
    rw [ha'] at ha
    have ha := Option.some.inj ha
    subst ha
    subst hab
    interval_cases x <;> interval_cases y <;> interval_cases z <;> first | rfl | (exfalso; revert hN; decide) |
      (exfalso; revert hb; decide)

/-- **C66 fails** when `se` is not the default element: the opening by the default square removes the basin of the third
particle; at that particle, every result has another value than the number of the particle. -/
theorem C66_inflBasins_bug : ∃ n lab, IsLabelling (seRel (CrossSE 1)) (· = ·) (· ≠ Px.zero) exSeeds n lab ∧
    (∃ fuel r, inflBasins exEnvSk (SquSE 1) (CrossSE 1) fuel exSeeds exSeeds = some r) ∧
    ∀ fuel r, inflBasins exEnvSk (SquSE 1) (CrossSE 1) fuel exSeeds exSeeds = some r →
      ∃ b k v, r = .ok b ∧ lab.at? ⟨1, 1, 0⟩ = some k ∧ k ≠ 0 ∧ b.at? ⟨1, 1, 0⟩ = some v ∧ v.val ≠ k := by
  have hD : exSeeds.dims = ⟨3, 2, 1⟩ := rfl
  obtain ⟨n, lab, num, z, z2, g1, g2, g3, g4, g5, g6, g7⟩ := C66_inflBasins_partial (t := UINT8) rfl (by decide) exEnvSk (SquSE 1)
    (CrossSE 1) exSeeds exSeeds (by unfold AcceptsD; decide) (seRel_symm (by decide)) (seOk_iff _ _ (by decide)) (seOk_iff _ _ (by decide))
    (fun n hn => lt_of_le_of_lt (Int.ofNat_le.2 (particle_le hn)) (by decide))
  refine ⟨n, lab, g1, g6, fun fuel r hr => ?_⟩
  obtain ⟨z, z2, b, rfl, hz, e, ⟨e1, he, he'⟩, d1, hd, hd'⟩ := g7 fuel r hr
  have g1 : IsLabelling (seRel (CrossSE 1)) (· = ·) (· ≠ Px.zero) exSeeds n lab := g1
  have hzd : z.dims = ⟨3, 2, 1⟩ := hz.dims1.trans g3
  have hlab : ∀ p a, exSeeds.at? p = some a → a ≠ Px.zero → ∃ k, lab.at? p = some k ∧ k ≠ 0 := by
    intro p a ha ha0
    have hp := Img.at?_eq_some_in _ _ _ ha
    refine ⟨_, Img.at?_some lab p (g2.symm ▸ hp), fun e0 => ?_⟩
    have := (g1.zero p hp).1 (by rw [Img.at?_some lab p (g2.symm ▸ hp), e0])
    exact this ⟨p, a, ha, ha0, .refl hp⟩
  obtain ⟨k, hk, hk0⟩ := hlab ⟨1, 1, 0⟩ (UINT8.wrap 255) (by decide) (by decide)
  have hzk : ∀ q l, lab.at? q = some l → l ≠ 0 → ∃ v, z.at? q = some v ∧ v.val = l := by
    intro q l hl hl0
    obtain ⟨v, hv, hv'⟩ := g4 q l hl
    refine ⟨v, C66_keep hz q v hv fun e0 => hl0 ?_, hv'⟩
    rw [e0] at hv'
    have : (Px.zero : Px UINT8).val = 0 := rfl
    omega
  -- the other particles have smaller numbers
  have hlt : ∀ q, (q = ⟨0, 0, 0⟩ ∨ q = ⟨2, 0, 0⟩) → ∃ v, z.at? q = some v ∧ v.val < k := by
    intro q hq
    have hq255 : exSeeds.at? q = some (UINT8.wrap 255) := by
      rcases hq with rfl | rfl <;> decide
    obtain ⟨l, hl, hl0⟩ := hlab q _ hq255 (by decide)
    obtain ⟨v, hv, hv'⟩ := hzk q l hl hl0
    refine ⟨v, hv, ?_⟩
    have hne : k ≠ l := fun e0 => by
      have := exSeeds_alone q ((g1.same _ _ _ _ hk hl hk0).1 e0)
      rcases hq with rfl | rfl <;> cases this
    by_contra hge
    obtain ⟨p', a, h1, h2, h3, h4⟩ := g1.order _ _ _ _ hk hl hk0 (by omega)
    rw [exSeeds_alone p' h3] at h4
    have := h4 q _ hq255 (by decide) (.refl (Img.at?_eq_some_in _ _ _ hq255))
    rcases hq with rfl | rfl <;> revert this <;> decide
  have hle : ∀ q u, e.at? q = some u → u.val < k := by
    intro q u hu
    have hq : Img.In ⟨3, 2, 1⟩ q := by
      have := Img.at?_eq_some_in _ _ _ hu
      rw [← he'.1, he.1, hzd] at this
      exact this
    have hu' : e1.at? q = some u := (he'.2 q).trans hu
    obtain ⟨w, hw, hl⟩ := he.2 q (hzd.symm ▸ hq)
    rw [hu'] at hw
    cases hw
    obtain ⟨x, y, zz⟩ := q
    obtain ⟨h1, h2, h3, h4, h5, h6⟩ := hq
    change x < 3 at h2
    change y < 2 at h4
    change zz < 1 at h6
    dsimp only at h1 h3 h5
    by_cases hx : x ≤ 1
    · obtain ⟨v, hv, hv'⟩ := hlt ⟨0, 0, 0⟩ (.inl rfl)
      refine lt_of_le_of_lt (Px.le_iff.1 (hl.1 ⟨_, ?_, hv⟩)) hv'
      rw [seRel_even _ rfl]
      interval_cases x <;> interval_cases y <;> interval_cases zz <;> decide
    · obtain ⟨v, hv, hv'⟩ := hlt ⟨2, 0, 0⟩ (.inr rfl)
      refine lt_of_le_of_lt (Px.le_iff.1 (hl.1 ⟨_, ?_, hv⟩)) hv'
      rw [seRel_even _ rfl]
      interval_cases x <;> interval_cases y <;> interval_cases zz <;> decide
  have hin : Img.In e.dims ⟨1, 1, 0⟩ := by
    rw [← he'.1, he.1, hzd]
    decide
  obtain ⟨v, hv, hl⟩ := hd.2 _ hin
  refine ⟨b, k, v, rfl, hk, hk0, (hd'.2 _).symm.trans hv, ?_⟩
  intro e0
  have h0 : (0 : Int) < k := by omega
  have hv0 : v ≠ ⊥ := fun e1 => by
    have := congrArg Px.val e1
    rw [Px.bot_val] at this
    have h00 : UINT8.lo = 0 := rfl
    omega
  obtain ⟨q, -, hq⟩ := lub_mem hl hv0
  have := hle q v hq
  omega

theorem erode_empty {α : Type} [LinearOrder α] [BoundedOrder α] (E : Env α) (im : Img α) (ha : im.alloc = true) :
    erode E false emptySE im ⟨im.dims, E.raw⟩ = some (.ok ⟨im.dims, E.raw⟩) := by
  obtain ⟨o, ho, -⟩ := checkSize_ok E im ⟨im.dims, E.raw⟩ (accepts_of_dims E ha rfl)
  have ho' : checkSize E im ⟨im.dims, E.raw⟩ = .ok ⟨im.dims, E.raw⟩ := by
    unfold checkSize
    rw [if_neg (by
      rw [ha, alloc_of_dims (a := (⟨im.dims, E.raw⟩ : Img α)) rfl ha]
      simp), if_pos rfl]
  unfold erode guarded
  rw [ho']
  rfl

/-- The pixels of the result of `inflZones`: the erosion by `StrElt()` does not write its output, so that the dilated basins are
compared to whatever the new image contains. -/
theorem inflZones_pix (E : Env (Px UINT16)) (dflt se : StrElt) (im out : Img (Px s))
    (h : AcceptsD E.auto im.dims out.dims) (hN : ∀ p q, seRel (execSe se) p q → seRel (execSe se) q p)
    (hse : SEOk im.dims se) (hdf : SEOk im.dims dflt) (hn : im.dims.count < 65535) (fuel : Nat) (r : Except Int (Img (Px s)))
    (hr : inflZones E dflt se fuel im out = some r) :
    ∃ b d o, r = .ok o ∧ inflBasins E dflt se fuel im ⟨im.dims, E.raw⟩ = some (.ok b) ∧
      IterRel (IsDilBy (seRel se)) se.size b d ∧ d.dims = im.dims ∧ o.dims = im.dims ∧
      ∀ p u, d.at? p = some u → ∃ g : Px UINT16, g.val = max 0 (u.val - (E.raw (offOf im.dims p)).val) ∧
        o.at? p = some (s.wrap (kThresh (UINT16.wrap (s.lo + 1)) (UINT16.wrap s.hi) (⊤ : Px UINT16) ⊥ g).val) := by
  have hacc : AcceptsD E.auto im.dims im.dims := ⟨h.1, h.1, .inl rfl⟩
  obtain ⟨n, lab, num, z, z2, g1, g2, g3, g4, g5, g6, g7⟩ := C66_inflBasins_partial (t := UINT16) rfl (by decide) E dflt
    se im ⟨im.dims, E.raw⟩ hacc hN hse hdf
    (fun n hn' => lt_of_le_of_lt (Int.ofNat_le.2 (particle_le hn')) (by change (_ : Int) < 65535; omega))
  unfold inflZones at hr
  rw [checkDims_ok h] at hr
  dsimp only at hr
  obtain ⟨rb, e1, e2⟩ := Option.bind_eq_some_iff.1 hr
  obtain ⟨z', z2', b, rfl, hz, ho⟩ := g7 fuel rb e1
  have hbd : b.dims = im.dims := ((open_dims ho).trans hz.dims1).trans g3
  have ha : b.alloc = true := by
    unfold Img.alloc
    rw [hbd]
    simpa using h.1
  obtain ⟨d, hd, hd'⟩ := dilate_spec E false se b ⟨b.dims, E.raw⟩ (accepts_of_dims E ha rfl) (hbd.symm ▸ hse)
  have hdd : d.dims = b.dims := iterDil_dims hd'
  obtain ⟨g, hg⟩ := Img.zipK_total (kSub (t := UINT16)) d ⟨b.dims, E.raw⟩ hdd.symm (fun p u v _ _ => by
    obtain ⟨x, hx, _⟩ := C06_sub_unsigned (t := UINT16) rfl u v
    rw [hx]; rfl)
  obtain ⟨hgd, hgp⟩ := Img.zipK_some kSub d ⟨b.dims, E.raw⟩ g hdd.symm hg
  have hgr : gradient E se emptySE b b = some (.ok g) := by
    obtain ⟨o, ho, -⟩ := checkSize_ok E d b (accepts_of_dims E (alloc_of_dims hdd ha) hdd.symm)
    unfold gradient andThen subImg guarded
    rw [hd, Option.bind_some]
    dsimp only
    rw [erode_empty E b ha, Option.bind_some]
    dsimp only
    rw [ho]
    dsimp only
    rw [hg]
    rfl
  dsimp only at e2
  rw [hgr] at e2
  refine ⟨b, d, _, (Option.some.inj e2).symm, e1, hd', hdd.trans hbd, hbd, fun p u hu => ?_⟩
  have hp : Img.In im.dims p := by
    rw [← hbd, ← hdd]
    exact Img.at?_eq_some_in _ _ _ hu
  have hraw := Img.buf_offOf (⟨b.dims, E.raw⟩ : Img (Px UINT16)) p (hbd.symm ▸ hp)
  obtain ⟨w, hw, hw'⟩ := hgp p _ _ hu hraw
  obtain ⟨w', e3, e4⟩ := C06_sub_unsigned (t := UINT16) rfl u (E.raw (offOf b.dims p))
  rw [hw] at e3
  cases e3
  refine ⟨w, ?_, ?_⟩
  · rw [e4, hbd]
    have h1 := u.le_hi
    have h2 := (E.raw (offOf im.dims p)).lo_le
    have h3 : UINT16.lo = 0 := rfl
    unfold clampSpec
    omega
  · have hg3 := Img.buf_offOf g p (by rw [hgd, hdd, hbd]; exact hp)
    rw [hw'] at hg3
    rw [Img.buf_offOf _ p (by dsimp only; rw [hbd]; exact hp)]
    dsimp only
    rw [show (okOr b (Except.ok g)).buf (offOf b.dims p) = w by
      rw [← hdd, ← hgd]
      exact (Option.some.inj hg3).symm]

/-- An environment of the examples; new images are filled with `v`. -/
def exEnv16 (v : Px UINT16) : Env (Px UINT16) := ⟨1, false, fun _ => ⊥, fun _ => v⟩
/-- A white image. -/
def exWhite22 : Img (Px UINT8) := im8 ⟨2, 2, 1⟩ [255, 255, 255, 255]

/-- **C66 fails** for `inflZones`: whatever the input is, the result is empty if the memory of the new image happens to hold
great values. -/
theorem C66_inflZones_empty_bug (v : Px UINT16) (hv : v = ⊤) (se : StrElt) (im out : Img (Px UINT8))
    (h : AcceptsD false im.dims out.dims) (hN : ∀ p q, seRel (execSe se) p q → seRel (execSe se) q p)
    (hse : SEOk im.dims se) (hn : im.dims.count < 65535) (fuel : Nat) (r : Except Int (Img (Px UINT8)))
    (hr : inflZones (exEnv16 v) se se fuel im out = some r) :
    ∃ o, r = .ok o ∧ ∀ p, Img.In im.dims p → o.at? p = some Px.zero := by
  obtain ⟨b, d, o, rfl, -, -, h3, h4, h5⟩ := inflZones_pix (exEnv16 v) se se im out h hN hse hse hn fuel r hr
  refine ⟨o, rfl, fun p hp => ?_⟩
  obtain ⟨g, hg, ho⟩ := h5 p _ (Img.at?_some d p (h3.symm ▸ hp))
  rw [ho]
  have hr : (exEnv16 v).raw (offOf im.dims p) = ⊤ := hv
  have h1 := (d.px p.x.toNat p.y.toNat p.z.toNat).le_hi
  rw [hr, Px.top_val, max_eq_left (by omega)] at hg
  have hg0 : g = ⊥ := Px.ext hg
  rw [hg0]
  decide

/-- **C66 fails** for `inflZones`: the result depends on the memory of an image that is never written. For one white particle,
which has no border, everything is marked if that memory holds zeros. -/
theorem C66_inflZones_ub :
    (∃ fuel r, inflBasins (exEnv16 ⊥) (SquSE 1) (SquSE 1) fuel exWhite22 ⟨exWhite22.dims, fun _ => ⊥⟩ = some r) ∧
    (∀ fuel r, inflZones (exEnv16 ⊥) (SquSE 1) (SquSE 1) fuel exWhite22 exWhite22 = some r →
      ∃ o, r = .ok o ∧ ∀ p, Img.In exWhite22.dims p → o.at? p = some (UINT8.wrap 255)) ∧
    (∀ fuel r, inflZones (exEnv16 ⊤) (SquSE 1) (SquSE 1) fuel exWhite22 exWhite22 = some r →
      ∃ o, r = .ok o ∧ ∀ p, Img.In exWhite22.dims p → o.at? p = some (UINT8.wrap 0)) := by
  have hacc : AcceptsD false exWhite22.dims exWhite22.dims := ⟨by decide, by decide, .inl rfl⟩
  have hN : ∀ p q, seRel (SquSE 1) p q → seRel (SquSE 1) q p := seRel_symm (by decide)
  have hse : SEOk exWhite22.dims (SquSE 1) := seOk_iff _ _ (by decide)
  have hlt : ∀ n, ParticleNumber (seRel (SquSE 1)) exWhite22 n → (n : Int) < UINT16.hi := fun n hn' =>
    lt_of_le_of_lt (Int.ofNat_le.2 (particle_le hn')) (by decide)
  have hval : ∀ p, Img.In exWhite22.dims p → exWhite22.at? p = some (UINT8.wrap 255) := by
    rintro ⟨x, y, z⟩ ⟨h1, h2, h3, h4, h5, h6⟩
    change x < 2 at h2
    change y < 2 at h4
    change z < 1 at h6
    dsimp only at h1 h3 h5
    interval_cases x <;> interval_cases y <;> interval_cases z <;> decide
  obtain ⟨_, _, _, _, _, _, _, _, _, _, g6, -⟩ := C66_inflBasins_partial (t := UINT16) rfl (by decide) (exEnv16 ⊥) (SquSE 1)
    (SquSE 1) exWhite22 ⟨exWhite22.dims, fun _ => ⊥⟩ hacc hN hse hse hlt
  refine ⟨g6, fun fuel r hr => ?_, fun fuel r hr => ?_⟩
  · obtain ⟨b, d, o, rfl, h1, h2, h3, h4, h5⟩ := inflZones_pix (exEnv16 ⊥) (SquSE 1) (SquSE 1) exWhite22 exWhite22 hacc hN hse hse
      (by decide) fuel r hr
    refine ⟨o, rfl, fun p hp => ?_⟩
    obtain ⟨n, lab, l1, l2, l3⟩ := C66_inflBasins_seeds (t := UINT16) rfl (by decide) (exEnv16 ⊥) (SquSE 1)
      exWhite22 ⟨exWhite22.dims, (exEnv16 ⊥).raw⟩ hacc rfl hN hse (by decide) (fun p q a b ha hb _ _ => by
        rw [hval p (Img.at?_eq_some_in _ _ _ ha)] at ha
        rw [hval q (Img.at?_eq_some_in _ _ _ hb)] at hb
        cases ha
        cases hb
        rfl) hlt
    obtain ⟨b', e, hb, hbv⟩ := l3 fuel _ h1
    cases e
    have hb1 : ∀ q u, b.at? q = some u → 1 ≤ u.val ∧ u.val ≤ 255 := by
      intro q u hu
      have hq : Img.In exWhite22.dims q := hb ▸ Img.at?_eq_some_in _ _ _ hu
      have el := Img.at?_some lab q (l2.symm ▸ hq)
      have hl0 : lab.px q.x.toNat q.y.toNat q.z.toNat ≠ 0 := fun e0 => by
        have := (l1.zero q hq).1 (by rw [el, e0])
        exact this ⟨q, _, hval q hq, by decide, .refl hq⟩
      obtain ⟨v, hv, hv'⟩ := hbv q _ el hl0
      rw [hu] at hv
      cases hv
      have := ((l1.labels _).2 ⟨hl0, q, el⟩).2
      have hn4 : n ≤ 4 := by
        by_contra hgt
        have hsub : (List.range 5).map (· + 1) ⊆ ((List.range 4).map lab.buf) := by
          intro k hk
          obtain ⟨i, hi, rfl⟩ := List.mem_map.1 hk
          have hi := List.mem_range.1 hi
          obtain ⟨-, p', hp'⟩ := (l1.labels (i + 1)).1 (by omega)
          have hin := Img.at?_eq_some_in _ _ _ hp'
          rw [Img.buf_offOf lab p' hin] at hp'
          refine List.mem_map.2 ⟨_, List.mem_range.2 ?_, Option.some.inj hp'⟩
          have := offOf_lt hin
          rw [l2] at this ⊢
          exact this
        have := (List.subperm_of_subset (by decide) hsub).length_le
        simp at this
      omega
    have hin : Img.In b.dims p := hb.symm ▸ hp
    obtain ⟨x, ex, hx⟩ := (iterDil_path _ _ _ _ h2).2 p hin
    have hbp := Img.at?_some b p hin
    have hx1 := Px.le_iff.1 (hx.1 ⟨p, ⟨p, hin, seRel_refl _ (by decide) p, rfl⟩, hbp⟩)
    have hx2 : x.val ≤ 255 := by
      have hx0 : x ≠ ⊥ := fun e => by
        rw [e, Px.bot_val] at hx1
        have := (hb1 p _ hbp).1
        have h00 : UINT16.lo = 0 := rfl
        omega
      obtain ⟨q, -, hq⟩ := lub_mem hx hx0
      exact (hb1 q x hq).2
    obtain ⟨g, hg, ho⟩ := h5 p x ex
    have hg' : g.val = x.val := by
      rw [hg]
      have e0 : ((exEnv16 ⊥).raw (offOf exWhite22.dims p)).val = 0 := rfl
      have := (hb1 p _ hbp).1
      omega
    rw [ho]
    have h1 : (UINT16.wrap (UINT8.lo + 1)).val = 1 := by decide
    have h2 : (UINT16.wrap UINT8.hi).val = 255 := by decide
    have := (hb1 p _ hbp).1
    unfold kThresh
    rw [if_pos]
    · decide
    · constructor
      · exact Px.le_iff.2 (by omega)
      · exact Px.le_iff.2 (by omega)
  · obtain ⟨o, rfl, ho⟩ := C66_inflZones_empty_bug ⊤ rfl (SquSE 1) exWhite22 exWhite22 hacc hN hse (by decide) fuel r hr
    exact ⟨o, rfl, fun p hp => (ho p hp).trans (by decide)⟩

end Smil
