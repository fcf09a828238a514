import Verif.SkizLemmas
import Verif.PropsLabel
import Verif.PropsBuild

/-! # Property C66: zones of influence of labels -/

namespace Smil
variable {t s : PT}

/-- The complements of the labels: `max - k` on labelled pixels, zero elsewhere. -/
def IsLabelCompl (lab lab2 : Img (Px t)) : Prop :=
  lab2.dims = lab.dims ∧ ∀ p k v, lab.at? p = some k → lab2.at? p = some v →
    (k = Px.zero → v = Px.zero) ∧ (k ≠ Px.zero → v.val = t.hi - k.val)

theorem lblSkiz_ok (E : Env (Px t)) (se : StrElt) (lab lab2 ms : Img (Px t)) (ha : lab.alloc = true)
    (hd : lab2.dims = lab.dims) (hm : ms.dims = lab.dims) (fuel : Nat) :
    lblSkiz E se fuel lab lab2 ms = (skizLoop E se ms fuel (-1) 0 (lab, lab2)).map .ok := by
  unfold lblSkiz skizCheck
  rw [if_neg (by rw [ha, alloc_of_dims hd ha, alloc_of_dims hm ha]; simp), if_pos ⟨hd, hm⟩]

/-- **C66**: on unsigned images `lblSkiz` terminates, and gives the zones of influence of the labels inside of the mask, for
the distance in steps of the element. -/
theorem C66_skiz (hs : t.signed = false) (hh : 0 < t.hi) (E : Env (Px t)) (se : StrElt) (lab lab2 ms : Img (Px t))
    (ha : lab.alloc = true) (hm : ms.dims = lab.dims) (hc : IsLabelCompl lab lab2) (hse : SEOk lab.dims se) :
    (∃ fuel r, lblSkiz E se fuel lab lab2 ms = some r) ∧
    ∀ fuel r, lblSkiz E se fuel lab lab2 ms = some r →
      ∃ l1 l2, r = .ok (l1, l2) ∧ IsSkiz (pathRel lab.dims (seRel se) se.size) lab ms l1 l2 := by
  have h0 := SkizInv.init (N := pathRel lab.dims (seRel se) se.size) (ms := ms) hc.1 hc.2
  obtain ⟨a', b', e, hn⟩ := skizStep_spec hs hh E se ms lab lab2 ha hc.1 hm hse
  obtain ⟨h1, hle⟩ := h0.next hs hm hn
  have hst : ¬ (0 : Int) < a'.vol → lab.vol = a'.vol := by
    intro hv
    have := vol_le hle
    have := vol_nonneg hs lab
    omega
  have hl := fun fuel => skizLoop_spec hs hh E se lab ms ha hm hse fuel 0 0 (lab, lab2) (a', b') h0 h1 hle hst
  have hun : ∀ fuel, skizLoop E se ms (fuel + 1) (-1) 0 (lab, lab2) = skizLoop E se ms fuel 0 a'.vol (a', b') := by
    intro fuel
    rw [skizLoop, if_pos (by decide), e, Option.bind_some]
  constructor
  · obtain ⟨r, hr⟩ := (hl ((⟨lab.dims, fun _ => ⊤⟩ : Img (Px t)).vol - a'.vol + 2).toNat).2 (by
      have := vol_top a'
      rw [h1.dims1] at this
      dsimp only
      omega)
    refine ⟨((⟨lab.dims, fun _ => ⊤⟩ : Img (Px t)).vol - a'.vol + 2).toNat + 1, .ok r, ?_⟩
    rw [lblSkiz_ok E se lab lab2 ms ha hc.1 hm, hun, hr]
    rfl
  · intro fuel r hr
    rw [lblSkiz_ok E se lab lab2 ms ha hc.1 hm] at hr
    cases fuel with
    | zero => cases hr
    | succ fuel =>
      rw [hun] at hr
      obtain ⟨z, hz, rfl⟩ := Option.map_eq_some_iff.1 hr
      exact ⟨z.1, z.2, rfl, (hl fuel).1 z hz⟩

/-- **C66**: labelled pixels keep their label. -/
theorem C66_keep {N : IntPoint → IntPoint → Prop} {lab ms l1 l2 : Img (Px t)} (h : IsSkiz N lab ms l1 l2)
    (p : IntPoint) (k : Px t) (hp : lab.at? p = some k) (hk : k ≠ Px.zero) : l1.at? p = some k := by
  refine (h.one 0 p k ⟨⟨k, .start hp hk⟩, fun j hj => absurd hj (Nat.not_lt_zero j)⟩ fun k' => ⟨fun hh => ?_, fun e => ?_⟩).1
  · cases hh with
    | start h1 _ =>
      rw [hp] at h1
      exact (Option.some.inj h1).symm
  · rw [e]
    exact .start hp hk

/-- **C66**: outside of the mask nothing is labelled. -/
theorem C66_mask {N : IntPoint → IntPoint → Prop} {lab ms l1 l2 : Img (Px t)} (h : IsSkiz N lab ms l1 l2)
    (p : IntPoint) (hp : lab.at? p = some Px.zero) (hm : ms.at? p = some Px.zero) :
    l1.at? p = some Px.zero ∧ l2.at? p = some Px.zero := by
  refine h.none p (Img.at?_eq_some_in _ _ _ hp) fun n k hh => ?_
  cases hh with
  | start h1 h2 =>
    rw [hp] at h1
    exact h2 (Option.some.inj h1).symm
  | step _ _ h1 h2 =>
    rw [hm] at h1
    exact h2 (Option.some.inj h1).symm

/-- **C66**: the two images together tell the pixels with one nearest label from the others: their sum is the maximum of the type
in the first case, and greater in the second one. -/
theorem C66_decided {N : IntPoint → IntPoint → Prop} {lab ms l1 l2 : Img (Px t)} (h : IsSkiz N lab ms l1 l2)
    (n : Nat) (p : IntPoint) (hp : NearestAt N lab ms n p) :
    ∃ u v, l1.at? p = some u ∧ l2.at? p = some v ∧ t.hi ≤ u.val + v.val ∧
      (u.val + v.val = t.hi ↔ ∃ k, ∀ k', InflPath N lab ms n k' p ↔ k' = k) := by
  obtain ⟨⟨k, hk⟩, -⟩ := id hp
  obtain ⟨u, v, e1, e2, h1, h2⟩ := h.tie n p k k hp hk hk
  have h1' := Px.le_iff.1 h1
  refine ⟨u, v, e1, e2, by omega, fun e => ⟨k, fun k' => ⟨fun hk' => ?_, fun e => e ▸ hk⟩⟩, ?_⟩
  · obtain ⟨u', v', f1, f2, h3, h4⟩ := h.tie n p k' k' hp hk' hk'
    rw [e1] at f1
    rw [e2] at f2
    cases f1
    cases f2
    have h3' := Px.le_iff.1 h3
    exact Px.ext (by omega)
  · rintro ⟨k0, hk0⟩
    obtain ⟨f1, v', f2, f3⟩ := h.one n p k0 hp hk0
    rw [e1] at f1
    rw [e2] at f2
    cases f1
    cases f2
    omega

/-- **C66**: where the images differ in size, or one of them is not allocated, nothing is done. -/
theorem C66_errors (E : Env (Px t)) (se : StrElt) (fuel : Nat) (a b m : Img (Px t)) :
    (a.dims.count = 0 ∨ b.dims.count = 0 ∨ m.dims.count = 0 →
      lblSkiz E se fuel a b m = some (.error errBadAllocation)) ∧
    (a.dims.count ≠ 0 → b.dims.count ≠ 0 → m.dims.count ≠ 0 → (b.dims ≠ a.dims ∨ m.dims ≠ a.dims) → E.auto = false →
      lblSkiz E se fuel a b m = some (.error errBadSize)) := by
  have hal : ∀ x : Img (Px t), x.alloc = false ↔ x.dims.count = 0 := by
    intro x
    unfold Img.alloc
    simp
  constructor
  · intro h
    unfold lblSkiz skizCheck
    rw [if_pos (by simpa only [hal] using h)]
  · intro h1 h2 h3 h4 h5
    unfold lblSkiz skizCheck
    rw [if_neg (by simp only [hal]; tauto), if_neg (by tauto), if_neg (by rw [h5]; decide)]

/-- The number of particles of an image for an element. -/
def ParticleNumber (N : IntPoint → IntPoint → Prop) (im : Img (Px s)) (n : Nat) : Prop :=
  ∃ reps, IsReps N (· = ·) (· ≠ Px.zero) im reps ∧ reps.length = n

/-- **C66**: `inflBasins` computes the zones of influence of the particles of the input (flat zones of values other than zero),
numbered in raster order, and opens the result with the default element. (partial: the opening is part of the statement, and may remove
zones — `C66_inflBasins_bug`; fewer particles than the maximum of the output type.) -/
theorem C66_inflBasins_partial (hs : t.signed = false) (hh : 2 ≤ t.hi) (E : Env (Px t)) (dflt se : StrElt)
    (im : Img (Px s)) (out : Img (Px t)) (h : AcceptsD E.auto im.dims out.dims)
    (hN : ∀ p q, seRel (execSe se) p q → seRel (execSe se) q p) (hse : SEOk im.dims se) (hdf : SEOk im.dims dflt)
    (hn : ∀ n, ParticleNumber (seRel (execSe se)) im n → n < t.hi) :
    ∃ n lab num z z2, IsLabelling (seRel (execSe se)) (· = ·) (· ≠ Px.zero) im n lab ∧ lab.dims = im.dims ∧
      num.dims = im.dims ∧ (∀ p k, lab.at? p = some k → ∃ v : Px t, num.at? p = some v ∧ v.val = k) ∧
      IsSkiz (pathRel im.dims (seRel se) se.size) num ⟨im.dims, fun _ => ⊤⟩ z z2 ∧
      (∃ fuel r, inflBasins E dflt se fuel im out = some r) ∧
      ∀ fuel r, inflBasins E dflt se fuel im out = some r →
        ∃ z' z2' b, r = .ok b ∧ IsSkiz (pathRel im.dims (seRel se) se.size) num ⟨im.dims, fun _ => ⊤⟩ z' z2' ∧
          IsOpenBy (seRel dflt) dflt.size z' b := by
  have hlo := lo_unsigned hs
  obtain ⟨n, lab, h1, h2, h3, h4, h5⟩ := C39_label E.auto t.hi.toNat dflt se im im.dims hN (by omega) ⟨h.1, h.1, .inl rfl⟩
  obtain ⟨ld, lb⟩ := lab
  dsimp only at h2
  subst h2
  have hnn := hn n h3
  have h5 := h5 (by omega)
  have ha : (⟨im.dims, fun i => t.wrap (lb i)⟩ : Img (Px t)).alloc = true := by
    unfold Img.alloc
    dsimp only
    simpa using h.1
  have hnum : ∀ p k, (⟨im.dims, lb⟩ : Img Nat).at? p = some k →
      ∃ v : Px t, (⟨im.dims, fun i => t.wrap (lb i)⟩ : Img (Px t)).at? p = some v ∧ v.val = k := by
    intro p k hk
    have hp := Img.at?_eq_some_in _ _ _ hk
    refine ⟨t.wrap k, ?_, PT.wrap_of_mem t (by omega) ?_⟩
    · rw [Img.buf_offOf (⟨im.dims, lb⟩ : Img Nat) p hp] at hk
      rw [Img.buf_offOf (⟨im.dims, fun i => t.wrap (lb i)⟩ : Img (Px t)) p hp]
      exact congrArg (fun x : Nat => some (t.wrap (x : Int))) (Option.some.inj hk)
    · by_cases hk0 : k = 0
      · subst hk0
        push_cast
        omega
      · have := ((h5.labels k).2 ⟨hk0, p, hk⟩).2
        omega
  obtain ⟨iv, hiv⟩ := Img.mapK_total kInv (⟨im.dims, fun i => t.wrap (lb i)⟩ : Img (Px t)) (fun p u _ => by
    rw [kInv_eq (.inl hs)]
    rfl)
  obtain ⟨hivd, hivp⟩ := Img.mapK_some _ _ _ hiv
  have hc : IsLabelCompl (⟨im.dims, fun i => t.wrap (lb i)⟩ : Img (Px t))
      (Img.zipF (fun v k => kTest k v Px.zero) iv (⟨im.dims, fun i => t.wrap (lb i)⟩ : Img (Px t))) := by
    refine ⟨hivd, fun p k v hk hv => ?_⟩
    obtain ⟨w, hw, hw'⟩ := hivp p k hk
    rw [(zipF_map2 (fun v k => kTest k v Px.zero) hivd.symm).2.2 p _ _ hw' hk] at hv
    rw [kInv_eq (.inl hs)] at hw
    cases hw
    cases hv
    unfold kTest
    dsimp only
    constructor
    · rintro rfl
      rfl
    · intro hk0
      rw [if_pos]
      · dsimp only
        omega
      · unfold Px.truthy
        rw [decide_eq_true_eq]
        exact fun e => hk0 (Px.ext e)
  obtain ⟨⟨f0, r0, hr0⟩, hall⟩ := C66_skiz hs (by omega) E se (⟨im.dims, fun i => t.wrap (lb i)⟩ : Img (Px t)) _
    ⟨im.dims, fun _ => ⊤⟩ ha rfl hc hse
  have hrun : ∀ fuel, inflBasins E dflt se fuel im out =
      (lblSkiz E se fuel (⟨im.dims, fun i => t.wrap (lb i)⟩ : Img (Px t))
        (Img.zipF (fun v k => kTest k v Px.zero) iv (⟨im.dims, fun i => t.wrap (lb i)⟩ : Img (Px t)))
        ⟨im.dims, fun _ => ⊤⟩).bind fun r => match r with
        | .error c => some (.error c)
        | .ok (z, _) => morphOpen E true dflt z z := by
    intro fuel
    unfold inflBasins
    rw [checkDims_ok h]
    dsimp only
    rw [h1, Option.bind_some]
    dsimp only
    rw [hiv, Option.bind_some]
    rfl
  have hop : ∀ z z2, IsSkiz (pathRel im.dims (seRel se) se.size) (⟨im.dims, fun i => t.wrap (lb i)⟩ : Img (Px t))
      ⟨im.dims, fun _ => ⊤⟩ z z2 → ∃ b, morphOpen E true dflt z z = some (.ok b) ∧ IsOpenBy (seRel dflt) dflt.size z b := by
    intro z z2 hz
    have hzd : z.dims = im.dims := hz.dims1
    exact open_spec E true dflt z z (accepts_of_dims E (alloc_of_dims hz.dims1 ha) rfl) (hzd.symm ▸ hdf)
  obtain ⟨z, z2, rfl, hz⟩ := hall f0 r0 hr0
  refine ⟨n, ⟨im.dims, lb⟩, _, z, z2, h5, rfl, rfl, hnum, hz, ?_, ?_⟩
  · obtain ⟨b, hb, -⟩ := hop z z2 hz
    exact ⟨f0, .ok b, by rw [hrun, hr0, Option.bind_some]; exact hb⟩
  · intro fuel r hr
    rw [hrun] at hr
    obtain ⟨r1, e1, e2⟩ := Option.bind_eq_some_iff.1 hr
    obtain ⟨z', z2', rfl, hz'⟩ := hall fuel r1 e1
    obtain ⟨b, hb, hb'⟩ := hop z' z2' hz'
    dsimp only at e2
    rw [hb] at e2
    exact ⟨z', z2', b, (Option.some.inj e2).symm, hz', hb'⟩

/-- An element containing the origin opens zones of influence without touching the labelled pixels, if the zones were made with the
same element and labelled pixels one step apart have the same label. -/
theorem open_seeds (hs : t.signed = false) {D : Dims} {N : IntPoint → IntPoint → Prop} {lab ms z z2 b : Img (Px t)}
    (hD : lab.dims = D) (hz : IsSkiz (pathRel D N 1) lab ms z z2) (hm : ms.dims = D)
    (hms : ∀ p m, ms.at? p = some m → m ≠ Px.zero) (hb : IsOpenBy N 1 z b) (h0 : ∀ p, N p p)
    (hadj : ∀ p q u v, N p q → lab.at? p = some u → lab.at? q = some v → u ≠ Px.zero → v ≠ Px.zero → u = v)
    (hex : ∀ f : Img (Px t), f.dims = D → ∃ g, IterRel (IsDilBy N) 1 f g)
    (hexo : ∀ f : Img (Px t), f.dims = D → ∃ g, IsOpenBy N 1 f g)
    (p : IntPoint) (k : Px t) (hp : lab.at? p = some k) (hk : k ≠ Px.zero) : b.at? p = some k := by
  classical
  have hzb : (Px.zero : Px t) = ⊥ := zero_eq_bot hs
  have hpin : Img.In D p := hD ▸ Img.at?_eq_some_in _ _ _ hp
  have hzd : z.dims = D := hz.dims1.trans hD
  -- the pixel alone
  let f : Img (Px t) := ⟨D, fun i => if i = offOf D p then k else ⊥⟩
  have hf : ∀ q u, f.at? q = some u → u ≠ ⊥ → q = p ∧ u = k := by
    intro q u e hu
    have hq : Img.In D q := Img.at?_eq_some_in _ _ _ e
    rw [Img.buf_offOf f q hq] at e
    have e := Option.some.inj e
    change (if offOf D q = offOf D p then k else ⊥) = u at e
    by_cases hqp : offOf D q = offOf D p
    · rw [if_pos hqp] at e
      exact ⟨offOf_inj hq hpin hqp, e.symm⟩
    · rw [if_neg hqp] at e
      exact absurd e.symm hu
  have hfp : f.at? p = some k := by
    rw [Img.buf_offOf f p hpin]
    exact congrArg some (if_pos rfl)
  obtain ⟨g, hg⟩ := hex f rfl
  have hg' : IsDilBy (pathRel D N 1) f g := iterDil_path _ _ _ _ hg
  have hle : Img.Le g z := by
    refine ⟨hg'.1.trans hzd.symm, fun q u v hu hv => ?_⟩
    have hq : Img.In D q := hzd ▸ Img.at?_eq_some_in _ _ _ hv
    by_cases hu0 : u = ⊥
    · rw [hu0]
      exact bot_le
    obtain ⟨u', hu', hl⟩ := hg'.2 q hq
    rw [hu] at hu'
    cases hu'
    obtain ⟨q', hq', e'⟩ := lub_mem hl hu0
    obtain ⟨rfl, rfl⟩ := hf q' u e' hu0
    have el := Img.at?_some lab q (hD.symm ▸ hq)
    by_cases hl0 : lab.px q.x.toNat q.y.toNat q.z.toNat = Px.zero
    · have em := Img.at?_some ms q (hm.symm ▸ hq)
      have hpath : InflPath (pathRel D N 1) lab ms 1 u q := .step (.start hp hk) hq' em (hms _ _ em)
      obtain ⟨w, w2, f1, -, f3, -⟩ := hz.tie 1 q u u ⟨⟨u, hpath⟩, fun j hj k' hh => by
        obtain rfl : j = 0 := by omega
        cases hh with
        | start h1 h2 =>
          rw [el] at h1
          exact h2 ((Option.some.inj h1).symm.trans hl0)⟩ hpath hpath
      rw [hv] at f1
      cases f1
      exact f3
    · rw [C66_keep hz q _ el hl0] at hv
      cases hv
      obtain ⟨c, hc1, hc2, hc3⟩ := hq'
      change c = q at hc3
      subst hc3
      exact (hadj _ _ _ _ hc2 hp el hk hl0).le
  obtain ⟨g', hg2⟩ := hexo g hg'.1
  have h1 := open_mono hle hg2 hb
  have h2 := open_of_dil hg hg2
  have h3 := open_antiext hb
  have hbin : Img.In b.dims p := by rw [h3.1, hzd]; exact hpin
  have eb := Img.at?_some b p hbin
  obtain ⟨x, ex, hx⟩ := hg'.2 p hpin
  have hkx : k ≤ x := hx.1 ⟨p, ⟨p, hpin, h0 p, rfl⟩, hfp⟩
  refine eb.trans (congrArg some (le_antisymm ?_ ?_))
  · exact h3.2 p _ _ eb (C66_keep hz p k hp hk)
  · exact hkx.trans (h1.2 p _ _ ((h2.2 p).trans ex) eb)

/-- **C66**: with one symmetric element of size one containing the origin, which is also the default one, and a two-valued
input, every particle is in its own basin. -/
theorem C66_inflBasins_seeds (hs : t.signed = false) (hh : 2 ≤ t.hi) (E : Env (Px t)) (se : StrElt)
    (im : Img (Px s)) (out : Img (Px t)) (h : AcceptsD E.auto im.dims out.dims) (h1 : se.size = 1)
    (hN : ∀ p q, seRel se p q → seRel se q p) (hse : SEOk im.dims se) (h0 : ⟨0, 0, 0⟩ ∈ se.points)
    (htwo : ∀ p q a b, im.at? p = some a → im.at? q = some b → a ≠ Px.zero → b ≠ Px.zero → a = b)
    (hn : ∀ n, ParticleNumber (seRel se) im n → n < t.hi) :
    ∃ n lab, IsLabelling (seRel se) (· = ·) (· ≠ Px.zero) im n lab ∧ lab.dims = im.dims ∧
      ∀ fuel r, inflBasins E se se fuel im out = some r → ∃ b, r = .ok b ∧ b.dims = im.dims ∧
        ∀ p k, lab.at? p = some k → k ≠ 0 → ∃ v, b.at? p = some v ∧ v.val = k := by
  have hex : execSe se = se := by
    unfold execSe
    rw [if_neg (by omega)]
  obtain ⟨n, lab, num, z, z2, g1, g2, g3, g4, g5, -, g6⟩ :=
    C66_inflBasins_partial hs hh E se se im out h (hex.symm ▸ hN) hse hse (hex.symm ▸ hn)
  rw [hex] at g1
  refine ⟨n, lab, g1, g2, fun fuel r hr => ?_⟩
  obtain ⟨z', z2', b, rfl, hz, hb⟩ := g6 fuel r hr
  rw [h1] at hz hb
  have hzd : z'.dims = im.dims := hz.dims1.trans g3
  refine ⟨b, rfl, (open_dims hb).trans hzd, fun p k hk hk0 => ?_⟩
  obtain ⟨v, ev, hv⟩ := g4 p k hk
  have hal : ∀ f : Img (Px t), f.dims = im.dims → f.alloc = true := fun f hf => by
    unfold Img.alloc
    rw [hf]
    simpa using h.1
  have hne : ∀ q l u, lab.at? q = some l → num.at? q = some u → (u ≠ Px.zero ↔ l ≠ 0) := by
    intro q l u e1 e2
    obtain ⟨u', e3, e4⟩ := g4 q l e1
    rw [e2] at e3
    cases e3
    rw [not_iff_not]
    constructor
    · intro e
      rw [e] at e4
      have h00 : (Px.zero : Px t).val = 0 := rfl
      omega
    · intro e
      exact Px.ext (e4.trans (by rw [e]; rfl))
  refine ⟨v, open_seeds hs g3 hz rfl ?_ hb (fun q => seRel_refl se h0 q) ?_ ?_ ?_ p v ev ((hne p k v hk ev).2 hk0), hv⟩
  · intro q m hm
    rw [Img.buf_offOf _ q (Img.at?_eq_some_in _ _ _ hm)] at hm
    have e : (⊤ : Px t) = m := Option.some.inj hm
    rw [← e]
    intro e'
    have := congrArg Px.val e'
    rw [Px.top_val] at this
    have h0' : (Px.zero : Px t).val = 0 := rfl
    omega
  · intro q q' u u' hqq e1 e2 hu hu'
    have hq := g3 ▸ Img.at?_eq_some_in _ _ _ e1
    have hq' := g3 ▸ Img.at?_eq_some_in _ _ _ e2
    have l1 := Img.at?_some lab q (g2.symm ▸ hq)
    have l2 := Img.at?_some lab q' (g2.symm ▸ hq')
    have i1 := Img.at?_some im q hq
    have i2 := Img.at?_some im q' hq'
    have n1 := (hne q _ u l1 e1).1 hu
    have n2 := (hne q' _ u' l2 e2).1 hu'
    obtain ⟨w1, f1, f2⟩ := g4 q _ l1
    obtain ⟨w2, f3, f4⟩ := g4 q' _ l2
    rw [e1] at f1
    rw [e2] at f3
    cases f1
    cases f3
    have hnz : ∀ r a l, im.at? r = some a → lab.at? r = some l → l ≠ 0 → a ≠ Px.zero := by
      intro r a l ha hl hl0 e
      have hz := (not_congr (g1.zero r (Img.at?_eq_some_in _ _ _ ha))).1 (by
        rw [hl]
        exact fun e => hl0 (Option.some.inj e))
      obtain ⟨r', a', e1, e2, e3⟩ := not_not.1 hz
      have := FlatPath.val e3
      rw [e1, ha, e] at this
      exact e2 (Option.some.inj this)
    have heq := htwo q q' _ _ i1 i2 (hnz _ _ _ i1 l1 n1) (hnz _ _ _ i2 l2 n2)
    have := (g1.same q q' _ _ l1 l2 n1).2 (.step (.refl hq) hqq i1 i2 heq)
    apply Px.ext
    rw [f2, f4, this]
  · intro f hf
    obtain ⟨r, -, hr⟩ := dilate_spec E false se f f (accepts_of_dims E (hal f hf) rfl) (hf.symm ▸ hse)
    exact ⟨r, h1 ▸ hr⟩
  · intro f hf
    obtain ⟨r, -, hr⟩ := open_spec E false se f f (accepts_of_dims E (hal f hf) rfl) (hf.symm ▸ hse)
    exact ⟨r, h1 ▸ hr⟩

/-- An environment of the examples. -/
def exEnvSk : Env (Px UINT8) := ⟨1, false, fun _ => ⊥, fun _ => UINT8.wrap 200⟩
/-- Three particles for the cross: two in the corners, the third one below between them. -/
def exSeeds : Img (Px UINT8) := im8 ⟨3, 2, 1⟩ [255, 0, 255, 0, 255, 0]

/-- Two labels at the ends of a line, a hole of the mask. -/
example : ∃ fuel l1 l2, lblSkiz exEnvSk (HorizSE 1) fuel (im8 ⟨4, 1, 1⟩ [1, 0, 0, 2]) (im8 ⟨4, 1, 1⟩ [254, 0, 0, 253])
      (im8 ⟨4, 1, 1⟩ [255, 255, 0, 255]) = some (.ok (l1, l2)) ∧
    l1.at? ⟨3, 0, 0⟩ = some (UINT8.wrap 2) ∧ l1.at? ⟨2, 0, 0⟩ = some Px.zero := by
  have hb : ∀ (D : Dims) (f g : Nat → Px UINT8), (∀ i < D.count, (f i = Px.zero → g i = Px.zero) ∧
      (f i ≠ Px.zero → (g i).val = UINT8.hi - (f i).val)) → IsLabelCompl (⟨D, f⟩ : Img (Px UINT8)) ⟨D, g⟩ := by
    refine fun D f g h => ⟨rfl, fun p k v hk hv => ?_⟩
    have hp := Img.at?_eq_some_in _ _ _ hk
    rw [Img.buf_offOf (⟨D, f⟩ : Img (Px UINT8)) p hp] at hk
    rw [Img.buf_offOf (⟨D, g⟩ : Img (Px UINT8)) p hp] at hv
    cases hk
    cases hv
    exact h _ (offOf_lt hp)
  obtain ⟨⟨fuel, r, h1⟩, h2⟩ := C66_skiz (t := UINT8) rfl (by decide) exEnvSk (HorizSE 1) (im8 ⟨4, 1, 1⟩ [1, 0, 0, 2])
    (im8 ⟨4, 1, 1⟩ [254, 0, 0, 253]) (im8 ⟨4, 1, 1⟩ [255, 255, 0, 255]) (by decide) rfl (hb _ _ _ (by decide))
    (seOk_iff _ _ (by decide))
  obtain ⟨l1, l2, rfl, h3⟩ := h2 fuel r h1
  exact ⟨fuel, l1, l2, h1, C66_keep h3 ⟨3, 0, 0⟩ _ (by decide) (by decide), (C66_mask h3 ⟨2, 0, 0⟩ (by decide) (by decide)).1⟩

end Smil
