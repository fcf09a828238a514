import Verif.ZhangLemmas
import Verif.PropsAreaOpen
import Verif.DrawLemmas

/-! # C97: the skeleton of Zhang and Suen -/

namespace Smil

variable {t : PT}

/-- The non-zero points of the first slice. -/
def flat0 (im : Img (Px t)) : Set Pt2 := {p | ∃ v, im.at? ⟨p.1, p.2, 0⟩ = some v ∧ v.val ≠ 0}

theorem flat0_box (im : Img (Px t)) : InRect2 im.dims.w im.dims.h (flat0 im) := by
  rintro q ⟨v, hv, _⟩
  have := Img.at?_eq_some_in im _ v hv
  unfold Img.In at this
  simp only at this
  omega

theorem unsigned_lo (hs : t.signed = false) : t.lo = 0 := by simp [PT.lo, hs]

theorem px_nonneg0 (hs : t.signed = false) (v : Px t) : 0 ≤ v.val := by
  have := v.lo_le; rw [unsigned_lo hs] at this; exact this

/-- The padded image. -/
theorem zh_pad (hs : t.signed = false) (im : Img (Px t)) (hc : im.dims.count ≠ 0)
    (hv : ∀ p v, im.at? p = some v → v.val ≤ 1290) :
    ∃ o, copyWin id im ⟨0, 0, 0⟩ im.dims ⟨⟨im.dims.w + 2, im.dims.h + 2, 1⟩, fun _ => (⊥ : Px t)⟩ ⟨1, 1, 0⟩ =
        some (1, o) ∧ o.dims = ⟨im.dims.w + 2, im.dims.h + 2, 1⟩ ∧
      (∀ x y : Nat, x < im.dims.w → y < im.dims.h →
        im.at? ⟨x, y, 0⟩ = some (o.buf ((y + 1) * (im.dims.w + 2) + (x + 1)))) ∧
      ThinRep im.dims.w im.dims.h o.buf o.buf (flat0 im) := by
  obtain ⟨hw, hh, hd⟩ : 0 < im.dims.w ∧ 0 < im.dims.h ∧ 0 < im.dims.d := by
    unfold Dims.count at hc
    refine ⟨Nat.pos_of_ne_zero fun e => hc ?_, Nat.pos_of_ne_zero fun e => hc ?_,
      Nat.pos_of_ne_zero fun e => hc ?_⟩ <;> simp [e]
  obtain ⟨o, e, ed, hin, hout⟩ := C21_copy id im ⟨0, 0, 0⟩ im.dims
    ⟨⟨im.dims.w + 2, im.dims.h + 2, 1⟩, fun _ => (⊥ : Px t)⟩ ⟨1, 1, 0⟩
    (by unfold Img.In Dims.toPt; simp only; omega) (by unfold Img.In Dims.toPt; simp only; omega)
  simp only at ed hin hout
  have hbuf : ∀ x y : Nat, x < im.dims.w + 2 → y < im.dims.h + 2 →
      o.at? ⟨x, y, 0⟩ = some (o.buf (y * (im.dims.w + 2) + x)) := by
    intro x y hx hy
    have hi : Img.In o.dims ⟨x, y, 0⟩ := by rw [ed]; unfold Img.In; simp only; omega
    rw [at?_buf o hi]
    have := offOf_nat o.dims x y 0
    push_cast at this
    rw [this, ed]
    simp [rasterIndex, Nat.add_comm, Nat.mul_comm]
  have hval : ∀ x y : Nat, x < im.dims.w → y < im.dims.h →
      im.at? ⟨x, y, 0⟩ = some (o.buf ((y + 1) * (im.dims.w + 2) + (x + 1))) := by
    intro x y hx hy
    have hi : Img.In im.dims ⟨x, y, 0⟩ := by unfold Img.In; simp only; omega
    obtain ⟨a, ha⟩ := at_of_in hi
    have h1 := hin ⟨x, y, 0⟩ a hi (by unfold shiftBy; simpa using ha)
      (by unfold Img.In shiftBy; simp only; omega)
    have h2 := hbuf (x + 1) (y + 1) (by omega) (by omega)
    have e3 : shiftBy (⟨1, 1, 0⟩ : Dims) ⟨(x : Int), (y : Int), 0⟩ = ⟨((x + 1 : Nat) : Int), ((y + 1 : Nat) : Int), 0⟩ := by
      unfold shiftBy; push_cast; simp
    rw [e3, h2, id] at h1
    rw [ha, ← h1]
  have hbord : ∀ x y : Nat, x < im.dims.w + 2 → y < im.dims.h + 2 →
      ¬ (1 ≤ x ∧ x ≤ im.dims.w ∧ 1 ≤ y ∧ y ≤ im.dims.h) → o.buf (y * (im.dims.w + 2) + x) = ⊥ := by
    intro x y hx hy hn
    have h1 := hout ⟨x, y, 0⟩ (by
      unfold relTo Img.In; simp only; rintro ⟨h1, _⟩; apply hn; omega)
    rw [hbuf x y hx hy, at?_buf _ (by unfold Img.In; simp only; omega)] at h1
    exact Option.some.inj h1
  have hbot : (⊥ : Px t) = Px.zero := Px.ext (by
    show t.lo = 0
    exact unsigned_lo hs)
  have key : ∀ x y : Nat, x < im.dims.w + 2 → y < im.dims.h + 2 →
      (((x : Int) - 1, (y : Int) - 1) ∈ flat0 im ↔ nz (o.buf (y * (im.dims.w + 2) + x)) = true) := by
    intro x y hx hy
    by_cases hb : 1 ≤ x ∧ x ≤ im.dims.w ∧ 1 ≤ y ∧ y ≤ im.dims.h
    · have h1 := hval (x - 1) (y - 1) (by omega) (by omega)
      rw [Nat.sub_add_cancel hb.1, Nat.sub_add_cancel hb.2.2.1, Nat.cast_sub hb.1, Nat.cast_sub hb.2.2.1] at h1
      push_cast at h1
      show (∃ v, im.at? ⟨(x : Int) - 1, (y : Int) - 1, 0⟩ = some v ∧ v.val ≠ 0) ↔ _
      rw [h1]
      simp [nz]
    · rw [hbord x y hx hy hb, hbot]
      constructor
      · rintro hm
        have := flat0_box im _ hm
        simp only at this
        exact absurd (by omega) hb
      · intro hh; simp [nz, Px.zero] at hh
  refine ⟨o, e, ed, hval, flat0_box im, ?_, fun x y hx hy hm => (key x y hx hy).mp hm, fun _ _ _ _ _ => rfl, ?_⟩
  · intro x y hx hy
    refine ⟨px_nonneg0 hs _, ?_⟩
    by_cases hb : 1 ≤ x ∧ x ≤ im.dims.w ∧ 1 ≤ y ∧ y ≤ im.dims.h
    · have h1 := hval (x - 1) (y - 1) (by omega) (by omega)
      rw [Nat.sub_add_cancel hb.1, Nat.sub_add_cancel hb.2.2.1] at h1
      exact hv _ _ h1
    · rw [hbord x y hx hy hb, hbot]; simp [Px.zero]
  · intro x y hx hy hm
    rw [key x y hx hy] at hm
    refine Px.ext ?_
    show _ = (0 : Int)
    simpa [nz] using hm

/-- **C97**, for unsigned images whose pixels are at most 1290 (all images of type UINT8): the skeleton ends,
and its first slice is obtained from the first slice of the input by turns of the two phases of Zhang and
Suen, repeated until neither of them removes anything. The pixels kept keep their value; the others are zero.
The other slices of the output are left as they were. -/
theorem C97_thin_partial (hs : t.signed = false) (im out : Img (Px t)) (hc : im.dims.count ≠ 0)
    (hw : out.dims.w = im.dims.w) (hh : out.dims.h = im.dims.h) (hd : 0 < out.dims.d)
    (hv : ∀ p v, im.at? p = some v → v.val ≤ 1290) :
    ∃ r n, (∀ fuel, im.dims.count < fuel → zhangSkeleton fuel im out = some (some (1, r))) ∧
      r.dims = out.dims ∧
      flat0 r = (fun S => thin2 (thin1 S))^[n] (flat0 im) ∧
      (∀ p, ¬ Removable1 (flat0 r) p ∧ ¬ Removable2 (flat0 r) p) ∧
      (∀ x y v, r.at? ⟨x, y, 0⟩ = some v → v.val ≠ 0 → im.at? ⟨x, y, 0⟩ = some v) ∧
      ∀ x y z, z ≠ 0 → r.at? ⟨x, y, z⟩ = out.at? ⟨x, y, z⟩ := by
  obtain ⟨o, e, ed, hval, R⟩ := zh_pad hs im hc hv
  have hpos : 0 < im.dims.w ∧ 0 < im.dims.h ∧ 0 < im.dims.d := by
    unfold Dims.count at hc
    refine ⟨Nat.pos_of_ne_zero fun e => hc ?_, Nat.pos_of_ne_zero fun e => hc ?_,
      Nat.pos_of_ne_zero fun e => hc ?_⟩ <;> simp [e]
  have hcard : (flat0 im).ncard ≤ im.dims.count := by
    have h1 : (flat0 im).ncard ≤ (Set.Ico (0 : Int) im.dims.w ×ˢ Set.Ico (0 : Int) im.dims.h).ncard := by
      refine Set.ncard_le_ncard (fun q hq => ?_) ((Set.finite_Ico _ _).prod (Set.finite_Ico _ _))
      obtain ⟨h1, h2, h3, h4⟩ := flat0_box im q hq
      exact ⟨⟨h1, h2⟩, h3, h4⟩
    have h2 : (Set.Ico (0 : Int) im.dims.w ×ˢ Set.Ico (0 : Int) im.dims.h).ncard = im.dims.w * im.dims.h := by
      rw [Set.ncard_prod, ← Finset.coe_Ico, ← Finset.coe_Ico, Set.ncard_coe_finset, Set.ncard_coe_finset]
      simp
    have h3 : im.dims.w * im.dims.h ≤ im.dims.count := by
      unfold Dims.count; nlinarith [Nat.mul_pos hpos.1 hpos.2.1, hpos.2.2]
    omega
  obtain ⟨n, b, hb, Rb, s1, s2⟩ := zhLoop_spec im.dims.count (o.buf, o.buf) (flat0 im) hcard R R
  obtain ⟨r, er, rd, rin, rout⟩ := C21_copy id ⟨⟨im.dims.w + 2, im.dims.h + 2, 1⟩, b⟩ ⟨1, 1, 0⟩
    ⟨im.dims.w + 2, im.dims.h + 2, 1⟩ out ⟨0, 0, 0⟩
    (by unfold Img.In Dims.toPt; simp only; omega) (by unfold Img.In Dims.toPt; simp only; omega)
  have hr : ∀ x y : Nat, x < im.dims.w → y < im.dims.h →
      r.at? ⟨x, y, 0⟩ = some (b ((y + 1) * (im.dims.w + 2) + (x + 1))) := by
    intro x y hx hy
    have hi : Img.In (⟨im.dims.w + 2, im.dims.h + 2, 1⟩ : Dims) ⟨((x + 1 : Nat) : Int), ((y + 1 : Nat) : Int), 0⟩ := by
      unfold Img.In; simp only; omega
    have h1 := rin ⟨x, y, 0⟩ (b ((y + 1) * (im.dims.w + 2) + (x + 1))) (by unfold Img.In; simp only; omega)
      (by
        have e3 : shiftBy (⟨1, 1, 0⟩ : Dims) ⟨(x : Int), (y : Int), 0⟩ =
            ⟨((x + 1 : Nat) : Int), ((y + 1 : Nat) : Int), 0⟩ := by unfold shiftBy; push_cast; simp
        rw [e3, at?_buf _ hi]
        have := offOf_nat (⟨im.dims.w + 2, im.dims.h + 2, 1⟩ : Dims) (x + 1) (y + 1) 0
        simp only [Nat.cast_zero] at this
        rw [this]
        simp only [rasterIndex, Nat.mul_zero, Nat.add_zero]
        congr 2
        ring)
      (by unfold Img.In shiftBy; simp only; omega)
    unfold shiftBy at h1
    simpa using h1
  have hflat : flat0 r = thinTurn^[n] (flat0 im) := by
    ext q
    constructor
    · rintro ⟨v, hq, hne⟩
      have hi := Img.at?_eq_some_in r _ v hq
      rw [rd] at hi
      unfold Img.In at hi
      simp only at hi
      obtain ⟨x, hx⟩ : ∃ x : Nat, q.1 = x := ⟨q.1.toNat, by omega⟩
      obtain ⟨y, hy⟩ : ∃ y : Nat, q.2 = y := ⟨q.2.toNat, by omega⟩
      rw [hx, hy, hr x y (by omega) (by omega)] at hq
      have h1 := (Rb.nz_iff (x := x + 1) (y := y + 1) (by omega) (by omega)).mp (by
        rw [Option.some.inj hq]; simpa [nz] using hne)
      push_cast at h1
      rw [add_sub_cancel_right, add_sub_cancel_right] at h1
      rwa [show q = ((x : Int), (y : Int)) from Prod.ext hx hy]
    · intro hm
      have hi := Rb.box q hm
      obtain ⟨x, hx⟩ : ∃ x : Nat, q.1 = x := ⟨q.1.toNat, by omega⟩
      obtain ⟨y, hy⟩ : ∃ y : Nat, q.2 = y := ⟨q.2.toNat, by omega⟩
      refine ⟨_, by rw [hx, hy]; exact hr x y (by omega) (by omega), ?_⟩
      have h1 := (Rb.nz_iff (x := x + 1) (y := y + 1) (by omega) (by omega)).mpr (by
        push_cast
        rw [add_sub_cancel_right, add_sub_cancel_right]
        rwa [← show q = ((x : Int), (y : Int)) from Prod.ext hx hy])
      simpa [nz] using h1
  refine ⟨r, n, ?_, rd, hflat, ?_, ?_, ?_⟩
  · intro fuel hf
    unfold zhangSkeleton
    simp only
    rw [e, Option.bind_some]
    simp only
    rw [hb fuel hf, Option.bind_some]
    simp only
    rw [er, Option.map_some]
  · intro p
    rw [hflat]
    refine ⟨fun hp => ?_, fun hp => ?_⟩
    · have := hp.1.1
      rw [← s1] at this
      exact this.2 hp
    · have := hp.1.1
      rw [← s2] at this
      exact this.2 hp
  · intro x y v hxy hne
    have hi := Img.at?_eq_some_in r _ v hxy
    rw [rd] at hi
    unfold Img.In at hi
    simp only at hi
    have hm : (x, y) ∈ thinTurn^[n] (flat0 im) := hflat ▸ ⟨v, hxy, hne⟩
    obtain ⟨x, rfl⟩ : ∃ x' : Nat, x = x' := ⟨x.toNat, by omega⟩
    obtain ⟨y, rfl⟩ : ∃ y' : Nat, y = y' := ⟨y.toNat, by omega⟩
    rw [hr x y (by omega) (by omega)] at hxy
    rw [hval x y (by omega) (by omega), ← hxy]
    congr 1
    refine (Rb.inn (x + 1) (y + 1) (by omega) (by omega) ?_).symm
    push_cast
    rw [add_sub_cancel_right, add_sub_cancel_right]
    exact hm
  · intro x y z hz
    refine rout _ ?_
    unfold relTo Img.In
    simp only
    omega

/-- **C97**, topology: under the same conditions, two points of the skeleton are joined in the skeleton exactly
when they were joined in the input (8-connectivity); two points of the background of the input are joined in
the background of the skeleton exactly when they were joined in the background of the input (4-connectivity,
the outside of the image being background), and every point of the background of the skeleton is joined there
to the background of the input. So nothing is cut, and no hole appears, disappears or merges with another. -/
theorem C97_topology (hs : t.signed = false) (im out : Img (Px t)) (hc : im.dims.count ≠ 0)
    (hw : out.dims.w = im.dims.w) (hh : out.dims.h = im.dims.h) (hd : 0 < out.dims.d)
    (hv : ∀ p v, im.at? p = some v → v.val ≤ 1290) (fuel : Nat) (hf : im.dims.count < fuel) (c : Int)
    (r : Img (Px t)) (hr : zhangSkeleton fuel im out = some (some (c, r))) :
    flat0 r ⊆ flat0 im ∧
    (∀ u ∈ flat0 r, ∀ v ∈ flat0 r, JoinedIn Near8 (flat0 r) u v ↔ JoinedIn Near8 (flat0 im) u v) ∧
    (∀ u, u ∉ flat0 im → ∀ v, v ∉ flat0 im →
      (JoinedIn Near4 (flat0 r)ᶜ u v ↔ JoinedIn Near4 (flat0 im)ᶜ u v)) ∧
    ∀ u, u ∉ flat0 r → ∃ v, v ∉ flat0 im ∧ JoinedIn Near4 (flat0 r)ᶜ u v := by
  obtain ⟨r', n, h1, _, h3, _⟩ := C97_thin_partial hs im out hc hw hh hd hv
  have e : r = r' := by
    rw [h1 fuel hf] at hr
    exact (congrArg Prod.snd (Option.some.inj (Option.some.inj hr))).symm
  subst e
  have T : ThinnedTo (flat0 im) (flat0 r) := h3 ▸ thinTurn_thinned (flat0 im) n
  have hb := flat0_box im
  refine ⟨T.sub, fun u hu v hv => ⟨fun h => h.mono T.sub, fun h => T.joined hb hu hv h⟩, fun u hu v hv =>
    ⟨fun h => T.bg hb hu hv h, fun h => h.mono (S := (flat0 im)ᶜ) (T := (flat0 r)ᶜ) fun q hq hh => hq (T.sub hh)⟩, fun u hu => T.new hu⟩

/-- **C97**, idempotence: the skeleton of the skeleton is the skeleton. -/
theorem C97_idempotent (hs : t.signed = false) (im out out2 : Img (Px t)) (hc : im.dims.count ≠ 0)
    (hw : out.dims.w = im.dims.w) (hh : out.dims.h = im.dims.h) (hd : out.dims.d = 1)
    (h2 : out2.dims = out.dims)
    (hv : ∀ p v, im.at? p = some v → v.val ≤ 1290) :
    ∃ r r2, ∀ fuel, im.dims.count < fuel → zhangSkeleton fuel im out = some (some (1, r)) ∧
      zhangSkeleton fuel r out2 = some (some (1, r2)) ∧ ∀ p, r2.at? p = r.at? p := by
  obtain ⟨r, n, a1, a2, a3, a4, a5, a6⟩ := C97_thin_partial hs im out hc hw hh (by omega) hv
  have hpos : 0 < im.dims.w ∧ 0 < im.dims.h ∧ 0 < im.dims.d := by
    unfold Dims.count at hc
    refine ⟨Nat.pos_of_ne_zero fun e => hc ?_, Nat.pos_of_ne_zero fun e => hc ?_,
      Nat.pos_of_ne_zero fun e => hc ?_⟩ <;> simp [e]
  have hrc : r.dims.count ≠ 0 ∧ r.dims.count ≤ im.dims.count := by
    rw [a2]
    unfold Dims.count
    rw [hd, hh, hw, Nat.one_mul]
    exact ⟨Nat.mul_ne_zero (by omega) (by omega), by nlinarith [Nat.mul_pos hpos.1 hpos.2.1, hpos.2.2]⟩
  have hrv : ∀ p v, r.at? p = some v → v.val ≤ 1290 := by
    intro p v hp
    have hi := Img.at?_eq_some_in r _ v hp
    rw [a2] at hi
    unfold Img.In at hi
    obtain ⟨x, y, z⟩ := p
    simp only at hi
    obtain rfl : z = 0 := by omega
    by_cases h0 : v.val = 0
    · omega
    · exact hv _ _ (a5 x y v hp h0)
  obtain ⟨r2, n2, b1, b2, b3, b4, b5, b6⟩ := C97_thin_partial hs r out2 hrc.1 (by rw [a2, h2]) (by rw [a2, h2])
    (by rw [h2]; omega) hrv
  have hflat : flat0 r2 = flat0 r := by
    rw [b3]
    have hfix : (fun S => thin2 (thin1 S)) (flat0 r) = flat0 r := by
      have e1 : thin1 (flat0 r) = flat0 r :=
        Set.Subset.antisymm (fun q hq => hq.1) fun q hq => ⟨hq, (a4 q).1⟩
      have e2 : thin2 (flat0 r) = flat0 r :=
        Set.Subset.antisymm (fun q hq => hq.1) fun q hq => ⟨hq, (a4 q).2⟩
      show thin2 (thin1 (flat0 r)) = flat0 r
      rw [e1, e2]
    exact Function.iterate_fixed hfix n2
  refine ⟨r, r2, fun fuel hf => ⟨a1 fuel hf, b1 fuel (by omega), ?_⟩⟩
  rintro ⟨x, y, z⟩
  have hdims : r2.dims = r.dims := by rw [b2, h2, a2]
  by_cases hi : Img.In r.dims ⟨x, y, z⟩
  · have hz : z = 0 := by
      have := hi
      rw [a2] at this
      unfold Img.In at this
      simp only at this
      omega
    subst hz
    obtain ⟨v, hv⟩ := at_of_in hi
    obtain ⟨v2, hv2⟩ := at_of_in (im := r2) (p := ⟨x, y, 0⟩) (by rw [hdims]; exact hi)
    rw [hv, hv2]
    by_cases h0 : v2.val = 0
    · have : v.val = 0 := by
        by_contra hne
        have hm : (x, y) ∈ flat0 r2 := hflat ▸ ⟨v, hv, hne⟩
        obtain ⟨u, hu, hu0⟩ := hm
        rw [hv2] at hu
        exact hu0 (Option.some.inj hu ▸ h0)
      congr 1
      exact Px.ext (by rw [h0, this])
    · have := b5 x y v2 hv2 h0
      rw [hv] at this
      exact this.symm
  · rw [Img.at?_none r _ hi, Img.at?_none r2 _ (by rw [hdims]; exact hi)]

/-- The pixels of a result. -/
def zhVals : Option (Option (Int × Img (Px t))) → Option (List Int)
  | some (some r) => some ((List.range r.2.dims.count).map fun i => (r.2.buf i).val)
  | _ => none

/-- An image of any type. -/
def imOf (t : PT) (D : Dims) (l : List Int) : Img (Px t) := ⟨D, fun i => t.wrap (l.getD i 0)⟩

/-- Exception to **C97**: a component may vanish. The square of 2 × 2 pixels is removed by the first phase, so
that a non-empty image may have an empty skeleton. -/
theorem C97_vanish_bug :
    zhVals (zhangSkeleton 5 (im8 ⟨4, 4, 1⟩ [0,0,0,0, 0,9,9,0, 0,9,9,0, 0,0,0,0]) (im8 ⟨4, 4, 1⟩ [])) =
      some [0,0,0,0, 0,0,0,0, 0,0,0,0, 0,0,0,0] := by decide +kernel

/-- Exception to **C97**: the products of three neighbours overflow an `int` for pixels of 16 bits of value
1291 and above: the behaviour is undefined. For unsigned pixels of 32 bits the products wrap: a pixel of value
65536 between others of the same value is removed although the same shape with the value 1 keeps it. -/
theorem C97_product_bug :
    (zhangSkeleton 5 (imOf UINT16 ⟨2, 3, 1⟩ [1291,1291, 1291,1291, 1291,1291]) (imOf UINT16 ⟨2, 3, 1⟩ [])).isNone = true ∧
    zhVals (zhangSkeleton 5 (imOf UINT32 ⟨2, 3, 1⟩ [1,1, 1,1, 1,1]) (imOf UINT32 ⟨2, 3, 1⟩ [])) ≠
      (zhVals (zhangSkeleton 5 (imOf UINT32 ⟨2, 3, 1⟩ [65536,65536, 65536,65536, 65536,65536])
        (imOf UINT32 ⟨2, 3, 1⟩ []))).map (List.map (· / 65536)) := by decide +kernel

theorem zhFold_none (ph : Bool) (W n : Nat) (tmp : Nat → Px t) {i : Nat} (h : zhDel ph W n tmp i = none) :
    ∀ (l : List Nat) (s : (Nat → Px t) × Bool), i ∈ l → l.foldlM (zhStep ph W n tmp) s = none := by
  intro l
  induction l with
  | nil => intro s hi; simp at hi
  | cons j l ih =>
    intro s hi
    rw [List.foldlM_cons]
    show (zhStep ph W n tmp s j).bind _ = _
    by_cases hj : i = j
    · subst hj; rw [zhStep, h]; rfl
    · have hl : i ∈ l := by simpa [hj] using hi
      cases zhStep ph W n tmp s j with
      | none => rfl
      | some s' => exact ih s' hl

/-- Exception to **C97**: for signed pixels the border is filled with the least value, which is not zero; the
last column of the border is visited, and the neighbours of its last pixel are read beyond the end of the
buffer. The behaviour is undefined for every image. -/
theorem C97_signed_ub (hs : t.signed = true) (im out : Img (Px t)) (hc : im.dims.count ≠ 0) (fuel : Nat)
    (hf : 0 < fuel) : zhangSkeleton fuel im out = none := by
  obtain ⟨hw, hh, hd⟩ : 0 < im.dims.w ∧ 0 < im.dims.h ∧ 0 < im.dims.d := by
    unfold Dims.count at hc
    refine ⟨Nat.pos_of_ne_zero fun e => hc ?_, Nat.pos_of_ne_zero fun e => hc ?_,
      Nat.pos_of_ne_zero fun e => hc ?_⟩ <;> simp [e]
  obtain ⟨o, e, ed, hin, hout⟩ := C21_copy id im ⟨0, 0, 0⟩ im.dims
    ⟨⟨im.dims.w + 2, im.dims.h + 2, 1⟩, fun _ => (⊥ : Px t)⟩ ⟨1, 1, 0⟩
    (by unfold Img.In Dims.toPt; simp only; omega) (by unfold Img.In Dims.toPt; simp only; omega)
  simp only at ed hin hout
  have hb : o.buf (im.dims.h * (im.dims.w + 2) + (im.dims.w + 1)) = ⊥ := by
    have h1 := hout ⟨((im.dims.w + 1 : Nat) : Int), (im.dims.h : Int), 0⟩ (by
      unfold relTo Img.In; simp only; omega)
    rw [at?_buf o (by rw [ed]; unfold Img.In; simp only; omega), at?_buf _ (by
      unfold Img.In; simp only; omega)] at h1
    have := offOf_nat o.dims (im.dims.w + 1) im.dims.h 0
    simp only [Nat.cast_zero] at this
    rw [this, ed] at h1
    have h2 := Option.some.inj h1
    rw [show im.dims.h * (im.dims.w + 2) + (im.dims.w + 1) =
      rasterIndex (im.dims.w + 2) (im.dims.h + 2) (im.dims.w + 1) im.dims.h 0 by unfold rasterIndex; ring]
    exact h2
  have hnz : nz (⊥ : Px t) = true := by
    have : t.lo < 0 := by
      simp only [PT.lo, hs, if_true]
      have : (0 : Int) < ((2 ^ (t.bits - 1) : Nat) : Int) := by exact_mod_cast Nat.two_pow_pos _
      linarith
    have h2 : (⊥ : Px t).val = t.lo := rfl
    simp only [nz, h2, decide_eq_true_eq]
    omega
  have hdel : zhDel false (im.dims.w + 2) ((im.dims.w + 2) * (im.dims.h + 2)) o.buf
      (im.dims.h * (im.dims.w + 2) + (im.dims.w + 1)) = none := by
    unfold zhDel
    rw [hb, if_neg (by rw [hnz]; simp)]
    have hg : zhGet ((im.dims.w + 2) * (im.dims.h + 2)) o.buf
        (((im.dims.h * (im.dims.w + 2) + (im.dims.w + 1) : Nat) : Int) + (((im.dims.w + 2 : Nat) : Int) + 1)) = none := by
      unfold zhGet
      refine if_neg fun hh => ?_
      have := hh.2
      push_cast at this
      nlinarith
    have : ((zhOffs ((im.dims.w + 2 : Nat) : Int)).mapM fun x => zhGet ((im.dims.w + 2) * (im.dims.h + 2)) o.buf
        (((im.dims.h * (im.dims.w + 2) + (im.dims.w + 1) : Nat) : Int) + x)) = none := by
      simp only [zhOffs, List.mapM_cons, hg, Option.bind_eq_bind, Option.bind_none]
      simp
    rw [this]
    rfl
  have hv : im.dims.h * (im.dims.w + 2) + (im.dims.w + 1) ∈ zhVisit (im.dims.w + 2) (im.dims.h + 2) :=
    mem_zhVisit.mpr ⟨im.dims.w, im.dims.h - 1, le_refl _, by omega, by rw [Nat.sub_add_cancel (by omega)]⟩
  obtain ⟨k, rfl⟩ : ∃ k, fuel = k + 1 := ⟨fuel - 1, by omega⟩
  unfold zhangSkeleton
  simp only
  rw [e, Option.bind_some]
  simp only
  rw [zhLoop, zhPhase, zhFold_none false _ _ _ hdel _ _ hv]
  rfl

/-- A case of the hypotheses of **C97**, with a hole that stays. -/
example : zhVals (zhangSkeleton 40 (im8 ⟨6, 5, 1⟩
      [5,5,5,5,5,0, 5,5,5,5,5,0, 5,5,0,5,5,7, 5,5,5,5,5,0, 5,5,5,5,5,0]) (im8 ⟨6, 5, 1⟩ [])) =
    some [0,0,0,0,0,0, 0,5,5,5,0,0, 0,5,0,5,0,0, 0,5,5,5,0,0, 0,0,0,0,0,0] := by decide +kernel

end Smil
