import Verif.FastLabelLemmas
import Verif.Planar
import Verif.PropsLabel
import Verif.PropsMorphoAlgebra

/-!
# C108: fast labelling

On images of one slice whose pixels are zero or one same value, and with a neighbourhood between the cross
and the 3 by 3 square, `fastLabel` gives the labels of `label`. Everywhere else it may not.
-/

namespace Smil

open Relation

variable {t : PT}

/-! ## Helper lemmas -/

theorem squ_rel_iff (p q : IntPoint) : seRel (SquSE 1) p q ↔
    q.z = p.z ∧ (p.x ≤ q.x + 1 ∧ q.x ≤ p.x + 1) ∧ p.y ≤ q.y + 1 ∧ q.y ≤ p.y + 1 := by
  have hp : (SquSE 1).points = [⟨0, 0, 0⟩, ⟨1, 0, 0⟩, ⟨1, -1, 0⟩, ⟨0, -1, 0⟩, ⟨-1, -1, 0⟩, ⟨-1, 0, 0⟩,
    ⟨-1, 1, 0⟩, ⟨0, 1, 0⟩, ⟨1, 1, 0⟩] := by decide
  have ho : (SquSE 1).odd = false := by decide
  unfold seRel
  rw [hp, ho]
  simp only [List.mem_cons, List.not_mem_nil, or_false, exists_eq_or_imp, exists_eq_left, phys,
    Prod.mk_add_mk, Prod.mk.injEq]
  simp
  omega

section one
variable {D : Dims} (hd : D.d = 1)
include hd

theorem one_count : D.count = D.h * D.w := by unfold Dims.count; rw [hd, one_mul]

theorem one_coord {i : Nat} (hi : i < D.count) : coordPt D i = ⟨(i % D.w : Nat), (i / D.w : Nat), 0⟩ := by
  rw [one_count hd] at hi
  unfold coordPt
  have h1 : i < D.w * D.h := by rw [Nat.mul_comm]; exact hi
  rw [Nat.mod_eq_of_lt h1, Nat.div_eq_of_lt h1]
  rfl

omit hd in
theorem one_off (x y : Nat) : offOf D ⟨x, y, 0⟩ = x + D.w * y := by
  unfold offOf rasterIndex; simp

theorem one_in (x y : Nat) : Img.In D ⟨x, y, 0⟩ ↔ x < D.w ∧ y < D.h := by
  unfold Img.In; rw [hd]; simp only; omega

end one

/-- The residue of an image with the values zero and `v`. -/
theorem flResidue_spec (hs : t.signed = false) (E : Env (Px t)) {im : Img (Px t)} (ha : im.alloc = true)
    (hd : im.dims.d = 1) (hh : 2 ≤ im.dims.h) {v : Px t}
    (hbin : ∀ p a, im.at? p = some a → a = Px.zero ∨ a = v) :
    ∃ tmp : Img (Px t), flResidue E im = some (.ok tmp) ∧ ∀ i < im.dims.count,
      ((im.buf i ≠ Px.zero ∧ (i % im.dims.w = 0 ∨ ∃ q, im.at? q = some Px.zero ∧
        seRel (SquSE 1) (coordPt im.dims i) q)) → tmp.buf i = v) ∧
      (¬ (im.buf i ≠ Px.zero ∧ (i % im.dims.w = 0 ∨ ∃ q, im.at? q = some Px.zero ∧
        seRel (SquSE 1) (coordPt im.dims i) q)) → tmp.buf i = Px.zero) := by
  have hv0 : ∀ u : Px t, Px.zero ≤ u := fun u => by
    rw [Px.le_iff]
    have h1 : t.lo = 0 := by unfold PT.lo; rw [hs]; rfl
    have h2 : (Px.zero : Px t).val = 0 := rfl
    have := u.lo_le
    omega
  have hse : SEOk im.dims (SquSE 1) := by
    refine ⟨by decide, by decide, fun h => absurd h (by decide), fun _ => ⟨?_, by decide, fun _ => hh⟩,
      fun h => ?_⟩
    · intro p
      have : (SquSE 1).points = builtinPts (SquSE 1).seT := by decide
      rw [this]
    · exact absurd h (by decide)
  obtain ⟨e, he, hrel⟩ := erode_spec E false (SquSE 1) im ⟨im.dims, E.raw⟩
    (accepts_of_dims E ha rfl) hse
  have hsz : (SquSE 1).size = 1 := rfl
  rw [hsz] at hrel
  obtain ⟨m, ⟨hm1, hm2⟩, hm3⟩ := hrel
  have hem : ∀ p, Img.In im.dims p → ∃ u, e.at? p = some u ∧
      IsGLB { u | ∃ q, seRel (SquSE 1) p q ∧ im.at? q = some u } u := by
    intro p hp
    obtain ⟨u, h1, h2⟩ := hm2 p hp
    exact ⟨u, by rw [← hm3.2 p]; exact h1, h2⟩
  have hdim : e.dims = im.dims := by rw [← hm3.1, hm1]
  have hself : ∀ p, seRel (SquSE 1) p p := fun p => by rw [squ_rel_iff]; omega
  have hle : Img.Le e im := by
    refine ⟨hdim, ?_⟩
    intro p u w hu hw
    obtain ⟨u', h1, h2⟩ := hem p (Img.at?_eq_some_in _ _ _ hw)
    rw [hu] at h1; cases h1
    exact h2.1 ⟨p, hself p, hw⟩
  obtain ⟨r, hr, hrd, hrv⟩ := subImg_exact hs (E := E) (out := im) (accepts_of_dims E ha rfl) hle
  refine ⟨⟨im.dims, fun i => if i % im.dims.w = 0 then im.buf i else r.buf i⟩, ?_, ?_⟩
  · unfold flResidue
    rw [if_pos hd, he]
    simp only [andThen, Option.bind_some]
    rw [hr]
    rfl
  · intro i hi
    obtain ⟨hin, hoff⟩ := coordPt_in hi
    have hat : im.at? (coordPt im.dims i) = some (im.buf i) := by rw [Img.buf_offOf _ _ hin, hoff]
    by_cases h0 : i % im.dims.w = 0
    · simp only [if_pos h0]
      constructor
      · rintro ⟨h1, -⟩
        exact (hbin _ _ hat).resolve_left h1
      · intro h1
        by_contra h2
        exact h1 ⟨h2, .inl h0⟩
    · simp only [if_neg h0]
      obtain ⟨u, hu, hglb⟩ := hem _ hin
      obtain ⟨x, hx, hxv⟩ := hrv _ _ _ hat hu
      have hxi : r.buf i = x := by
        have := Img.buf_offOf r (coordPt im.dims i) (by rw [hrd]; exact hin)
        rw [hx, hrd, hoff] at this
        cases this; rfl
      rw [hxi]
      have hz : (Px.zero : Px t).val = 0 := rfl
      constructor
      · rintro ⟨h1, h2⟩
        obtain ⟨q, hq, hpq⟩ := h2.resolve_left h0
        have hu0 : u = Px.zero := le_antisymm (hglb.1 ⟨q, hpq, hq⟩) (hv0 u)
        apply Px.ext
        rw [hxv, hu0, (hbin _ _ hat).resolve_left h1, hz, sub_zero]
      · intro h1
        apply Px.ext
        rw [hxv, hz]
        by_cases h2 : im.buf i = Px.zero
        · have : u = Px.zero := le_antisymm (by rw [← h2]; exact hglb.1 ⟨_, hself _, hat⟩) (hv0 u)
          rw [this, h2]; omega
        · have hall : ∀ q a, seRel (SquSE 1) (coordPt im.dims i) q → im.at? q = some a → a = v := by
            intro q a hq ha
            refine (hbin _ _ ha).resolve_left ?_
            rintro rfl
            exact h1 ⟨h2, .inr ⟨q, ha, hq⟩⟩
          have e1 : im.buf i = v := hall _ _ (hself _) hat
          have e2 : u = v := by
            refine le_antisymm (hglb.1 ⟨_, hself _, by rw [← e1]; exact hat⟩) (hglb.2 ?_)
            rintro a ⟨q, hq, ha⟩
            exact le_of_eq (hall q a hq ha).symm
          rw [e1, e2]; omega

/-- What is asked of the neighbourhood: symmetric, the four pixels beside are neighbours, and all the
neighbours are in the 3 by 3 square. -/
structure NbhdOk (D : Dims) (N : IntPoint → IntPoint → Prop) : Prop where
  symm : ∀ p q, N p q → N q p
  beside : ∀ p q, Img.In D p → Img.In D q → p.z = q.z →
    ((p.y = q.y ∧ (p.x + 1 = q.x ∨ q.x + 1 = p.x)) ∨ (p.x = q.x ∧ (p.y + 1 = q.y ∨ q.y + 1 = p.y))) →
    N p q
  square : ∀ p q, Img.In D p → Img.In D q → N p q → p.z = q.z ∧
    (p.x ≤ q.x + 1 ∧ q.x ≤ p.x + 1) ∧ p.y ≤ q.y + 1 ∧ q.y ≤ p.y + 1

/-- The pixel of the plane with its column shifted by one. -/
def padPt (p : Nat × Nat) : IntPoint := ⟨(p.1 - 1 : Nat), (p.2 : Nat), 0⟩

/-- The set of the non-zero pixels, one column to the right. -/
def planarOf (im : Img (Px t)) (hd : im.dims.d = 1) (N : IntPoint → IntPoint → Prop)
    (hN : NbhdOk im.dims N) : Planar where
  W := im.dims.w
  H := im.dims.h
  K p := 1 ≤ p.1 ∧ p.1 ≤ im.dims.w ∧ p.2 < im.dims.h ∧ im.buf (p.1 - 1 + im.dims.w * p.2) ≠ Px.zero
  N p q := N (padPt p) (padPt q)
  inn p h := ⟨h.1, h.2.1, h.2.2.1⟩
  symm p q h := hN.symm _ _ h
  cross p q hp hq h := by
    refine hN.beside _ _ ((one_in hd _ _).mpr ⟨by omega, hp.2.2.1⟩)
      ((one_in hd _ _).mpr ⟨by omega, hq.2.2.1⟩) rfl ?_
    have h1 := hp.1
    have h2 := hq.1
    unfold Adj4 at h
    unfold padPt
    simp only
    omega
  sq p q hp hq h := by
    have := hN.square _ _ ((one_in hd _ _).mpr ⟨by omega, hp.2.2.1⟩)
      ((one_in hd _ _).mpr ⟨by omega, hq.2.2.1⟩) h
    have h1 := hp.1
    have h2 := hq.1
    unfold padPt at this
    simp only at this
    unfold NearSq
    omega

section
variable {im : Img (Px t)} {hd : im.dims.d = 1} {N : IntPoint → IntPoint → Prop}
  {hN : NbhdOk im.dims N}

theorem padPt_coord {i : Nat} (hd : im.dims.d = 1) (hi : i < im.dims.count) :
    padPt (i % im.dims.w + 1, i / im.dims.w) = coordPt im.dims i := by
  rw [one_coord hd hi]; rfl

theorem one_split (i : Nat) : i % im.dims.w + 1 - 1 + im.dims.w * (i / im.dims.w) = i := by
  rw [Nat.add_sub_cancel]; exact Nat.mod_add_div i im.dims.w

theorem planar_K {i : Nat} (hi : i < im.dims.count) :
    (planarOf im hd N hN).K (i % im.dims.w + 1, i / im.dims.w) ↔ im.buf i ≠ Px.zero := by
  have hc := one_count hd
  have hw : 0 < im.dims.w := by
    rcases Nat.eq_zero_or_pos im.dims.w with e | e
    · rw [hc, e] at hi; simp at hi
    · exact e
  have hy : i / im.dims.w < im.dims.h := by
    rw [hc] at hi; exact Nat.div_lt_of_lt_mul (by rw [Nat.mul_comm]; exact hi)
  have := Nat.mod_lt i hw
  show (1 ≤ i % im.dims.w + 1 ∧ _ ∧ _ ∧ _) ↔ _
  simp only [one_split]
  constructor
  · exact fun h => h.2.2.2
  · exact fun h => ⟨by omega, by omega, hy, h⟩

/-- The offset of a pixel of the padded plane. -/
theorem planar_off {p : Nat × Nat} (h1 : 1 ≤ p.1) (h2 : p.1 ≤ im.dims.w) (h3 : p.2 < im.dims.h)
    (hd : im.dims.d = 1) :
    p.1 - 1 + im.dims.w * p.2 < im.dims.count ∧
      ((p.1 - 1 + im.dims.w * p.2) % im.dims.w + 1, (p.1 - 1 + im.dims.w * p.2) / im.dims.w) = p := by
  refine ⟨?_, ?_⟩
  · rw [one_count hd, Nat.mul_comm im.dims.h]
    calc p.1 - 1 + im.dims.w * p.2 < im.dims.w * p.2 + im.dims.w := by omega
      _ = im.dims.w * (p.2 + 1) := by rw [Nat.mul_succ]
      _ ≤ im.dims.w * im.dims.h := Nat.mul_le_mul_left _ h3
  · rw [Nat.add_mul_mod_self_left, Nat.mod_eq_of_lt (by omega), Nat.add_mul_div_left _ _ (by omega),
      Nat.div_eq_of_lt (by omega)]
    exact Prod.ext (by dsimp; omega) (by dsimp; omega)

theorem planar_res {i : Nat} (hi : i < im.dims.count) :
    (planarOf im hd N hN).Res (i % im.dims.w + 1, i / im.dims.w) ↔
      (im.buf i ≠ Px.zero ∧ (i % im.dims.w = 0 ∨ ∃ q, im.at? q = some Px.zero ∧
        seRel (SquSE 1) (coordPt im.dims i) q)) := by
  unfold Planar.Res
  rw [planar_K hi]
  refine and_congr_right fun _ => or_congr (by dsimp; omega) ?_
  rw [one_coord hd hi]
  constructor
  · rintro ⟨q, h1, ⟨h2, h3⟩, h4, h5⟩
    have h2' : q.1 ≤ im.dims.w := h2
    have h3' : q.2 < im.dims.h := h3
    refine ⟨padPt q, ?_, ?_⟩
    · rw [Img.buf_offOf im (padPt q) ((one_in hd (q.1 - 1) q.2).mpr ⟨by omega, h3'⟩)]
      unfold padPt
      rw [one_off]
      refine congrArg some ?_
      by_contra hne
      exact h5 ⟨h1, h2', h3', hne⟩
    · rw [squ_rel_iff]
      unfold NearSq at h4
      unfold padPt
      simp only at h4 ⊢
      generalize i / im.dims.w = y at *
      generalize i % im.dims.w = x at *
      refine ⟨trivial, ?_⟩
      omega
  · rintro ⟨q, hq, hr⟩
    rw [squ_rel_iff] at hr
    have hin := Img.at?_eq_some_in _ _ _ hq
    have hq' := hin
    unfold Img.In at hin
    rw [hd] at hin
    have eq : q = ⟨(q.x.toNat : Nat), (q.y.toNat : Nat), 0⟩ := by
      cases q; simp only [IntPoint.mk.injEq] at *; omega
    refine ⟨(q.x.toNat + 1, q.y.toNat), by dsimp; omega, ⟨?_, ?_⟩, ?_, ?_⟩
    · show q.x.toNat + 1 ≤ im.dims.w; omega
    · show q.y.toNat < im.dims.h; omega
    · unfold NearSq
      simp only at hr ⊢
      omega
    · rintro ⟨-, -, -, h⟩
      rw [Img.buf_offOf _ _ hq', eq, one_off] at hq
      simp only [Nat.add_sub_cancel] at h
      exact h (Option.some.inj hq)

end

/-- The two passes on such an image, whatever the labels of `label`. -/
theorem fastLabel_eq (hs : t.signed = false) (E : Env (Px t)) {M : Nat} (hM : 2 ≤ M) {se : StrElt}
    {im : Img (Px t)} {dout : Dims} (hacc : AcceptsD E.auto im.dims dout) (hd : im.dims.d = 1)
    (hh : 2 ≤ im.dims.h) {v : Px t} (hbin : ∀ p a, im.at? p = some a → a = Px.zero ∨ a = v)
    (hN : NbhdOk im.dims (seRel (execSe se))) :
    ∃ n o o', fastLabel E M false se im dout = some (.ok (n, ⟨im.dims, o⟩)) ∧
      label E.auto M false se se im dout = some (.ok (n, ⟨im.dims, o'⟩)) ∧
      ∀ i < im.dims.count, o i = o' i := by
  have ha : im.alloc = true := by
    have := hacc.1
    unfold Img.alloc
    simp only [decide_eq_true_eq] at *
    omega
  obtain ⟨tmp, htmp, hval⟩ := flResidue_spec hs E ha hd hh hbin
  have hc := one_count hd
  have hw : 0 < im.dims.w := by
    have := hacc.1
    rcases Nat.eq_zero_or_pos im.dims.w with e | e
    · rw [hc, e] at this; simp at this
    · exact e
  have hat : ∀ i < im.dims.count, im.at? (coordPt im.dims i) = some (im.buf i) := fun i hi => by
    rw [Img.buf_offOf _ _ (coordPt_in hi).1, (coordPt_in hi).2]
  have hbv : ∀ i < im.dims.count, im.buf i ≠ Px.zero → im.buf i = v := fun i hi h =>
    (hbin _ _ (hat i hi)).resolve_left h
  obtain ⟨C, hC⟩ : ∃ C : LabCfg, C = ⟨im.dims.count, nbOffsets im.dims (execSe se),
    fun nb cur => decide (im.buf nb = tmp.buf cur), fun i => decide (im.buf i ≠ Px.zero), M⟩ := ⟨_, rfl⟩
  obtain ⟨L, hL⟩ : ∃ L : LabCfg, L = ⟨im.dims.count, nbOffsets im.dims (execSe se),
    fun nb cur => decide (im.buf nb = im.buf cur), fun i => decide (im.buf i ≠ Px.zero), M⟩ := ⟨_, rfl⟩
  have hCn : C.n = im.dims.count := by rw [hC]
  have hLn : L.n = im.dims.count := by rw [hL]
  have hkeep : ∀ i, C.keep i = true ↔ im.buf i ≠ Px.zero := by intro i; rw [hC]; simp
  have hkeep' : ∀ i, C.keep i = false ↔ im.buf i = Px.zero := by intro i; rw [hC]; simp
  have hnbs : C.nbs = nbOffsets im.dims (execSe se) := by rw [hC]
  let G := planarOf im hd (seRel (execSe se)) hN
  have hGK : ∀ {i}, i < im.dims.count → (G.K (i % im.dims.w + 1, i / im.dims.w) ↔ im.buf i ≠ Px.zero) :=
    fun hi => planar_K hi
  have hGR : ∀ {i}, i < im.dims.count → (G.Res (i % im.dims.w + 1, i / im.dims.w) ↔
      (im.buf i ≠ Px.zero ∧ (i % im.dims.w = 0 ∨ ∃ q, im.at? q = some Px.zero ∧
        seRel (SquSE 1) (coordPt im.dims i) q))) := fun hi => planar_res hi
  have hres : ∀ i < im.dims.count, (decide (tmp.buf i ≠ Px.zero) = true ↔
      G.Res (i % im.dims.w + 1, i / im.dims.w)) := by
    intro i hi
    rw [hGR hi, decide_eq_true_iff]
    constructor
    · intro h
      by_contra h1
      exact h ((hval i hi).2 h1)
    · intro h
      rw [(hval i hi).1 h, ← hbv i hi h.1]
      exact h.1
  have hnb : ∀ i < im.dims.count, ∀ j ∈ C.nbs i, j < im.dims.count ∧
      seRel (execSe se) (coordPt im.dims i) (coordPt im.dims j) := by
    intro i hi j hj
    rw [hnbs, ← (coordPt_in hi).2, mem_nbOffsets (coordPt_in hi).1] at hj
    obtain ⟨p, hp, e, b, hb, -, h⟩ := hj
    rw [← e, coordPt_offOf hp]
    exact ⟨offOf_lt hp, b, hb, h⟩
  have hnb' : ∀ i < im.dims.count, ∀ j < im.dims.count, i ≠ j →
      seRel (execSe se) (coordPt im.dims i) (coordPt im.dims j) → j ∈ C.nbs i := by
    intro i hi j hj hne h
    have := (seRel_nb (coordPt_in hi).1 (coordPt_in hj).1 (fun e => hne (by
      rw [← (coordPt_in hi).2, e, (coordPt_in hj).2]))).mp h
    rwa [(coordPt_in hi).2, (coordPt_in hj).2, ← hnbs] at this
  have hlt : ∀ i < C.n, ∀ j ∈ C.nbs i, j < C.n := by
    intro i hi j hj; rw [hCn] at hi ⊢; exact (hnb i hi j hj).1
  have hsym : ∀ i < L.n, ∀ j, ReflTransGen L.R i j → ReflTransGen L.R j i := by
    intro i hi j h
    rw [hLn] at hi
    have hlab : L = labCfg M (fun a b => decide (a = b)) (execSe se) im := by rw [hL]
    rw [hlab] at h ⊢
    obtain ⟨hj, hp⟩ := linkPath_of_reach hi h
    have := reach_of_linkPath (M := M) (hp.symm hN.symm fun a b h => px_eq_symm _ _ h)
    rwa [(coordPt_in hi).2, (coordPt_in hj).2] at this
  have hok : FlOk C L im.dims.w fun i => decide (tmp.buf i ≠ Px.zero) := by
    refine ⟨by rw [hCn, hLn], by rw [hC, hL], by rw [hC, hL], by rw [hC, hL], hlt, ?_, ?_, ?_, ?_, ?_,
      ?_, hsym⟩
    · intro i hi hk j hj
      rw [hCn] at hi
      obtain ⟨hj1, hj2⟩ := hnb i hi j hj
      have e : C.cmp j i = decide (im.buf j = tmp.buf i) := by rw [hC]
      rw [e, decide_eq_true_iff, hkeep, hres i hi]
      rw [hkeep] at hk
      by_cases hr : G.Res (i % im.dims.w + 1, i / im.dims.w)
      · rw [(hval i hi).1 ((hGR hi).mp hr)]
        constructor
        · intro h
          refine ⟨hr, ?_⟩
          rw [h, ← hbv i hi hk]; exact hk
        · intro h; exact hbv j hj1 h.2
      · rw [(hval i hi).2 (fun h => hr ((hGR hi).mpr h))]
        constructor
        · intro h
          refine absurd ((hGR hi).mpr ⟨hk, .inr ⟨coordPt im.dims j, ?_, ?_⟩⟩) hr
          · rw [hat j hj1, h]
          · rw [squ_rel_iff]
            have := hN.square _ _ (coordPt_in hi).1 (coordPt_in hj1).1 hj2
            omega
        · intro h; exact absurd h.1 hr
    · intro i hi hk j hj
      rw [hCn] at hi
      rw [hkeep] at hk ⊢
      have e : L.cmp j i = decide (im.buf j = im.buf i) := by rw [hL]
      rw [e, decide_eq_true_iff]
      constructor
      · intro h; rw [h]; exact hk
      · intro h; rw [hbv j (hnb i hi j hj).1 h, hbv i hi hk]
    · intro i hi h
      rw [hCn] at hi
      rw [hkeep]
      exact ((hGR hi).mp ((hres i hi).mp h)).1
    · intro i hi hk h
      rw [hCn] at hi
      rw [hkeep] at hk
      rw [hres i hi, hGR hi]
      refine ⟨hk, ?_⟩
      by_cases h0 : i % im.dims.w = 0
      · exact .inl h0
      · right
        have h1 := (hkeep' _).mp (h.resolve_left h0)
        have hi1 : i - 1 < im.dims.count := by omega
        refine ⟨coordPt im.dims (i - 1), by rw [hat _ hi1, h1], ?_⟩
        have hp : i ≠ 0 := fun e => h0 (by rw [e]; simp)
        have hdiv : (i - 1) / im.dims.w = i / im.dims.w ∧ (i - 1) % im.dims.w + 1 = i % im.dims.w := by
          have h3 := Nat.div_add_mod i im.dims.w
          have h4 := Nat.mod_lt i hw
          have e : i - 1 = (i % im.dims.w - 1) + im.dims.w * (i / im.dims.w) := by omega
          rw [e]
          rw [Nat.add_mul_div_left _ _ hw, Nat.add_mul_mod_self_left, Nat.div_eq_of_lt (by omega),
            Nat.mod_eq_of_lt (by omega)]
          omega
        rw [one_coord hd hi, one_coord hd hi1, squ_rel_iff]
        simp only
        refine ⟨trivial, ?_⟩
        omega
    · intro i hi h0 h1 h2
      rw [hCn] at hi
      have hi1 : i < im.dims.count := by omega
      refine hnb' i hi1 (i + 1) hi (by omega) ?_
      refine hN.beside _ _ (coordPt_in hi1).1 (coordPt_in hi).1 ?_ ?_
      · rw [one_coord hd hi1, one_coord hd hi]
      · left
        have hdiv : (i + 1) / im.dims.w = i / im.dims.w ∧ i % im.dims.w + 1 = (i + 1) % im.dims.w := by
          have h3 := Nat.div_add_mod (i + 1) im.dims.w
          have h4 := Nat.mod_lt (i + 1) hw
          have e : i = ((i + 1) % im.dims.w - 1) + im.dims.w * ((i + 1) / im.dims.w) := by omega
          have e1 : i / im.dims.w = (i + 1) / im.dims.w := by
            conv_lhs => rw [e]
            rw [Nat.add_mul_div_left _ _ hw, Nat.div_eq_of_lt (by omega)]; omega
          have e2 : i % im.dims.w = (i + 1) % im.dims.w - 1 := by
            conv_lhs => rw [e]
            rw [Nat.add_mul_mod_self_left, Nat.mod_eq_of_lt (by omega)]
          omega
        rw [one_coord hd hi1, one_coord hd hi]
        simp only
        omega
    · intro k hk hrk hst hF
      rw [hCn] at hk
      rw [hres k hk] at hrk
      have hKk : G.K (k % im.dims.w + 1, k / im.dims.w) := hrk.1
      have hbk := (hGK hk).mp hKk
      -- an earlier pixel of the component
      have hLk : L.keep k = true := by rw [hL]; simpa using hbk
      obtain ⟨j, hj, hkj, hjr⟩ : ∃ j < k, L.keep j = true ∧ ReflTransGen L.R j k := by
        by_contra hno
        exact hF ⟨hLk, fun j hj hkj hr => hno ⟨j, hj, hkj, hr⟩⟩
      have hconn : ∀ {i j}, i < im.dims.count → im.buf i ≠ Px.zero → ReflTransGen L.R i j →
          j < im.dims.count ∧ im.buf j ≠ Px.zero ∧
          G.Conn (i % im.dims.w + 1, i / im.dims.w) (j % im.dims.w + 1, j / im.dims.w) := by
        intro i j hi hb h
        induction h with
        | refl => exact ⟨hi, hb, .refl⟩
        | @tail j l _ hjl ih =>
          obtain ⟨h1, h2, h3⟩ := ih
          have hm : l ∈ C.nbs j := by
            have := hjl.1
            rw [hL] at this; rw [hnbs]; exact this
          obtain ⟨h4, h5⟩ := hnb j h1 l hm
          have h6 : im.buf l ≠ Px.zero := by
            have := hjl.2
            rw [hL] at this
            simp only [decide_eq_true_eq] at this
            rw [this]; exact h2
          refine ⟨h4, h6, h3.tail ⟨?_, (hGK h1).mpr h2, (hGK h4).mpr h6⟩⟩
          show seRel (execSe se) (padPt _) (padPt _)
          rw [padPt_coord hd h1, padPt_coord hd h4]; exact h5
      have hjk := hsym j (by rw [hLn]; omega) k hjr
      have hcj := (hconn hk hbk hjk).2.2
      have hbef : Before (j % im.dims.w + 1, j / im.dims.w) (k % im.dims.w + 1, k / im.dims.w) := by
        have h1 := Nat.div_add_mod j im.dims.w
        have h2 := Nat.div_add_mod k im.dims.w
        have h3 : j / im.dims.w ≤ k / im.dims.w := Nat.div_le_div_right hj.le
        unfold Before
        simp only
        by_cases e : j / im.dims.w = k / im.dims.w
        · right
          rw [e] at h1
          exact ⟨e, by omega⟩
        · left; omega
      have hleft : ¬ G.K (k % im.dims.w + 1 - 1, k / im.dims.w) := by
        rintro ⟨h1, h2, h3, h4⟩
        simp only at h1 h2 h3 h4
        have h0 : k % im.dims.w ≠ 0 := by omega
        have h5 := (hkeep' _).mp (hst.resolve_left h0)
        have h6 := Nat.mod_add_div k im.dims.w
        rw [show k % im.dims.w + 1 - 1 - 1 + im.dims.w * (k / im.dims.w) = k - 1 by omega] at h4
        exact h4 h5
      obtain ⟨m, hm, hmk, hp⟩ := Planar.earlier hKk hleft hcj hbef
      have hback : ∀ {p}, G.Res p → p.1 - 1 + im.dims.w * p.2 < im.dims.count ∧
          (decide (tmp.buf (p.1 - 1 + im.dims.w * p.2) ≠ Px.zero) = true) := by
        intro p hp
        obtain ⟨h1, h2, h3, h4⟩ := hp.1
        obtain ⟨h5, h6⟩ := planar_off (im := im) h1 h2 h3 hd
        refine ⟨h5, ?_⟩
        rw [hres _ h5, h6]; exact hp
      have hpath : ∀ {p}, G.BPath m p → ReflTransGen (fun i j => j ∈ C.nbs i ∧
          decide (tmp.buf i ≠ Px.zero) = true ∧ decide (tmp.buf j ≠ Px.zero) = true)
          (m.1 - 1 + im.dims.w * m.2) (p.1 - 1 + im.dims.w * p.2) := by
        intro p hp
        induction hp with
        | refl => exact .refl
        | @tail p q _ hpq ih =>
          obtain ⟨hpq, hrp, hrq⟩ := hpq
          have h1 := hback hrp
          have h2 := hback hrq
          by_cases e : p.1 - 1 + im.dims.w * p.2 = q.1 - 1 + im.dims.w * q.2
          · rw [← e]; exact ih
          · refine ih.tail ⟨hnb' _ h1.1 _ h2.1 e ?_, h1.2, h2.2⟩
            have hp' := planar_off (im := im) hrp.1.1 hrp.1.2.1 hrp.1.2.2.1 hd
            have hq' := planar_off (im := im) hrq.1.1 hrq.1.2.1 hrq.1.2.2.1 hd
            rw [← padPt_coord hd h1.1, ← padPt_coord hd h2.1, hp'.2, hq'.2]
            exact hpq
      refine ⟨m.1 - 1 + im.dims.w * m.2, ?_, (hback hm).2, ?_⟩
      · have h6 := Nat.mod_add_div k im.dims.w
        obtain ⟨h1, h2, -, -⟩ := hm.1
        have h2' : m.1 ≤ im.dims.w := h2
        unfold Before at hmk
        simp only at hmk
        rcases hmk with h | ⟨h, h'⟩
        · have := Nat.mul_le_mul_left im.dims.w (Nat.succ_le_of_lt h)
          rw [Nat.mul_succ] at this
          omega
        · rw [h]; omega
      · have := hpath hp
        simp only [one_split] at this
        exact this
  have hltL : ∀ i < L.n, ∀ j ∈ L.nbs i, j < L.n := by
    intro i hi j hj
    rw [hok.nbs] at hj; rw [hok.n] at hi ⊢; exact hlt i hi j hj
  obtain ⟨sl, hsl, hout⟩ := labRun_spec hltL hsym
  have href := hok.ref hout
  obtain ⟨sf, hsf, hinv⟩ := flRun_spec hok href
  have hzero : ∀ i < im.dims.count, im.buf i = Px.zero → sf.out i = sl.out i := by
    intro i hi hz
    rw [href.zero i (by rw [hCn]; exact hi) ((hkeep' i).mpr hz)]
    by_contra hne
    exact (hkeep i).mp (hinv.val i hne).2.1 hz
  have hbound : ∀ i < im.dims.count, decide (tmp.buf i ≠ Px.zero) = true → sf.out i = sl.out i := by
    intro i hi hr
    exact (hinv.val i (hinv.done i (by rw [hCn]; exact hi) hr)).2.2
  obtain ⟨o, ho, hog⟩ := flLines_spec (im := im) (g := sl.out) sf.out hd hw (by
      intro l hl
      have hi : l * im.dims.w < im.dims.count := by
        rw [hc]; exact Nat.mul_lt_mul_of_pos_right hl hw
      by_cases hz : im.buf (l * im.dims.w) = Px.zero
      · exact hzero _ hi hz
      · exact hbound _ hi (hok.start _ (by rw [hCn]; exact hi) ((hkeep _).mpr hz)
          (.inl (Nat.mul_mod_left _ _))))
    (by
      intro i hi h0 he
      by_cases hz : im.buf i = Px.zero
      · rw [href.zero i (by rw [hCn]; omega) ((hkeep' i).mpr hz),
          href.zero (i + 1) (by rw [hCn]; exact hi) ((hkeep' _).mpr (he.trans hz))]
      · have hk1 := (hkeep i).mpr hz
        have hk2 := (hkeep (i + 1)).mpr (by rw [he]; exact hz)
        exact href.same i (by rw [hCn]; omega) hk1 (i + 1)
          (hok.edge (by rw [hCn]; omega) hk1 (hok.run i (by rw [hCn]; exact hi) h0 hk1 hk2) hk2))
    (by
      intro i hi h0 he
      by_cases hz : im.buf (i + 1) = Px.zero
      · exact hzero _ hi hz
      · refine hbound _ hi (hok.start _ (by rw [hCn]; exact hi) ((hkeep _).mpr hz) (.inr ?_))
        rw [Nat.add_sub_cancel, hkeep']
        by_contra hne
        exact he (by rw [hbv _ hi hz, hbv i (by omega) hne]))
  refine ⟨sl.real, o, sl.out, ?_, ?_, hog⟩
  · unfold fastLabel fastLabelExec
    rw [checkDims_ok hacc]
    simp only
    rw [if_neg (by simp), htmp]
    simp only
    rw [← hC, hsf]
    simp only [Option.bind_some]
    rw [ho]
    simp only [Option.map_some]
    rw [hinv.real, hout.real, hCn, hLn]
  · unfold label labelExec
    rw [checkDims_ok hacc]
    simp only [Bool.false_eq_true, if_false]
    rw [← hL, hsl]; rfl

/-! ## The theorems -/

/-- **C108**: on an image of one slice whose pixels are zero or one same value, with a symmetric
neighbourhood holding the four pixels beside and held in the 3 by 3 square, `fastLabel` gives the number and
the labels of `label`. -/
theorem C108_same (hs : t.signed = false) (E : Env (Px t)) (M : Nat) (hM : 2 ≤ M) (se : StrElt)
    (im : Img (Px t)) (dout : Dims) (hacc : AcceptsD E.auto im.dims dout) (hd : im.dims.d = 1)
    (hh : 2 ≤ im.dims.h) (v : Px t) (hbin : ∀ p a, im.at? p = some a → a = Px.zero ∨ a = v)
    (hN : NbhdOk im.dims (seRel (execSe se))) :
    ∃ n out out', fastLabel E M false se im dout = some (.ok (n, out)) ∧
      label E.auto M false se se im dout = some (.ok (n, out')) ∧ Img.Same out out' := by
  obtain ⟨n, o, o', h1, h2, h3⟩ := fastLabel_eq hs E hM hacc hd hh hbin hN
  refine ⟨n, _, _, h1, h2, rfl, fun p => ?_⟩
  by_cases hp : Img.In im.dims p
  · rw [Img.buf_offOf ⟨im.dims, o⟩ p hp, Img.buf_offOf ⟨im.dims, o'⟩ p hp]
    exact congrArg some (h3 _ (offOf_lt hp))
  · have hno : ∀ (f : Nat → Nat), (⟨im.dims, f⟩ : Img Nat).at? p = none := by
      intro f
      cases h : (⟨im.dims, f⟩ : Img Nat).at? p with
      | none => rfl
      | some a => exact absurd (Img.at?_eq_some_in _ _ _ h) hp
    rw [hno, hno]

/-- **C108**: there `fastLabel` returns the number of the components of the non-zero pixels and, when it
is below the maximum `M` of the label type, their labelling: zero exactly on the zero pixels, equal labels
exactly on the pixels joined by a path, labels `1..n` in the raster order of the first pixels. -/
theorem C108_fastLabel (hs : t.signed = false) (E : Env (Px t)) (M : Nat) (hM : 2 ≤ M) (se : StrElt)
    (im : Img (Px t)) (dout : Dims) (hacc : AcceptsD E.auto im.dims dout) (hd : im.dims.d = 1)
    (hh : 2 ≤ im.dims.h) (v : Px t) (hbin : ∀ p a, im.at? p = some a → a = Px.zero ∨ a = v)
    (hN : NbhdOk im.dims (seRel (execSe se))) :
    ∃ n out, fastLabel E M false se im dout = some (.ok (n, out)) ∧ out.dims = im.dims ∧
      (∃ reps, IsReps (seRel (execSe se)) (· = ·) (· ≠ Px.zero) im reps ∧ reps.length = n) ∧
      (∀ p a k, im.at? p = some a → out.at? p = some k → (k = 0 ↔ a = Px.zero)) ∧
      (n < M → IsLabelling (seRel (execSe se)) (· = ·) (· ≠ Px.zero) im n out) := by
  obtain ⟨n, out, out', h1, h2, h3⟩ := C108_same hs E M hM se im dout hacc hd hh v hbin hN
  obtain ⟨n', out'', h4, h5, h6, h7, h8⟩ := C39_label E.auto M se se im dout hN.symm hM hacc
  rw [h2] at h4
  cases h4
  refine ⟨n, out, h1, by rw [h3.1, h5], h6, ?_, ?_⟩
  · intro p a k hp hk
    rw [h3.2 p] at hk
    exact h7 p a k hp hk
  · intro hn
    have := h8 hn
    refine ⟨?_, ?_, ?_, ?_⟩
    · intro p hp; rw [h3.2 p]; exact this.zero p hp
    · intro p q k l hp hq; rw [h3.2] at hp hq; exact this.same p q k l hp hq
    · intro k; simp only [h3.2]; exact this.labels k
    · intro p q k l hp hq; rw [h3.2] at hp hq; exact this.order p q k l hp hq

/-- **C108**: the square, the cross and the hexagon of size one are such neighbourhoods. -/
theorem C108_elements (D : Dims) : NbhdOk D (seRel (execSe (SquSE 1))) ∧
    NbhdOk D (seRel (execSe (CrossSE 1))) ∧ NbhdOk D (seRel (execSe (HexSE 1))) := by
  have e1 : execSe (SquSE 1) = SquSE 1 := rfl
  have e2 : execSe (CrossSE 1) = CrossSE 1 := rfl
  have e3 : execSe (HexSE 1) = HexSE 1 := rfl
  rw [e1, e2, e3]
  have hcr : ∀ p q : IntPoint, seRel (CrossSE 1) p q ↔ p.z = q.z ∧ ((p.y = q.y ∧ p.x = q.x) ∨
      (p.y = q.y ∧ (p.x + 1 = q.x ∨ q.x + 1 = p.x)) ∨ (p.x = q.x ∧ (p.y + 1 = q.y ∨ q.y + 1 = p.y))) := by
    intro p q
    have hp : (CrossSE 1).points = [⟨0, 0, 0⟩, ⟨1, 0, 0⟩, ⟨-1, 0, 0⟩, ⟨0, -1, 0⟩, ⟨0, 1, 0⟩] := by decide
    have ho : (CrossSE 1).odd = false := by decide
    unfold seRel
    rw [hp, ho]
    simp only [List.mem_cons, List.not_mem_nil, or_false, exists_eq_or_imp, exists_eq_left, phys,
      Prod.mk_add_mk, Prod.mk.injEq]
    simp
    omega
  have hhex : ∀ p q : IntPoint, seRel (HexSE 1) p q ↔ p.z = q.z ∧
      ((p.y = q.y ∧ p.x ≤ q.x + 1 ∧ q.x ≤ p.x + 1) ∨ ((p.y + 1 = q.y ∨ q.y + 1 = p.y) ∧
        (p.x = q.x ∨ (p.y % 2 = 0 ∧ q.x + 1 = p.x) ∨ (p.y % 2 = 1 ∧ q.x = p.x + 1)))) := by
    intro p q
    have hp : (HexSE 1).points = [⟨0, 0, 0⟩, ⟨1, 0, 0⟩, ⟨0, -1, 0⟩, ⟨-1, -1, 0⟩, ⟨-1, 0, 0⟩, ⟨-1, 1, 0⟩,
      ⟨0, 1, 0⟩] := by decide
    have ho : (HexSE 1).odd = true := by decide
    unfold seRel
    rw [hp, ho]
    simp only [List.mem_cons, List.not_mem_nil, or_false, exists_eq_or_imp, exists_eq_left, phys,
      Prod.mk_add_mk, Prod.mk.injEq]
    simp
    have h1 := Int.emod_two_eq p.y
    have h2 := Int.emod_two_eq q.y
    rcases h1 with h1 | h1 <;> rcases h2 with h2 | h2 <;> simp [h1, h2] <;> omega
  refine ⟨⟨?_, ?_, ?_⟩, ⟨?_, ?_, ?_⟩, ⟨?_, ?_, ?_⟩⟩
  · intro p q; rw [squ_rel_iff, squ_rel_iff]; omega
  · intro p q _ _ hz h; rw [squ_rel_iff]; omega
  · intro p q _ _; rw [squ_rel_iff]; omega
  · intro p q; rw [hcr, hcr]; omega
  · intro p q _ _ hz h; rw [hcr]; omega
  · intro p q _ _; rw [hcr]; omega
  · intro p q; rw [hhex, hhex]; omega
  · intro p q _ _ hz h; rw [hhex]; omega
  · intro p q _ _; rw [hhex]; omega

/-- **C108**: images that are not allocated, and outputs of another size, are refused. -/
theorem C108_refused (E : Env (Px t)) (M : Nat) (inPl : Bool) (se : StrElt) (im : Img (Px t))
    (dout : Dims) :
    (im.dims.count = 0 ∨ dout.count = 0 → fastLabel E M inPl se im dout = some (.error (-99))) ∧
      (im.dims.count ≠ 0 → dout.count ≠ 0 → dout ≠ im.dims → E.auto = false →
        fastLabel E M inPl se im dout = some (.error (-98))) := by
  unfold fastLabel fastLabelExec checkDims
  constructor
  · intro h
    rw [if_pos h]; rfl
  · intro h1 h2 h3 h4
    rw [if_neg (by omega), if_neg h3, if_neg (by rw [h4]; simp)]; rfl

/-- Labelling an image into itself never returns. -/
theorem C108_in_place_endless (E : Env (Px t)) (M : Nat) (se : StrElt) (im : Img (Px t))
    (ha : im.alloc = true) : fastLabel E M true se im im.dims = none := by
  have hc : im.dims.count ≠ 0 := by
    unfold Img.alloc at ha
    simp only [decide_eq_true_eq] at ha
    omega
  unfold fastLabel fastLabelExec checkDims
  rw [if_neg (by omega), if_pos rfl]
  rfl

theorem foldlM_none_of {α β : Type} {f : β → α → Option β} {a : α} (h : ∀ b, f b a = none) :
    ∀ (l : List α), a ∈ l → ∀ b, l.foldlM f b = none := by
  intro l
  induction l with
  | nil => intro h; cases h
  | cons x l ih =>
    intro hm b
    rw [List.foldlM_cons]
    rcases List.mem_cons.mp hm with e | hm
    · rw [← e, h]; rfl
    · cases hx : f b x with
      | none => rfl
      | some c => exact ih hm c

/-- An image with more slices than lines: the second pass goes out of the array of the lines. -/
theorem C108_slices_ub (E : Env (Px t)) (M : Nat) (se : StrElt) (im : Img (Px t)) (dout : Dims)
    (hacc : AcceptsD E.auto im.dims dout) (hh : 2 ≤ im.dims.h) (hd : im.dims.h < im.dims.d) :
    fastLabel E M false se im dout = none := by
  have ha : im.alloc = true := by
    have := hacc.1
    unfold Img.alloc
    simp only [decide_eq_true_eq] at *
    omega
  have hl : ∀ (c : Px t → Px t → Bool) (o : Nat → Nat), flLines c im o = none := by
    intro c o
    unfold flLines
    refine foldlM_none_of (a := im.dims.d - 1) ?_ _ (List.mem_range.mpr (by omega)) o
    intro b
    refine foldlM_none_of (a := im.dims.h - 1) ?_ _ (List.mem_range.mpr (by omega)) b
    intro b'
    rw [if_neg]
    obtain ⟨k, hk⟩ : ∃ k, im.dims.d = im.dims.h + 1 + k := ⟨im.dims.d - im.dims.h - 1, by omega⟩
    obtain ⟨j, hj⟩ : ∃ j, im.dims.h = j + 1 := ⟨im.dims.h - 1, by omega⟩
    rw [hk, hj]
    simp only [Nat.add_sub_cancel]
    have : j + 1 + 1 + k - 1 = j + 1 + k := by omega
    rw [this]
    nlinarith [Nat.zero_le (j * k), Nat.zero_le (k * k)]
  have hse : SEOk im.dims (CubeSE 1) := by
    refine ⟨by decide, by decide, fun h => absurd h (by decide), fun _ => ⟨?_, by decide, fun _ => hh⟩,
      fun h => ?_⟩
    · intro p
      have : (CubeSE 1).points = builtinPts (CubeSE 1).seT := by decide
      rw [this]
    · exact absurd h (by decide)
  unfold fastLabel fastLabelExec
  rw [checkDims_ok hacc]
  simp only
  rw [if_neg (by simp)]
  cases hr : flResidue E im with
  | none => rfl
  | some r =>
    cases r with
    | ok tmp =>
      simp only [hl, Option.map_none]
      exact Option.bind_fun_none _
    | error c =>
      exfalso
      unfold flResidue at hr
      rw [if_neg (by omega)] at hr
      obtain ⟨e, he, -⟩ := erode_spec E false (CubeSE 1) im ⟨im.dims, E.raw⟩
        (accepts_of_dims E ha rfl) hse
      obtain ⟨o, ho, -⟩ := checkSize_ok E im im (accepts_of_dims E ha rfl)
      rw [he] at hr
      simp only [andThen, Option.bind_some, subImg, guarded, ho] at hr
      cases hz : Img.zipK kSub im e with
      | none => simp [hz] at hr
      | some r => simp [hz] at hr

/-- The number and the labels of a run. -/
def flVals (r : Option (Except Int (Nat × Img Nat))) : Option (Nat × List Nat) :=
  match r with
  | some (.ok (n, i)) => some (n, (List.range i.dims.count).map i.buf)
  | _ => none

/-- The hypotheses are met, and the elements differ: the diagonal joins for the square only. -/
example : AcceptsD exEnv8.auto (⟨5, 2, 1⟩ : Dims) ⟨5, 2, 1⟩ ∧
    (∀ p a, (im8 ⟨5, 2, 1⟩ [7, 0, 7, 0, 0, 0, 7, 7, 0, 7]).at? p = some a → a = Px.zero ∨ a.val = 7) ∧
    flVals (fastLabel exEnv8 255 false (SquSE 1) (im8 ⟨5, 2, 1⟩ [7, 0, 7, 0, 0, 0, 7, 7, 0, 7]) ⟨5, 2, 1⟩) =
      some (2, [1, 0, 1, 0, 0, 0, 1, 1, 0, 2]) ∧
    flVals (fastLabel exEnv8 255 false (CrossSE 1) (im8 ⟨5, 2, 1⟩ [7, 0, 7, 0, 0, 0, 7, 7, 0, 7]) ⟨5, 2, 1⟩) =
      some (3, [1, 0, 2, 0, 0, 0, 2, 2, 0, 3]) := by
  refine ⟨⟨by decide, by decide, .inl rfl⟩, fun p a hp => ?_, by decide +kernel, by decide +kernel⟩
  obtain ⟨i, hi, rfl, -⟩ := Img.at?_buf _ _ _ hp
  have : ∀ i < 10, (im8 ⟨5, 2, 1⟩ [7, 0, 7, 0, 0, 0, 7, 7, 0, 7]).buf i = Px.zero ∨
      ((im8 ⟨5, 2, 1⟩ [7, 0, 7, 0, 0, 0, 7, 7, 0, 7]).buf i).val = 7 := by decide +kernel
  exact this i hi

/-- With two non-zero values: two zones side by side get one label, `label` gives two. -/
theorem C108_grey_bug :
    flVals (fastLabel exEnv8 255 false (SquSE 1) (im8 ⟨4, 2, 1⟩ [5, 5, 9, 9, 5, 5, 9, 9]) ⟨4, 2, 1⟩) =
      some (1, [1, 1, 1, 1, 1, 1, 1, 1]) ∧
    flVals (label false 255 false (SquSE 1) (SquSE 1) (im8 ⟨4, 2, 1⟩ [5, 5, 9, 9, 5, 5, 9, 9]) ⟨4, 2, 1⟩) =
      some (2, [1, 1, 2, 2, 1, 1, 2, 2]) := by
  constructor <;> decide +kernel

/-- With several slices: the wrong lines are filled and a non-zero pixel is left without a label. -/
theorem C108_slices_bug :
    flVals (fastLabel exEnv8 255 false (CubeSE 1) (im8 ⟨3, 3, 2⟩ (List.replicate 18 1)) ⟨3, 3, 2⟩) =
      some (1, List.replicate 17 1 ++ [0]) ∧
    flVals (label false 255 false (CubeSE 1) (CubeSE 1) (im8 ⟨3, 3, 2⟩ (List.replicate 18 1)) ⟨3, 3, 2⟩) =
      some (1, List.replicate 18 1) := by
  constructor <;> decide +kernel

/-- With an element that does not hold the pixels on the same line: its columns are not told apart. -/
theorem C108_vertical_bug :
    flVals (fastLabel exEnv8 255 false (VertSE 1) (im8 ⟨3, 2, 1⟩ [1, 1, 1, 1, 1, 1]) ⟨3, 2, 1⟩) =
      some (1, [1, 1, 1, 1, 1, 1]) ∧
    flVals (label false 255 false (VertSE 1) (VertSE 1) (im8 ⟨3, 2, 1⟩ [1, 1, 1, 1, 1, 1]) ⟨3, 2, 1⟩) =
      some (3, [1, 2, 3, 1, 2, 3]) := by
  constructor <;> decide +kernel

/-- With an element of size two: pixels of value zero are labelled. -/
theorem C108_size_bug :
    flVals (fastLabel exEnv8 255 false (SquSE 2) (im8 ⟨5, 2, 1⟩ [1, 1, 1, 0, 0, 1, 1, 1, 0, 0]) ⟨5, 2, 1⟩) =
      some (1, [1, 1, 1, 1, 1, 1, 1, 1, 1, 1]) ∧
    flVals (label false 255 false (SquSE 2) (SquSE 2) (im8 ⟨5, 2, 1⟩ [1, 1, 1, 0, 0, 1, 1, 1, 0, 0])
      ⟨5, 2, 1⟩) = some (1, [1, 1, 1, 0, 0, 1, 1, 1, 0, 0]) := by
  constructor <;> decide +kernel

/-- `lambdaFastLabel` joins zones that differ by more than lambda. -/
theorem C108_lambda_bug :
    flVals (lambdaFastLabel exEnv8 255 false (UINT8.wrap 1) (SquSE 1) (im8 ⟨3, 2, 1⟩ [5, 6, 9, 5, 6, 9])
      ⟨3, 2, 1⟩) = some (1, [1, 1, 1, 1, 1, 1]) ∧
    flVals (lambdaLabel false 255 (UINT8.wrap 1) (SquSE 1) (im8 ⟨3, 2, 1⟩ [5, 6, 9, 5, 6, 9]) ⟨3, 2, 1⟩) =
      some (2, [1, 1, 2, 1, 1, 2]) := by
  constructor <;> decide +kernel

/-- An image of one line: the erosion by the square reads a second line. -/
theorem C108_one_line_ub :
    fastLabel exEnv8 255 false (SquSE 1) (im8 ⟨3, 1, 1⟩ [1, 1, 0]) ⟨3, 1, 1⟩ = none := by
  have h : (fastLabel exEnv8 255 false (SquSE 1) (im8 ⟨3, 1, 1⟩ [1, 1, 0]) ⟨3, 1, 1⟩).isNone = true := by
    decide +kernel
  exact Option.isNone_iff_eq_none.mp h

end Smil
