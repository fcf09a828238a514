import Verif.PropsMaxTree
import Verif.PropsExtinction

/-!
# Attribute openings by max-tree (C63): laws, closings, connected images, defects
-/

namespace Smil
open StrElt Relation
variable {α : Type} {t : PT}

/-! ### Laws of the specification -/

/-- A condition that larger sets satisfy too. -/
def IncCond (B : Set IntPoint → Prop) : Prop := ∀ S T, T.Finite → S ⊆ T → B S → B T

theorem incArea (n : Nat) : IncCond (BigArea n) := fun _ _ hf h hB => hB.trans (Set.ncard_le_ncard h hf)
theorem incHeight (n : Nat) : IncCond (BigHeight n) := fun _ _ _ h ⟨p, hp, q, hq, e⟩ => ⟨p, h hp, q, h hq, e⟩
theorem incWidth (n : Nat) : IncCond (BigWidth n) := fun _ _ _ h ⟨p, hp, q, hq, e⟩ => ⟨p, h hp, q, h hq, e⟩

section
variable [LinearOrder α] {N : IntPoint → IntPoint → Prop} {B : Set IntPoint → Prop}

/-- **C63**, the openings are anti-extensive. -/
theorem C63_antiextensive {im o : Img α} (h : IsAttrOpen N B im o) (p : IntPoint) (a b : α)
    (ha : im.at? p = some a) (hb : o.at? p = some b) : b ≤ a := by
  obtain ⟨b', e, ⟨a', ha', c, _⟩, _⟩ := h.val p (Img.at?_eq_some_in _ _ _ ha)
  rw [hb] at e
  cases e
  rw [ha] at ha'
  cases ha'
  exact c

/-- **C63**, the openings are increasing. -/
theorem C63_increasing (hB : IncCond B) {im im' o o' : Img α} (hd : im'.dims = im.dims)
    (hle : ∀ p a a', im.at? p = some a → im'.at? p = some a' → a ≤ a')
    (h : IsAttrOpen N B im o) (h' : IsAttrOpen N B im' o') (p : IntPoint) (b b' : α)
    (hb : o.at? p = some b) (hb' : o'.at? p = some b') : b ≤ b' := by
  have hp : Img.In im.dims p := h.dims ▸ Img.at?_eq_some_in _ _ _ hb
  obtain ⟨c, e, ⟨a, ha, l1, m1⟩, hc⟩ := h.val p hp
  rw [hb] at e; cases e
  obtain ⟨c', e', ⟨a', ha', l2, m2⟩, hc'⟩ := h'.val p (hd ▸ hp)
  rw [hb'] at e'; cases e'
  have hsub : ∀ v, levelSet N im v p ⊆ levelSet N im' v p := by
    intro v q hq
    refine LinkPath.mono hd (fun q r x y hx hy hv => ?_) hq
    obtain ⟨x', hx'⟩ := at_of_in (hd ▸ Img.at?_eq_some_in _ _ _ hx : Img.In im'.dims q)
    obtain ⟨y', hy'⟩ := at_of_in (hd ▸ Img.at?_eq_some_in _ _ _ hy : Img.In im'.dims r)
    exact ⟨x', y', hx', hy', hv.1.trans (hle _ _ _ hx hx'), hv.2.trans (hle _ _ _ hy hy')⟩
  have hw := wholeSet_dims (N := N) hd p
  rcases hc with g1 | ⟨s1, ⟨q1, k1, v1⟩, n1⟩
  · by_contra hlt
    exact m2 b (not_le.mp hlt) (l1.trans (hle _ _ _ ha ha')) (hB _ _ (levelSet_fin im' b p) (hsub b) g1)
  · rcases hc' with g2 | ⟨s2, ⟨q2, k2, v2⟩, n2⟩
    · have := hB _ _ (wholeSet_fin im' p) (levelSet_sub (N := N) im' b' p) g2
      rw [← hw] at this
      exact absurd this s1
    · rw [← hw] at k2
      obtain ⟨x, hx⟩ := at_of_in (LinkPath.in k2).2
      exact (n1 _ k2 _ hx).trans (hle _ _ _ hx v2)

/-- **C63**, the openings are idempotent. -/
theorem C63_idempotent (hB : IncCond B) (hN : ∀ p q, N p q → N q p) {im o : Img α} (h : IsAttrOpen N B im o) :
    IsAttrOpen N B o o := by
  refine ⟨rfl, fun p hp0 => ?_⟩
  have hp : Img.In im.dims p := h.dims ▸ hp0
  obtain ⟨b, hb, ⟨a, ha, l1, m1⟩, hc⟩ := h.val p hp
  have hw := wholeSet_dims (N := N) h.dims
  refine ⟨b, hb, ⟨b, hb, le_refl _, fun v h1 h2 => absurd (h1.trans_le h2) (lt_irrefl _)⟩, ?_⟩
  rcases hc with g1 | ⟨s1, ⟨q1, k1, v1⟩, n1⟩
  · left
    refine hB _ _ (levelSet_fin o b p) ?_ g1
    have hkeep : ∀ q ∈ levelSet N im b p, ∃ c, o.at? q = some c ∧ b ≤ c := by
      intro q hq
      obtain ⟨c, e, ⟨x, hx, l2, m2⟩, hc⟩ := h.val q (LinkPath.in hq).2
      have hbx := levelSet_ge hq ha l1 hx
      refine ⟨c, e, ?_⟩
      have hg : B (levelSet N im b q) := by rw [levelSet_eq hN hq]; exact g1
      by_contra hlt
      exact m2 b (not_le.mp hlt) hbx hg
    intro q hq
    change LinkPath N _ o p q
    unfold levelSet at hq
    simp only [Set.mem_ofPred_eq] at hq
    induction hq with
    | refl h' => exact .refl (h.dims ▸ h')
    | @step q r x y h1 h2 hx hy hv ih =>
      obtain ⟨c, e1, l2⟩ := hkeep q h1
      obtain ⟨d, e2, l3⟩ := hkeep r (LinkPath.step h1 h2 hx hy hv)
      exact .step ih h2 e1 e2 ⟨l2, l3⟩
  · right
    rw [hw p] at s1
    refine ⟨s1, ⟨p, LinkPath.refl hp0, hb⟩, ?_⟩
    intro q hq c hc
    rw [← hw p] at hq
    obtain ⟨c', e, ⟨x, hx, _, _⟩, hc'⟩ := h.val q (LinkPath.in hq).2
    rw [hc] at e; cases e
    have hwq := wholeSet_eq hN hq
    rcases hc' with g2 | ⟨_, ⟨q2, k2, v2⟩, _⟩
    · have := hB _ _ (wholeSet_fin im q) (levelSet_sub (N := N) im c q) g2
      rw [hwq, hw p] at this
      exact absurd this s1
    · rw [hwq] at k2
      exact n1 _ k2 _ v2

end

/-! ### Closings -/

/-- The pixels joined to `p` below the level `v`. -/
def lowerSet [LE α] (N : IntPoint → IntPoint → Prop) (im : Img α) (v : α) (p : IntPoint) : Set IntPoint :=
  {q | LinkPath N (fun a b => a ≤ v ∧ b ≤ v) im p q}

/-- `b` is the value at `p` of the closing of `im` by the condition `B`: the smallest level not below the pixel
whose lower component satisfies `B`; when even the whole component of the pixel does not, its greatest value. -/
def IsAttrCloseAt [LinearOrder α] (N : IntPoint → IntPoint → Prop) (B : Set IntPoint → Prop) (im : Img α)
    (p : IntPoint) (b : α) : Prop :=
  (∃ a, im.at? p = some a ∧ a ≤ b ∧ ∀ v, v < b → a ≤ v → ¬ B (lowerSet N im v p)) ∧
  (B (lowerSet N im b p) ∨
    (¬ B (wholeSet N im p) ∧ (∃ q ∈ wholeSet N im p, im.at? q = some b) ∧
      ∀ q ∈ wholeSet N im p, ∀ c, im.at? q = some c → c ≤ b))

/-- `z` is a pixel of greatest value; the pixels joined to it receive the closing, the others the largest value of
the type. -/
def IsCloseAround (N : IntPoint → IntPoint → Prop) (B : Set IntPoint → Prop) (im out : Img (Px t)) : Prop :=
  out.dims = im.dims ∧ ∃ z, Img.In im.dims z ∧ (∀ a q c, im.at? z = some a → im.at? q = some c → c ≤ a) ∧
    (∀ p ∈ wholeSet N im z, ∃ b, out.at? p = some b ∧ IsAttrCloseAt N B im p b) ∧
    ∀ p, Img.In im.dims p → p ∉ wholeSet N im z → out.at? p = some ⊤

theorem compl_zero (hs : t.signed = false) : Px.compl (Px.zero : Px t) = ⊤ := by
  apply Px.ext
  have : t.lo = 0 := lo_unsigned hs
  rw [Px.top_val]
  change t.hi + t.lo - 0 = t.hi
  omega

theorem compl_le {a b : Px t} : Px.compl a ≤ Px.compl b ↔ b ≤ a := by
  constructor
  · intro h
    have := Px.compl_anti _ _ h
    rwa [Px.compl_compl, Px.compl_compl] at this
  · exact fun h => Px.compl_anti _ _ h

theorem compl_lt {a b : Px t} : Px.compl a < Px.compl b ↔ b < a := by
  rw [← not_le, ← not_le, compl_le]

theorem mapInv (hs : t.signed = false) (im : Img (Px t)) :
    ∃ r, Img.mapK kInv im = some r ∧ r.dims = im.dims ∧ ∀ p a, im.at? p = some a → r.at? p = some (Px.compl a) := by
  obtain ⟨r, hr⟩ := Img.mapK_total kInv im (fun p u _ => by rw [kInv_eq (.inl hs)]; rfl)
  obtain ⟨h1, h2⟩ := Img.mapK_some kInv im r hr
  refine ⟨r, hr, h1, fun p a ha => ?_⟩
  obtain ⟨v, e, hv⟩ := h2 p a ha
  rw [kInv_eq (.inl hs)] at e
  cases e
  exact hv

section
variable {N : IntPoint → IntPoint → Prop} {B : Set IntPoint → Prop} {im tmp o out : Img (Px t)}
  (hd : tmp.dims = im.dims) (ht : ∀ p a, im.at? p = some a → tmp.at? p = some (Px.compl a))
include hd ht

theorem at_compl {p : IntPoint} {c : Px t} (h : tmp.at? p = some c) : im.at? p = some (Px.compl c) := by
  obtain ⟨a, ha⟩ := at_of_in (im := im) (hd ▸ Img.at?_eq_some_in _ _ _ h)
  rw [ht p a ha] at h
  cases h
  rw [Px.compl_compl]
  exact ha

theorem lower_compl (v : Px t) (p : IntPoint) : levelSet N tmp (Px.compl v) p = lowerSet N im v p := by
  ext q
  constructor
  · intro h
    refine LinkPath.mono hd.symm (fun q r a b ha hb hv => ?_) h
    refine ⟨_, _, at_compl hd ht ha, at_compl hd ht hb, ?_, ?_⟩
    · rw [← compl_le, Px.compl_compl]; exact hv.1
    · rw [← compl_le, Px.compl_compl]; exact hv.2
  · intro h
    refine LinkPath.mono hd (fun q r a b ha hb hv => ?_) h
    exact ⟨_, _, ht q a ha, ht r b hb, compl_le.mpr hv.1, compl_le.mpr hv.2⟩

theorem closeAt_compl {p : IntPoint} {b : Px t} (h : IsAttrAt N B tmp p b) : IsAttrCloseAt N B im p (Px.compl b) := by
  obtain ⟨⟨a, ha, h1, h2⟩, h3⟩ := h
  refine ⟨⟨_, at_compl hd ht ha, compl_le.mpr h1, fun v hv hv' => ?_⟩, ?_⟩
  · rw [← lower_compl hd ht]
    refine h2 _ ?_ ?_
    · rw [← compl_lt, Px.compl_compl]; exact hv
    · rw [← compl_le, Px.compl_compl]; exact hv'
  · rw [← lower_compl hd ht, Px.compl_compl, wholeSet_dims hd]
    rcases h3 with h3 | ⟨h3, ⟨q, hq, e⟩, h4⟩
    · exact .inl h3
    · refine .inr ⟨h3, ⟨q, hq, at_compl hd ht e⟩, fun q hq c hc => ?_⟩
      rw [← compl_le, Px.compl_compl]
      exact h4 q hq _ (ht q c hc)

theorem closeAround_compl (hs : t.signed = false) (ho : IsOpenAround N B tmp o) (hd' : out.dims = o.dims)
    (ht' : ∀ p a, o.at? p = some a → out.at? p = some (Px.compl a)) : IsCloseAround N B im out := by
  obtain ⟨h1, z, hz, hmin, h2, h3⟩ := ho
  refine ⟨hd'.trans (h1.trans hd), z, hd ▸ hz, fun a q c ha hc => ?_, fun p hp => ?_, fun p hp hn => ?_⟩
  · rw [← compl_le]
    exact hmin _ q _ (ht z a ha) (ht q c hc)
  · rw [wholeSet_dims hd] at hp
    obtain ⟨b, hb, h⟩ := h2 p hp
    exact ⟨_, ht' p b hb, closeAt_compl hd ht h⟩
  · rw [wholeSet_dims hd] at hn
    rw [← compl_zero hs]
    exact ht' p _ (h3 p (hd ▸ hp) hn)

end

section
variable (auto : Bool) (se : StrElt) (n : Nat) (im : Img (Px t)) (dout : Dims)
  (hok : AcceptsD auto im.dims dout) (hs : t.signed = false)

theorem attributeClose_of {M : Type} {K : MTCrit M} {B : Set IntPoint → Prop}
    (hok : AcceptsD auto im.dims dout) (hs : t.signed = false)
    (h : ∀ tmp : Img (Px t), tmp.dims = im.dims → ∃ o, attributeOpen K auto se n tmp im.dims = some (.ok o) ∧
      IsOpenAround (seRel se) B tmp o) :
    ∃ out, attributeClose K auto se n im dout = some (.ok out) ∧ IsCloseAround (seRel se) B im out := by
  obtain ⟨tmp, e1, d1, v1⟩ := mapInv hs im
  obtain ⟨o, e2, h2⟩ := h tmp d1
  obtain ⟨out, e3, d3, v3⟩ := mapInv hs o
  refine ⟨out, ?_, closeAround_compl d1 v1 hs h2 d3 v3⟩
  unfold attributeClose
  rw [checkDims_ok hok]
  simp only [e1, e2, e3, Option.bind_some, Option.map_some]

variable (hb : t.bits ≤ 16)
  (hN : ∀ p q, seRel se p q → seRel se q p) (hsm : im.dims.count < 41943040)
include hok hs hb hN hsm

/-- **C63**, partial: the area closing; see `C63_area_partial`. -/
theorem C63_area_close_partial :
    ∃ out, attributeClose areaCrit auto se n im dout = some (.ok out) ∧
      IsCloseAround (seRel se) (BigArea n) im out :=
  attributeClose_of auto se n im dout hok hs fun tmp hd =>
    C63_area_partial auto se n tmp im.dims ⟨hd ▸ hok.1, hok.1, .inl hd.symm⟩ hs hb hN (hd ▸ hsm)

/-- **C63**, partial: the height closing; see `C63_area_partial`. -/
theorem C63_height_close_partial :
    ∃ out, attributeClose heightCrit auto se n im dout = some (.ok out) ∧
      IsCloseAround (seRel se) (BigHeight n) im out :=
  attributeClose_of auto se n im dout hok hs fun tmp hd =>
    C63_height_partial auto se n tmp im.dims ⟨hd ▸ hok.1, hok.1, .inl hd.symm⟩ hs hb hN (hd ▸ hsm)

/-- **C63**, partial: the width closing; see `C63_area_partial`. -/
theorem C63_width_close_partial :
    ∃ out, attributeClose widthCrit auto se n im dout = some (.ok out) ∧
      IsCloseAround (seRel se) (BigWidth n) im out :=
  attributeClose_of auto se n im dout hok hs fun tmp hd =>
    C63_width_partial auto se n tmp im.dims ⟨hd ▸ hok.1, hok.1, .inl hd.symm⟩ hs hb hN (hd ▸ hsm)

end

/-! ### Connected images -/

theorem connectedBy_of_unit {N : IntPoint → IntPoint → Prop} {D : Dims}
    (hN : ∀ p q, Img.In D p → Img.In D q → UnitStep p q → N p q) : ConnectedBy N D := by
  intro p q hp hq
  have := connectedIm_of_unit (im := (⟨D, fun _ => ⊤⟩ : Img (Px UINT8))) hN p q hp hq
  clear hq
  induction this with
  | base _ _ => exact .refl
  | step h1 h2 h3 _ ih => exact ih.tail ⟨Img.at?_eq_some_in _ _ _ h3, h2⟩

theorem seRel_of_sub {se : StrElt} (ho : se.odd = false) {p q : IntPoint}
    (h : (⟨q.x - p.x, q.y - p.y, q.z - p.z⟩ : IntPoint) ∈ se.points) : seRel se p q := by
  refine ⟨_, h, ?_⟩
  rw [ho]
  simp only [phys, Bool.false_eq_true, false_and, if_false, add_zero, Prod.mk_add_mk, Prod.mk.injEq]
  omega

/-- The square joins all pixels of a plane image. -/
theorem connected_squ (D : Dims) (hd : D.d ≤ 1) (s : Nat) : ConnectedBy (seRel (SquSE s)) D := by
  apply connectedBy_of_unit
  intro p q hp hq hu
  unfold Img.In at hp hq
  apply seRel_of_sub rfl
  have hz : q.z - p.z = 0 := by omega
  rw [hz]
  have h : ∀ x ∈ [(-1 : Int), 0, 1], ∀ y ∈ [(-1 : Int), 0, 1], (⟨x, y, 0⟩ : IntPoint) ∈ (SquSE 1).points := by decide
  unfold UnitStep at hu
  exact h _ (by simp; omega) _ (by simp; omega)

/-- The cross joins all pixels of a plane image. -/
theorem connected_cross (D : Dims) (hd : D.d ≤ 1) (s : Nat) : ConnectedBy (seRel (CrossSE s)) D := by
  apply connectedBy_of_unit
  intro p q hp hq hu
  unfold Img.In at hp hq
  apply seRel_of_sub rfl
  have hz : q.z - p.z = 0 := by omega
  rw [hz]
  have h : ∀ x ∈ [(-1 : Int), 0, 1], ∀ y ∈ [(-1 : Int), 0, 1], x.natAbs + y.natAbs = 1 →
    (⟨x, y, 0⟩ : IntPoint) ∈ (CrossSE 1).points := by decide
  unfold UnitStep at hu
  exact h _ (by simp; omega) _ (by simp; omega) (by omega)

/-- The hexagon joins all pixels of a plane image. -/
theorem connected_hex (D : Dims) (hd : D.d ≤ 1) (s : Nat) : ConnectedBy (seRel (HexSE s)) D := by
  apply connectedBy_of_unit
  intro p q hp hq hu
  unfold Img.In at hp hq
  have hz : p.z = q.z := by omega
  have hpts : ∀ b ∈ [(⟨1, 0, 0⟩ : IntPoint), ⟨-1, 0, 0⟩, ⟨0, 1, 0⟩, ⟨-1, 1, 0⟩, ⟨0, -1, 0⟩, ⟨-1, -1, 0⟩],
    b ∈ (HexSE 1).points := by decide
  unfold UnitStep at hu
  have mk : ∀ b ∈ [(⟨1, 0, 0⟩ : IntPoint), ⟨-1, 0, 0⟩, ⟨0, 1, 0⟩, ⟨-1, 1, 0⟩, ⟨0, -1, 0⟩, ⟨-1, -1, 0⟩],
      phys true p + phys true b = phys true q → seRel (HexSE s) p q := fun b hb e => ⟨b, hpts b hb, e⟩
  rcases hu with ⟨h1, _, h2 | h2⟩ | ⟨h1, _, h2 | h2⟩ | ⟨_, _, h2⟩
  · exact mk ⟨1, 0, 0⟩ (by simp) (by simp [phys, h1]; split_ifs <;> omega)
  · exact mk ⟨-1, 0, 0⟩ (by simp) (by simp [phys, h1]; split_ifs <;> omega)
  · by_cases hy : p.y % 2 = 1
    · exact mk ⟨-1, 1, 0⟩ (by simp) (by simp [phys, hy]; split_ifs <;> omega)
    · exact mk ⟨0, 1, 0⟩ (by simp) (by simp [phys, hy]; split_ifs <;> omega)
  · by_cases hy : p.y % 2 = 1
    · exact mk ⟨-1, -1, 0⟩ (by simp) (by simp [phys, hy]; split_ifs <;> omega)
    · exact mk ⟨0, -1, 0⟩ (by simp) (by simp [phys, hy]; split_ifs <;> omega)
  · omega

/-! ### Defects -/

/-- For `UINT32` the number of grey levels is computed as 0 and the table of labels has no cell: every call writes
outside of it, whatever the image. -/
theorem C63_uint32_ub {M : Type} (K : MTCrit M) (auto : Bool) (se : StrElt) (n : Nat) (im : Img (Px UINT32))
    (dout : Dims) (hok : AcceptsD auto im.dims dout) : attributeOpen K auto se n im dout = none := by
  have hc : cardT UINT32 = some 0 := by decide
  unfold attributeOpen mtOpen mtRun
  rw [checkDims_ok hok, hc]
  simp [mtCfg]

/-- Two lines. -/
def exTwoLines : Img (Px UINT8) := im8 ⟨2, 2, 1⟩ [1, 1, 7, 7]

/-- With a horizontal element the lines are not joined. Only the line of the minimum is treated, the pixels of the
other line get 0, although their component has the two pixels asked for and must be kept. -/
theorem C63_disconnected_bug :
    ∃ out, attributeOpen areaCrit true (HorizSE 1) 2 exTwoLines ⟨2, 2, 1⟩ = some (.ok out) ∧
      areaRow (some (.ok out)) = some [1, 1, 0, 0] ∧ ¬ IsAttrOpen (seRel (HorizSE 1)) (BigArea 2) exTwoLines out := by
  have hr : areaRow (attributeOpen areaCrit true (HorizSE 1) 2 exTwoLines ⟨2, 2, 1⟩) = some [1, 1, 0, 0] := by
    decide +kernel
  obtain ⟨out, e⟩ : ∃ out, attributeOpen areaCrit true (HorizSE 1) 2 exTwoLines ⟨2, 2, 1⟩ = some (.ok out) := by
    unfold areaRow at hr
    split at hr
    · exact ⟨_, by assumption⟩
    · cases hr
  refine ⟨out, e, e ▸ hr, fun h => ?_⟩
  rw [e] at hr
  have hin : Img.In exTwoLines.dims ⟨0, 1, 0⟩ := by decide
  obtain ⟨b, hb, ⟨a, ha, h1, h2⟩, h3⟩ := h.val ⟨0, 1, 0⟩ hin
  have h7 : exTwoLines.at? ⟨0, 1, 0⟩ = some (UINT8.wrap 7) := by decide +kernel
  have h7' : exTwoLines.at? ⟨1, 1, 0⟩ = some (UINT8.wrap 7) := by decide +kernel
  rw [h7] at ha
  cases ha
  have hb0 : b.val = 0 := by
    have hd : out.dims = ⟨2, 2, 1⟩ := h.dims
    have : out.at? ⟨0, 1, 0⟩ = some (out.buf 2) := by
      have := Img.buf_offOf out ⟨0, 1, 0⟩ (by rw [hd]; decide)
      rw [this, hd]; rfl
    rw [this] at hb
    cases hb
    change some (List.map (fun i => (out.buf i).val) (List.range out.dims.count)) = _ at hr
    rw [hd] at hr
    simp [Dims.count, List.range_succ] at hr
    omega
  refine h2 (UINT8.wrap 7) ?_ le_rfl ?_
  · rw [Px.lt_iff, hb0]; decide
  · have hsub : ({⟨0, 1, 0⟩, ⟨1, 1, 0⟩} : Set IntPoint) ⊆
        levelSet (seRel (HorizSE 1)) exTwoLines (UINT8.wrap 7) ⟨0, 1, 0⟩ := by
      rintro q (rfl | rfl)
      · exact LinkPath.refl hin
      · exact LinkPath.step (LinkPath.refl hin) (seRel_of_sub rfl (by decide)) h7 h7' ⟨le_rfl, le_rfl⟩
    have := Set.ncard_le_ncard hsub (levelSet_fin _ _ _)
    rwa [Set.ncard_pair (by decide)] at this

/-! ### Cases -/

/-- The hypotheses hold for the usual elements, and the peak of one pixel is removed. -/
example : AcceptsD true (lineImg [3, 1, 2, 2, 7, 3]).dims ⟨6, 1, 1⟩ ∧ UINT8.signed = false ∧ UINT8.bits ≤ 16 ∧
    (∀ p q, seRel (SquSE 1) p q → seRel (SquSE 1) q p) ∧ (∀ p q, seRel (HexSE 1) p q → seRel (HexSE 1) q p) ∧
    (lineImg [3, 1, 2, 2, 7, 3]).dims.count < 41943040 ∧
    ConnectedBy (seRel (SquSE 1)) (lineImg [3, 1, 2, 2, 7, 3]).dims ∧
    areaRow (attributeOpen areaCrit true (SquSE 1) 2 (lineImg [3, 1, 2, 2, 7, 3]) ⟨6, 1, 1⟩) =
      some [1, 1, 2, 2, 3, 3] ∧
    areaRow (attributeOpen widthCrit true (SquSE 1) 3 (lineImg [3, 1, 2, 2, 7, 3]) ⟨6, 1, 1⟩) =
      some [1, 1, 2, 2, 2, 2] ∧
    areaRow (attributeOpen heightCrit true (SquSE 1) 2 (im8 ⟨2, 3, 1⟩ [5, 6, 1, 7, 2, 3]) ⟨2, 3, 1⟩) =
      some [5, 6, 1, 6, 2, 3] := by
  refine ⟨⟨by decide, by decide, .inl rfl⟩, rfl, by decide, seRel_symm (by decide), seRel_symm (by decide), by decide,
    connected_squ _ (by decide) 1, by decide +kernel, by decide +kernel, by decide +kernel⟩

/-- On the image of `C51_hex_bug` the max-tree keeps the two hexagonal neighbours. -/
example : areaRow (attributeOpen areaCrit true (HexSE 1) 2 exHexArea ⟨3, 2, 1⟩) = some [0, 5, 0, 5, 0, 0] := by
  decide +kernel

/-- A closing fills a hole of one pixel. -/
example : areaRow (attributeClose areaCrit true (SquSE 1) 2 (lineImg [3, 1, 2, 2, 7, 3]) ⟨6, 1, 1⟩) =
    some [3, 2, 2, 2, 7, 7] := by decide +kernel

end Smil
