import Verif.AreaOpenLemmas
import Verif.PropsLabel

/-!
# Area opening (C51)

Specification: the pixels joined to `p` by a path of neighbours on which the image stays at or above a level,
and the largest level at which they are numerous enough.
-/

namespace Smil
open StrElt Relation
variable {α : Type} {t : PT}

/-- The pixels reached from `p` without going below `v`. -/
def levelSet [LE α] (N : IntPoint → IntPoint → Prop) (im : Img α) (v : α) (p : IntPoint) : Set IntPoint :=
  {q | LinkPath N (fun a b => v ≤ a ∧ v ≤ b) im p q}

/-- The pixels reached from `p`. -/
def wholeSet (N : IntPoint → IntPoint → Prop) (im : Img α) (p : IntPoint) : Set IntPoint :=
  {q | LinkPath N (fun _ _ => True) im p q}

/-- `out` is the area opening of `im` of size `n`: at each pixel the largest level not above the pixel whose
component has at least `n` pixels, or when even the whole component of the pixel has fewer than `n` pixels
the least value of that component. -/
structure IsAreaOpen [LinearOrder α] (N : IntPoint → IntPoint → Prop) (n : Nat) (im out : Img α) : Prop where
  dims : out.dims = im.dims
  val : ∀ p a, im.at? p = some a → ∃ b, out.at? p = some b ∧
    ((b ≤ a ∧ n ≤ (levelSet N im b p).ncard ∧ ∀ v, b < v → v ≤ a → (levelSet N im v p).ncard < n) ∨
     ((wholeSet N im p).ncard < n ∧ (∃ q ∈ wholeSet N im p, im.at? q = some b) ∧
        ∀ q ∈ wholeSet N im p, ∀ c, im.at? q = some c → b ≤ c))

/-! ### The specification is an opening -/

section
variable [LinearOrder α] {N : IntPoint → IntPoint → Prop} {n : Nat}

theorem LinkPath.mono {link link' : α → α → Prop} {im im' : Img α} (hd : im'.dims = im.dims)
    (hl : ∀ q r a b, im.at? q = some a → im.at? r = some b → link a b →
      ∃ a' b', im'.at? q = some a' ∧ im'.at? r = some b' ∧ link' a' b')
    {p q : IntPoint} (h : LinkPath N link im p q) : LinkPath N link' im' p q := by
  induction h with
  | refl h => exact .refl (hd ▸ h)
  | @step q r a b _ h1 ha hb hab ih =>
    obtain ⟨a', b', h2, h3, h4⟩ := hl q r a b ha hb hab
    exact .step ih h1 h2 h3 h4

theorem wholeSet_fin (im : Img α) (p : IntPoint) : (wholeSet N im p).Finite := by
  have : (coordPt im.dims '' Set.Iio im.dims.count).Finite := (Set.finite_Iio _).image _
  refine this.subset ?_
  intro q hq
  have := (LinkPath.in hq).2
  exact ⟨offOf im.dims q, offOf_lt this, coordPt_offOf this⟩

theorem levelSet_sub (im : Img α) (v : α) (p : IntPoint) : levelSet N im v p ⊆ wholeSet N im p :=
  fun _ h => LinkPath.mono rfl (fun _ _ _ _ h1 h2 _ => ⟨_, _, h1, h2, trivial⟩) h

theorem levelSet_fin (im : Img α) (v : α) (p : IntPoint) : (levelSet N im v p).Finite :=
  (wholeSet_fin im p).subset (levelSet_sub im v p)

theorem wholeSet_dims {im im' : Img α} (hd : im'.dims = im.dims) (p : IntPoint) :
    wholeSet N im p = wholeSet N im' p := by
  have key : ∀ {im im' : Img α}, im'.dims = im.dims → wholeSet N im p ⊆ wholeSet N im' p := by
    intro im im' hd q hq
    refine LinkPath.mono hd (fun q r a b h1 h2 _ => ?_) hq
    have h3 := Img.at?_eq_some_in _ _ _ h1
    have h4 := Img.at?_eq_some_in _ _ _ h2
    exact ⟨_, _, Img.buf_offOf im' q (hd ▸ h3), Img.buf_offOf im' r (hd ▸ h4), trivial⟩
  exact Set.Subset.antisymm (key hd) (key hd.symm)

theorem at_of_in {im : Img α} {p : IntPoint} (h : Img.In im.dims p) : ∃ a, im.at? p = some a :=
  ⟨_, Img.buf_offOf im p h⟩

/-- Values of a level path. -/
theorem levelSet_ge {im : Img α} {v : α} {p q : IntPoint} (h : q ∈ levelSet N im v p) {a : α}
    (ha : im.at? p = some a) (hv : v ≤ a) {b : α} (hb : im.at? q = some b) : v ≤ b := by
  unfold levelSet at h
  cases h with
  | refl _ => rw [ha] at hb; cases hb; exact hv
  | step _ _ _ hb' hab => rw [hb'] at hb; cases hb; exact hab.2

theorem levelSet_eq (hN : ∀ p q, N p q → N q p) {im : Img α} {v : α} {p q : IntPoint}
    (h : q ∈ levelSet N im v p) : levelSet N im v q = levelSet N im v p := by
  have hsym : q ∈ levelSet N im v p → p ∈ levelSet N im v q :=
    fun h => LinkPath.symm hN (fun a b h => ⟨h.2, h.1⟩) h
  ext r
  exact ⟨fun h2 => LinkPath.trans h h2, fun h2 => LinkPath.trans (hsym h) h2⟩

theorem wholeSet_eq (hN : ∀ p q, N p q → N q p) {im : Img α} {p q : IntPoint}
    (h : q ∈ wholeSet N im p) : wholeSet N im q = wholeSet N im p := by
  have hsym : p ∈ wholeSet N im q := LinkPath.symm hN (fun a b h => h) h
  ext r
  exact ⟨fun h2 => LinkPath.trans h h2, fun h2 => LinkPath.trans hsym h2⟩

/-- At the level of its least value a component is whole. -/
theorem levelSet_whole {im : Img α} {b : α} {p : IntPoint}
    (hb : ∀ q ∈ wholeSet N im p, ∀ c, im.at? q = some c → b ≤ c) :
    levelSet N im b p = wholeSet N im p := by
  refine Set.Subset.antisymm (levelSet_sub im b p) ?_
  intro q hq
  have hin := (LinkPath.in hq).1
  unfold wholeSet at hq hb
  simp only [Set.mem_ofPred_eq] at hb hq
  change LinkPath N _ im p q
  induction hq with
  | refl h => exact .refl h
  | @step q r a c h1 h2 ha hc _ ih =>
    exact .step ih h2 ha hc ⟨hb q h1 a ha, hb r (.step h1 h2 ha hc trivial) c hc⟩

theorem wholeSet_least {im : Img α} (p : IntPoint) (hp : Img.In im.dims p) :
    ∃ b, (∃ q ∈ wholeSet N im p, im.at? q = some b) ∧
      ∀ q ∈ wholeSet N im p, ∀ c, im.at? q = some c → b ≤ c := by
  have hfin : {c | ∃ q ∈ wholeSet N im p, im.at? q = some c}.Finite := by
    refine ((wholeSet_fin (N := N) im p).image fun q => im.buf (offOf im.dims q)).subset ?_
    rintro c ⟨q, hq, hc⟩
    refine ⟨q, hq, ?_⟩
    rw [Img.buf_offOf im q (LinkPath.in hq).2] at hc
    exact Option.some.inj hc
  obtain ⟨b, hb, hmin⟩ := hfin.exists_minimal ⟨_, p, LinkPath.refl hp, Img.buf_offOf im p hp⟩
  refine ⟨b, hb, fun q hq c hc => ?_⟩
  rcases le_total b c with h | h
  · exact h
  · exact hmin ⟨q, hq, hc⟩ h

/-- **C51**, the specification determines the result: two implementations that meet it agree. -/
theorem C51_unique {im o1 o2 : Img α} (h1 : IsAreaOpen N n im o1) (h2 : IsAreaOpen N n im o2) :
    o1.dims = o2.dims ∧ ∀ p, o1.at? p = o2.at? p := by
  refine ⟨h1.dims.trans h2.dims.symm, fun p => ?_⟩
  by_cases hp : Img.In im.dims p
  · obtain ⟨a, ha⟩ := at_of_in hp
    obtain ⟨b1, e1, c1⟩ := h1.val p a ha
    obtain ⟨b2, e2, c2⟩ := h2.val p a ha
    rw [e1, e2]
    congr 1
    rcases c1 with ⟨l1, g1, m1⟩ | ⟨s1, ⟨q1, k1, v1⟩, m1⟩ <;>
      rcases c2 with ⟨l2, g2, m2⟩ | ⟨s2, ⟨q2, k2, v2⟩, m2⟩
    · rcases lt_trichotomy b1 b2 with h | h | h
      · exact absurd g2 (not_le.mpr (m1 _ h l2))
      · exact h
      · exact absurd g1 (not_le.mpr (m2 _ h l1))
    · have := Set.ncard_le_ncard (levelSet_sub (N := N) im b1 p) (wholeSet_fin im p); omega
    · have := Set.ncard_le_ncard (levelSet_sub (N := N) im b2 p) (wholeSet_fin im p); omega
    · exact le_antisymm (m1 _ k2 _ v2) (m2 _ k1 _ v1)
  · rw [Img.at?_none _ _ (h1.dims ▸ hp), Img.at?_none _ _ (h2.dims ▸ hp)]

/-- **C51**, the area opening is anti-extensive. -/
theorem C51_antiextensive {im o : Img α} (h : IsAreaOpen N n im o) (p : IntPoint) (a b : α)
    (ha : im.at? p = some a) (hb : o.at? p = some b) : b ≤ a := by
  obtain ⟨b', e, c⟩ := h.val p a ha
  rw [hb] at e
  cases e
  rcases c with c | ⟨_, _, c⟩
  · exact c.1
  · exact c p (LinkPath.refl (Img.at?_eq_some_in _ _ _ ha)) a ha

/-- **C51**, the area opening is increasing. -/
theorem C51_increasing {im im' o o' : Img α} (hd : im'.dims = im.dims)
    (hle : ∀ p a a', im.at? p = some a → im'.at? p = some a' → a ≤ a')
    (h : IsAreaOpen N n im o) (h' : IsAreaOpen N n im' o') (p : IntPoint) (b b' : α)
    (hb : o.at? p = some b) (hb' : o'.at? p = some b') : b ≤ b' := by
  have hp : Img.In im.dims p := h.dims ▸ Img.at?_eq_some_in _ _ _ hb
  obtain ⟨a, ha⟩ := at_of_in hp
  obtain ⟨a', ha'⟩ := at_of_in (hd ▸ hp : Img.In im'.dims p)
  obtain ⟨c, e, hc⟩ := h.val p a ha
  rw [hb] at e; cases e
  obtain ⟨c', e', hc'⟩ := h'.val p a' ha'
  rw [hb'] at e'; cases e'
  have hsub : ∀ v, levelSet N im v p ⊆ levelSet N im' v p := by
    intro v q hq
    refine LinkPath.mono hd (fun q r x y hx hy hv => ?_) hq
    obtain ⟨x', hx'⟩ := at_of_in (hd ▸ Img.at?_eq_some_in _ _ _ hx : Img.In im'.dims q)
    obtain ⟨y', hy'⟩ := at_of_in (hd ▸ Img.at?_eq_some_in _ _ _ hy : Img.In im'.dims r)
    exact ⟨x', y', hx', hy', hv.1.trans (hle _ _ _ hx hx'), hv.2.trans (hle _ _ _ hy hy')⟩
  have hw := wholeSet_dims (N := N) hd p
  rcases hc with ⟨l1, g1, m1⟩ | ⟨s1, ⟨q1, k1, v1⟩, m1⟩
  · have hg : n ≤ (levelSet N im' b p).ncard :=
      g1.trans (Set.ncard_le_ncard (hsub b) (levelSet_fin im' b p))
    rcases hc' with ⟨l2, g2, m2⟩ | ⟨s2, _, _⟩
    · by_contra hlt
      exact absurd hg (not_le.mpr (m2 b (not_le.mp hlt) (l1.trans (hle _ _ _ ha ha'))))
    · have := Set.ncard_le_ncard (levelSet_sub (N := N) im' b p) (wholeSet_fin im' p); omega
  · rcases hc' with ⟨l2, g2, m2⟩ | ⟨s2, ⟨q2, k2, v2⟩, m2⟩
    · have := Set.ncard_le_ncard (levelSet_sub (N := N) im' b' p) (wholeSet_fin im' p)
      rw [← hw] at this; omega
    · rw [← hw] at k2
      obtain ⟨x, hx⟩ := at_of_in (LinkPath.in k2).2
      exact (m1 _ k2 _ hx).trans (hle _ _ _ hx v2)

/-- **C51**, the area opening is idempotent. -/
theorem C51_idempotent (hN : ∀ p q, N p q → N q p) {im o : Img α} (h : IsAreaOpen N n im o) :
    IsAreaOpen N n o o := by
  refine ⟨rfl, fun p b hb => ⟨b, hb, ?_⟩⟩
  have hp : Img.In im.dims p := h.dims ▸ Img.at?_eq_some_in _ _ _ hb
  obtain ⟨a, ha⟩ := at_of_in hp
  obtain ⟨c, e, hc⟩ := h.val p a ha
  rw [hb] at e; cases e
  have hw := wholeSet_dims (N := N) h.dims
  rcases hc with ⟨l1, g1, m1⟩ | ⟨s1, ⟨q1, k1, v1⟩, m1⟩
  · left
    refine ⟨le_refl _, ?_, fun v h1 h2 => absurd (h1.trans_le h2) (lt_irrefl _)⟩
    refine g1.trans (Set.ncard_le_ncard ?_ (levelSet_fin o b p))
    -- the component is kept
    have hkeep : ∀ q ∈ levelSet N im b p, ∃ c, o.at? q = some c ∧ b ≤ c := by
      intro q hq
      obtain ⟨x, hx⟩ := at_of_in (LinkPath.in hq).2
      have hbx := levelSet_ge hq ha l1 hx
      obtain ⟨c, e, hc⟩ := h.val q x hx
      refine ⟨c, e, ?_⟩
      have hg : n ≤ (levelSet N im b q).ncard := by rw [levelSet_eq hN hq]; exact g1
      rcases hc with ⟨l2, g2, m2⟩ | ⟨s2, _, _⟩
      · by_contra hlt
        exact absurd hg (not_le.mpr (m2 b (not_le.mp hlt) hbx))
      · have := Set.ncard_le_ncard (levelSet_sub (N := N) im b q) (wholeSet_fin im q); omega
    intro q hq
    change LinkPath N _ o p q
    unfold levelSet at hq
    simp only [Set.mem_ofPred_eq] at hq
    induction hq with
    | refl h' => exact .refl (h.dims ▸ h')
    | @step q r x y h1 h2 hx hy hv ih =>
      obtain ⟨c, e1, l2⟩ := hkeep q h1
      obtain ⟨d, e2, l3⟩ := hkeep r (LinkPath.step h1 h2 hx hy hv)
      exact .step ih h2 e1 e2 ⟨l2, l3⟩
  · right
    rw [hw p] at s1
    refine ⟨s1, ⟨p, LinkPath.refl (h.dims ▸ hp), hb⟩, ?_⟩
    intro q hq c hc
    rw [← hw p] at hq
    obtain ⟨x, hx⟩ := at_of_in (LinkPath.in hq).2
    obtain ⟨c', e, hc'⟩ := h.val q x hx
    rw [hc] at e; cases e
    have hwq := wholeSet_eq hN hq
    rcases hc' with ⟨_, g2, _⟩ | ⟨_, ⟨q2, k2, v2⟩, _⟩
    · have := Set.ncard_le_ncard (levelSet_sub (N := N) im c q) (wholeSet_fin im q)
      rw [hwq, hw p] at this; omega
    · rw [hwq] at k2
      exact m1 _ k2 _ v2

end

/-! ### The union-find implementation -/

/-- On a square grid the neighbours are those of the other algorithms. -/
theorem ufOffs_eq {D : Dims} {se : StrElt} (ho : se.odd = false) {cur : Nat} (hc : cur < D.count) :
    ufOffs D se cur = nbOffsets D se.noCenter cur := by
  have ho' : se.noCenter.odd = false := (addPoints_odd _ _).trans ho
  unfold ufOffs nbOffsets
  apply List.filterMap_congr
  intro b hb
  have hb0 : b.x ≠ 0 ∨ b.y ≠ 0 ∨ b.z ≠ 0 := by
    unfold noCenter at hb
    rw [mem_addPoints] at hb
    rcases hb with hb | hb
    · simp at hb
    · have := (List.mem_filter.mp hb).2
      simp at this
      tauto
  unfold nbOffset
  rw [if_pos hb0]
  have hz : ∀ y0 y, oddCorr se.noCenter y0 y = 0 := by
    intro y0 y; unfold oddCorr; rw [ho']; simp
  simp only [hz, add_zero]
  split_ifs with hin hd
  · congr 2; ring
  · congr 2
    have h1 := (coordPt_in hc).1
    unfold Img.In at hin h1
    simp only at hin
    have : b.z = 0 := by omega
    rw [this]; ring
  · rfl

theorem aconn_reach {se : StrElt} {im : Img (Px t)} {link : Px t → Px t → Bool} {S : Nat → Prop}
    (hS : ∀ i j, i < im.dims.count → j < im.dims.count →
      (link (im.buf j) (im.buf i) = true ↔ (S i ∧ S j)))
    {i j : Nat} (hi : i < im.dims.count) :
    AConn (nbOffsets im.dims se) S i j ↔ ReflTransGen (labCfg 0 link se im).R i j := by
  constructor
  · intro h
    have : j < im.dims.count ∧ ReflTransGen (labCfg 0 link se im).R i j := by
      induction h with
      | refl => exact ⟨hi, .refl⟩
      | @tail j k _ h2 ih =>
        have hk := nbOffsets_lt ih.1 h2.2.2
        exact ⟨hk, ih.2.tail ⟨h2.2.2, (hS _ _ ih.1 hk).mpr ⟨h2.1, h2.2.1⟩⟩⟩
    exact this.2
  · intro h
    have : j < im.dims.count ∧ AConn (nbOffsets im.dims se) S i j := by
      induction h with
      | refl => exact ⟨hi, .refl⟩
      | @tail j k _ h2 ih =>
        have hk := nbOffsets_lt ih.1 h2.1
        obtain ⟨h3, h4⟩ := (hS _ _ ih.1 hk).mp h2.2
        exact ⟨hk, ih.2.tail ⟨h3, h4, h2.1⟩⟩
    exact this.2

/-- Components of offsets are components of points. -/
theorem acomp_ncard {se : StrElt} {im : Img (Px t)} {link : Px t → Px t → Bool} {S : Nat → Prop}
    (hS : ∀ i j, i < im.dims.count → j < im.dims.count →
      (link (im.buf j) (im.buf i) = true ↔ (S i ∧ S j)))
    {p : IntPoint} (hp : Img.In im.dims p) :
    (acomp (nbOffsets im.dims se) S (offOf im.dims p)).ncard =
      {q | LinkPath (seRel se) (fun a b => link b a = true) im p q}.ncard := by
  have himg : offOf im.dims '' {q | LinkPath (seRel se) (fun a b => link b a = true) im p q} =
      acomp (nbOffsets im.dims se) S (offOf im.dims p) := by
    ext j
    constructor
    · rintro ⟨q, hq, rfl⟩
      exact (aconn_reach hS (offOf_lt hp)).mpr (reach_of_linkPath hq)
    · intro hj
      have hr := (aconn_reach (se := se) hS (offOf_lt hp)).mp hj
      obtain ⟨h1, h2⟩ := linkPath_of_reach (offOf_lt hp) hr
      rw [coordPt_offOf hp] at h2
      exact ⟨coordPt im.dims j, h2, (coordPt_in h1).2⟩
  rw [← himg, Set.InjOn.ncard_image]
  intro q hq r hr e
  exact offOf_inj (LinkPath.in hq).2 (LinkPath.in hr).2 e

/-- The offset specification is the specification on points. -/
theorem isAreaOpen_of_offsets {se : StrElt} {im : Img (Px t)} {n : Nat} {o : Nat → Px t}
    (h : ∀ x < im.dims.count,
      (n ≤ (acomp (nbOffsets im.dims se) (ALev im.dims.count im.buf (o x)) x).ncard ∧ o x ≤ im.buf x ∧
        ∀ v, o x < v → v ≤ im.buf x →
          (acomp (nbOffsets im.dims se) (ALev im.dims.count im.buf v) x).ncard < n) ∨
      ((acomp (nbOffsets im.dims se) (· < im.dims.count) x).ncard < n ∧
        (∃ y, AConn (nbOffsets im.dims se) (· < im.dims.count) x y ∧ o x = im.buf y) ∧
        ∀ y, AConn (nbOffsets im.dims se) (· < im.dims.count) x y → o x ≤ im.buf y)) :
    IsAreaOpen (seRel se) n im ⟨im.dims, o⟩ := by
  refine ⟨rfl, fun p a ha => ?_⟩
  have hp := Img.at?_eq_some_in _ _ _ ha
  rw [Img.buf_offOf im p hp] at ha
  cases ha
  refine ⟨o (offOf im.dims p), Img.buf_offOf ⟨im.dims, o⟩ p hp, ?_⟩
  have hlev : ∀ v, (acomp (nbOffsets im.dims se) (ALev im.dims.count im.buf v) (offOf im.dims p)).ncard =
      (levelSet (seRel se) im v p).ncard := by
    intro v
    rw [acomp_ncard (link := fun a b => decide (v ≤ b ∧ v ≤ a)) ?_ hp]
    · unfold levelSet; simp
    · intro i j hi hj
      simp [ALev, hi, hj]
  have hS : ∀ i j, i < im.dims.count → j < im.dims.count →
      ((fun _ _ : Px t => true) (im.buf j) (im.buf i) = true ↔
        (i < im.dims.count ∧ j < im.dims.count)) := by
    intro i j hi hj; simp [hi, hj]
  have hwhole : (acomp (nbOffsets im.dims se) (· < im.dims.count) (offOf im.dims p)).ncard =
      (wholeSet (seRel se) im p).ncard := by
    rw [acomp_ncard (link := fun _ _ => true) hS hp]; unfold wholeSet; simp
  have hconn : ∀ {q}, Img.In im.dims q → (q ∈ wholeSet (seRel se) im p ↔
      AConn (nbOffsets im.dims se) (· < im.dims.count) (offOf im.dims p) (offOf im.dims q)) := by
    intro q hq
    rw [aconn_reach (link := fun _ _ => true) hS (offOf_lt hp), ← linkPath_iff hp hq]
    unfold wholeSet; simp
  rcases h _ (offOf_lt hp) with ⟨h1, h2, h3⟩ | ⟨h1, ⟨y, h2, h2'⟩, h3⟩
  · left
    refine ⟨h2, by rw [← hlev]; exact h1, fun v hv hv' => by rw [← hlev]; exact h3 v hv hv'⟩
  · right
    have hy : y < im.dims.count := AConn.mem (S := (· < im.dims.count)) h2 (offOf_lt hp)
    refine ⟨by rw [← hwhole]; exact h1, ⟨coordPt im.dims y, ?_, ?_⟩, ?_⟩
    · rw [hconn (coordPt_in hy).1, (coordPt_in hy).2]; exact h2
    · rw [Img.buf_offOf im _ (coordPt_in hy).1, (coordPt_in hy).2, h2']
    · intro q hq c hc
      have hin := (LinkPath.in hq).2
      rw [Img.buf_offOf im q hin] at hc
      cases hc
      exact h3 _ ((hconn hin).mp hq)

theorem nbOffsets_symm {D : Dims} {se : StrElt} (hN : ∀ p q, seRel se p q → seRel se q p)
    {i j : Nat} (hi : i < D.count) (h : j ∈ nbOffsets D se i) : i ∈ nbOffsets D se j := by
  have hj := nbOffsets_lt hi h
  rw [← (coordPt_in hi).2, mem_nbOffsets (coordPt_in hi).1] at h
  obtain ⟨p, hp, e, b, hb, hb0, h⟩ := h
  have hne : coordPt D i ≠ p := by
    intro he
    rw [← he] at h
    apply hb0
    have h4 : phys se.odd b = 0 := by simpa using h
    apply phys_inj se.odd
    rw [h4]; simp [phys]
    rfl
  have hr : seRel se (coordPt D i) p := ⟨b, hb, h⟩
  have := (seRel_nb hp (coordPt_in hi).1 (Ne.symm hne)).mp (hN _ _ hr)
  rwa [(coordPt_in hi).2, e] at this

theorem foldlM_congr' {β γ : Type} {g g' : β → γ → Option β} : ∀ (l : List γ) (b : β),
    (∀ x ∈ l, ∀ b, g b x = g' b x) → l.foldlM g b = l.foldlM g' b
  | [], _, _ => rfl
  | x :: l, b, h => by
    rw [List.foldlM_cons, List.foldlM_cons, h x (by simp)]
    congr 1
    funext c
    exact foldlM_congr' l c fun y hy => h y (by simp [hy])

theorem ufAreaOpen_congr {N lam : Nat} {adj adj' : Nat → List Nat} (h : ∀ i < N, adj i = adj' i)
    (f out : Nat → Px t) : ufAreaOpen N adj f f lam out = ufAreaOpen N adj' f f lam out := by
  unfold ufAreaOpen
  congr 1
  refine foldlM_congr' _ _ fun x hx par => ?_
  unfold ufPixel
  rw [h x (((histOrder_ord N f).mem x).mp hx)]

/-- The neighbours of the offsets of the image. -/
def insideAdj (D : Dims) (se : StrElt) (i : Nat) : List Nat :=
  if i < D.count then nbOffsets D se i else []

theorem insideAdj_conn {D : Dims} {se : StrElt} {S : Nat → Prop} (hS : ∀ i, S i → i < D.count)
    : AConn (insideAdj D se) S = AConn (nbOffsets D se) S := by
  unfold AConn
  congr 1
  funext a b
  unfold insideAdj
  apply propext
  constructor
  · rintro ⟨h1, h2, h3⟩
    rw [if_pos (hS a h1)] at h3
    exact ⟨h1, h2, h3⟩
  · rintro ⟨h1, h2, h3⟩
    rw [if_pos (hS a h1)]
    exact ⟨h1, h2, h3⟩

theorem insideAdj_symm {D : Dims} {se : StrElt} (hN : ∀ p q, seRel se p q → seRel se q p) (i j : Nat)
    (h : j ∈ insideAdj D se i) : i ∈ insideAdj D se j := by
  unfold insideAdj at h ⊢
  split at h
  · rename_i hi
    rw [if_pos (nbOffsets_lt hi h)]
    exact nbOffsets_symm hN hi h
  · cases h

theorem insideAdj_lt {D : Dims} {se : StrElt} (i : Nat) (hi : i < D.count) (j : Nat)
    (h : j ∈ insideAdj D se i) : j < D.count := by
  unfold insideAdj at h
  rw [if_pos hi] at h
  exact nbOffsets_lt hi h

/-- **C51**, partial: for every symmetric element of a square grid, every size at least 1 and distinct input and
output images, `areaOpening` computes the area opening. Missing: hexagonal elements (`C51_hex_bug`), size 0
(`C51_size0_bug`), the in-place call (`C51_inplace_bug`), and the max-tree implementation. -/
theorem C51_unionfind_partial (auto : Bool) (se : StrElt) (n : Nat) (im : Img (Px t)) (dout : Dims)
    (hok : AcceptsD auto im.dims dout) (ho : se.odd = false) (hN : ∀ p q, seRel se p q → seRel se q p)
    (hn : 1 ≤ n) :
    ∃ out, areaOpening auto false se n im dout = some (.ok out) ∧ IsAreaOpen (seRel se) n im out := by
  have hN' : ∀ p q, seRel se.noCenter p q → seRel se.noCenter q p := by
    intro p q hpq
    by_cases e : p = q
    · subst e; exact hpq
    · rw [seRel_noCenter (Ne.symm e)]
      exact hN _ _ ((seRel_noCenter e).mp hpq)
  obtain ⟨o, e, h⟩ := ufAreaOpen_spec (N := im.dims.count) (f := im.buf) (insideAdj_symm (se := se.noCenter) hN')
    insideAdj_lt hn (fun _ => Px.zero)
  have e' : ufAreaOpen im.dims.count (ufOffs im.dims se) im.buf im.buf n (fun _ => Px.zero) = some o := by
    rw [← e]
    refine ufAreaOpen_congr (fun i hi => ?_) _ _
    rw [ufOffs_eq ho hi]
    unfold insideAdj
    rw [if_pos hi]
  refine ⟨⟨im.dims, o⟩, ?_, ?_⟩
  · unfold areaOpening
    rw [checkDims_ok hok]
    simp only [Bool.false_eq_true, if_false]
    rw [e']
    rfl
  · have hio := isAreaOpen_of_offsets (se := se.noCenter) (im := im) (n := n) (o := o) ?_
    · refine ⟨hio.dims, ?_⟩
      have := hio.val
      unfold levelSet wholeSet at this ⊢
      simp only [linkPath_noCenter] at this
      exact this
    · intro x hx
      have h1 := h x hx
      unfold acomp at h1 ⊢
      rw [insideAdj_conn (S := (· < im.dims.count)) (fun i hi => hi)] at h1
      simp only [insideAdj_conn (S := ALev im.dims.count im.buf _) (fun i hi => hi.1)] at h1
      exact h1

/-- **C51**, errors. -/
theorem C51_errors (auto same : Bool) (se : StrElt) (n : Nat) (im : Img (Px t)) (dout : Dims) (c : Int)
    (h : checkDims auto im.dims dout = .error c) :
    areaOpening auto same se n im dout = some (.error c) := by
  unfold areaOpening; rw [h]

/-- Rows of a result. -/
def areaRow (r : Option (Except Int (Img (Px t)))) : Option (List Int) :=
  match r with
  | some (.ok im) => some ((List.range im.dims.count).map fun i => (im.buf i).val)
  | _ => none

/-- A line of pixels. -/
def lineImg (l : List Int) : Img (Px UINT8) := ⟨⟨l.length, 1, 1⟩, fun i => UINT8.wrap (l.getD i 0)⟩

/-- The hypotheses of `C51_unionfind_partial` hold for the square, and the peak of one pixel is removed. -/
example : (SquSE 1).odd = false ∧
    (∀ b ∈ (SquSE 1).points, ∃ b' ∈ (SquSE 1).points, phys (SquSE 1).odd b + phys (SquSE 1).odd b' = 0) ∧
    areaRow (areaOpening true false (SquSE 1) 2 (lineImg [3, 1, 2, 2, 7, 3]) ⟨6, 1, 1⟩) =
      some [1, 1, 2, 2, 3, 3] := by decide +kernel

/-- Size 0 is accepted, and the opening is then not even anti-extensive: a pixel of value 1 gets 255. -/
theorem C51_size0_bug :
    areaRow (areaOpening true false (CrossSE 1) 0 (lineImg [3, 1, 2]) ⟨3, 1, 1⟩) = some [3, 255, 2] := by
  decide +kernel

/-- In place, the histogram is made on the image already filled with zeros: `1 2 3 4 1 7` gives `2 2 3 1 1 7`
instead of `1 2 3 3 1 1`. -/
theorem C51_inplace_bug :
    areaRow (areaOpening true true (CrossSE 1) 2 (lineImg [1, 2, 3, 4, 1, 7]) ⟨6, 1, 1⟩) =
        some [2, 2, 3, 1, 1, 7] ∧
      areaRow (areaOpening true false (CrossSE 1) 2 (lineImg [1, 2, 3, 4, 1, 7]) ⟨6, 1, 1⟩) =
        some [1, 2, 3, 3, 1, 1] := by
  decide +kernel

/-- An image with two hexagonal neighbours of value 5. -/
def exHexArea : Img (Px UINT8) := ⟨⟨3, 2, 1⟩, fun i => UINT8.wrap ([0, 5, 0, 5, 0, 0].getD i 0)⟩

/-- With a hexagonal element the odd lines are not corrected: a component of two neighbours is taken for two
components of one pixel, and removed. -/
theorem C51_hex_bug : ∃ out, areaOpening true false (HexSE 1) 2 exHexArea ⟨3, 2, 1⟩ = some (.ok out) ∧
    areaRow (some (.ok out)) = some [0, 0, 0, 0, 0, 0] ∧
    ¬ IsAreaOpen (seRel (HexSE 1)) 2 exHexArea out := by
  obtain ⟨out, e⟩ : ∃ out, areaOpening true false (HexSE 1) 2 exHexArea ⟨3, 2, 1⟩ = some (.ok out) := by
    have h : areaRow (areaOpening true false (HexSE 1) 2 exHexArea ⟨3, 2, 1⟩) = some [0, 0, 0, 0, 0, 0] := by
      decide +kernel
    unfold areaRow at h
    split at h
    · exact ⟨_, by assumption⟩
    · cases h
  refine ⟨out, e, ?_, ?_⟩
  · rw [← e]; decide +kernel
  · intro h
    have h5 : exHexArea.at? ⟨1, 0, 0⟩ = some (UINT8.wrap 5) := by decide +kernel
    have h5' : exHexArea.at? ⟨0, 1, 0⟩ = some (UINT8.wrap 5) := by decide +kernel
    have hz : out.at? ⟨1, 0, 0⟩ = some Px.zero := by
      have : (match areaOpening true false (HexSE 1) 2 exHexArea ⟨3, 2, 1⟩ with
        | some (.ok o) => decide (o.at? ⟨1, 0, 0⟩ = some Px.zero)
        | _ => false) = true := by decide +kernel
      rw [e] at this
      simpa using this
    have hin : Img.In exHexArea.dims ⟨1, 0, 0⟩ := by decide
    have hr : seRel (HexSE 1) ⟨1, 0, 0⟩ ⟨0, 1, 0⟩ := ⟨⟨-1, 1, 0⟩, by decide, by decide⟩
    have hlink : (⟨0, 1, 0⟩ : IntPoint) ∈ levelSet (seRel (HexSE 1)) exHexArea (UINT8.wrap 5) ⟨1, 0, 0⟩ :=
      LinkPath.step (LinkPath.refl hin) hr h5 h5' ⟨le_refl _, le_refl _⟩
    have hcard : 2 ≤ (levelSet (seRel (HexSE 1)) exHexArea (UINT8.wrap 5) ⟨1, 0, 0⟩).ncard := by
      have h2 : ({⟨1, 0, 0⟩, ⟨0, 1, 0⟩} : Set IntPoint).ncard = 2 := Set.ncard_pair (by decide)
      rw [← h2]
      refine Set.ncard_le_ncard ?_ (levelSet_fin _ _ _)
      intro q hq
      rcases hq with rfl | rfl
      · exact LinkPath.refl hin
      · exact hlink
    obtain ⟨b, hb, hc⟩ := h.val _ _ h5
    rw [hz] at hb
    cases hb
    rcases hc with ⟨_, _, hc⟩ | ⟨hc, _, _⟩
    · have := hc (UINT8.wrap 5) (by decide) (le_refl _); omega
    · have := Set.ncard_le_ncard (levelSet_sub (N := seRel (HexSE 1)) exHexArea (UINT8.wrap 5) ⟨1, 0, 0⟩)
        (wholeSet_fin _ _)
      omega

end Smil
