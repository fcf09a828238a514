import Verif.PropsGraph

/-!
# Properties of the adjacency graph of a mosaic (C47)
-/

namespace Smil

/-- The pixels `p`, of region `u`, and `q`, of region `v`, are neighbours for the element. -/
def Touch (se : StrElt) (mos : Img Int) (u v : Int) (p q : IntPoint) : Prop :=
  seRel se p q ∧ mos.at? p = some u ∧ mos.at? q = some v

theorem zip3_at {mos ev : Img Int} {nv : Option (Img Int)} (hev : ev.dims = mos.dims)
    {p : IntPoint} {m : MPix} (h : (zip3 mos (some ev) nv).at? p = some m) :
    mos.at? p = some m.lab ∧ ev.at? p = some m.ev := by
  unfold Img.at? zip3 at *
  simp only at h
  rw [hev]
  split_ifs at h ⊢ with hin
  simp only [Option.some.injEq] at h
  subst h
  unfold Img.px
  rw [hev]
  exact ⟨rfl, rfl⟩

theorem at_zip3 {mos ev : Img Int} {nv : Option (Img Int)} (hev : ev.dims = mos.dims)
    {p : IntPoint} {u : Int} (h : mos.at? p = some u) :
    ∃ m, (zip3 mos (some ev) nv).at? p = some m ∧ m.lab = u ∧ ev.at? p = some m.ev := by
  unfold Img.at? zip3 at *
  rw [hev]
  simp only
  split_ifs at h ⊢ with hin
  simp only [Option.some.injEq] at h
  subst h
  unfold Img.px
  rw [hev]
  exact ⟨_, rfl, rfl, rfl⟩

/-- **C47** (partial: with an image of edge values, elements that fit the width, see `RowOk`; only regions
that touch another one are nodes): the graph has one edge between two regions if they touch and none
otherwise, never two; its weight is the smallest edge value over the pixels that see a pixel of the
other region; the nodes are the regions that touch another one. -/
theorem C47_mosaic_partial (auto : Bool) (mos ev : Img Int) (nv : Option (Img Int)) (se : StrElt)
    (h0 : mos.dims.count ≠ 0) (hev : ev.dims = mos.dims) (hnv : ∀ im ∈ nv, im.dims = mos.dims)
    (hro : RowOk mos.dims.w (execSe se)) (hw : mos.dims.w < 2 ^ 31) :
    ∃ g, mosaicToGraph auto mos (some ev) nv se = some (.ok g) ∧
      Observed g ⟨g.nodes, g.edges.map some⟩ ∧
      (∀ u v, (∃ e ∈ g.edges, Joins e u v) ↔
        u ≠ v ∧ ∃ p q, Touch (execSe se) mos u v p q ∨ Touch (execSe se) mos v u p q) ∧
      (g.edges.Pairwise fun e f => ¬ SameEnds e f) ∧
      (∀ u v, ∀ e ∈ g.edges, Joins e u v → IsLeast {w | ∃ p q, (Touch (execSe se) mos u v p q ∨
        Touch (execSe se) mos v u p q) ∧ ev.at? p = some w} e.weight) ∧
      ∀ u, u ∈ g.nodes ↔ ∃ v, u ≠ v ∧ ∃ p q, Touch (execSe se) mos u v p q ∨ Touch (execSe se) mos v u p q := by
  have hfit : lineFits mos.dims (execSe se) := by
    obtain ⟨hl, hm, h3, h4⟩ := hro.bounds hw
    unfold lineFits
    rw [hm]; omega
  have hims : ∀ im ∈ (some ev).toList ++ nv.toList, im.dims = mos.dims := by
    intro im him
    simp only [Option.toList_some, List.singleton_append, List.mem_cons] at him
    rcases him with rfl | him
    · exact hev
    · exact hnv im (by simpa using him)
  refine ⟨mosFold true nv.isSome (mosPairs (execSe se) (zip3 mos (some ev) nv)) Graph.empty, ?_, ?_⟩
  · unfold mosaicToGraph
    simp only
    rw [if_neg, if_neg, if_pos hfit]
    · have := mos_run (hasE := true) (hasN := nv.isSome) (im := zip3 mos (some ev) nv) hro hw Graph.empty
      simp only [Option.isSome_some]
      rw [show (zip3 mos (some ev) nv).dims = mos.dims from rfl] at this
      rw [this]; rfl
    · rintro ⟨im, him, hd⟩; exact hd (hims im him)
    · rintro (h | ⟨im, him, hd⟩)
      · exact h0 h
      · rw [hims im him] at hd; exact h0 hd
  have hinv := mosFold_spec nv.isSome (mosPairs (execSe se) (zip3 mos (some ev) nv))
  generalize hg : mosFold true nv.isSome (mosPairs (execSe se) (zip3 mos (some ev) nv)) Graph.empty = g at hinv
  -- contacts, geometrically
  have hto : ∀ u v cn, cn ∈ mosPairs (execSe se) (zip3 mos (some ev) nv) → Contact u v cn →
      ∃ p q, (Touch (execSe se) mos u v p q ∨ Touch (execSe se) mos v u p q) ∧ ev.at? p = some cn.1.ev := by
    rintro u v ⟨c, n⟩ hcn hct
    obtain ⟨p, q, hpq, hp, hq⟩ := mem_mosPairs.mp hcn
    obtain ⟨a1, a2⟩ := zip3_at hev hp
    obtain ⟨b1, _⟩ := zip3_at hev hq
    refine ⟨p, q, ?_, a2⟩
    rcases hct with ⟨rfl, rfl⟩ | ⟨rfl, rfl⟩
    · exact Or.inl ⟨hpq, a1, b1⟩
    · exact Or.inr ⟨hpq, a1, b1⟩
  have hof : ∀ u v p q, Touch (execSe se) mos u v p q →
      ∃ cn ∈ mosPairs (execSe se) (zip3 mos (some ev) nv), cn.1.lab = u ∧ cn.2.lab = v ∧
        ev.at? p = some cn.1.ev := by
    rintro u v p q ⟨hpq, hp, hq⟩
    obtain ⟨c, hc, hcl, hce⟩ := at_zip3 (nv := nv) hev hp
    obtain ⟨n, hn, hnl, _⟩ := at_zip3 (nv := nv) hev hq
    exact ⟨(c, n), mem_mosPairs.mpr ⟨p, q, hpq, hc, hn⟩, hcl, hnl, hce⟩
  have hjc : ∀ {e : E} {u v : Int} {cn : MPix × MPix}, Joins e u v → (Contact e.src e.tgt cn ↔ Contact u v cn) := by
    intro e u v cn hj
    unfold Joins at hj; unfold Contact
    rcases hj with ⟨rfl, rfl⟩ | ⟨rfl, rfl⟩ <;> tauto
  have hedge : ∀ u v, (∃ e ∈ g.edges, Joins e u v) ↔
      u ≠ v ∧ ∃ p q, Touch (execSe se) mos u v p q ∨ Touch (execSe se) mos v u p q := by
    intro u v
    constructor
    · rintro ⟨e, he, hj⟩
      refine ⟨?_, ?_⟩
      · have := hinv.loop e he
        unfold Joins at hj
        omega
      · obtain ⟨cn, hcn, hct, _⟩ := hinv.wit e he
        obtain ⟨p, q, hpq, _⟩ := hto u v cn hcn ((hjc hj).mp hct)
        exact ⟨p, q, hpq⟩
    · rintro ⟨hne, p, q, hpq⟩
      rcases hpq with hpq | hpq
      · obtain ⟨cn, hcn, h1, h2, _⟩ := hof _ _ p q hpq
        obtain ⟨e, he, hct⟩ := hinv.all cn hcn (by rw [h1, h2]; exact hne)
        refine ⟨e, he, ?_⟩
        unfold Contact at hct; unfold Joins; omega
      · obtain ⟨cn, hcn, h1, h2, _⟩ := hof _ _ p q hpq
        obtain ⟨e, he, hct⟩ := hinv.all cn hcn (by rw [h1, h2]; exact hne.symm)
        refine ⟨e, he, ?_⟩
        unfold Contact at hct; unfold Joins; omega
  refine ⟨hinv.rep.observed, hedge, hinv.uniq, ?_, ?_⟩
  · intro u v e he hj
    constructor
    · obtain ⟨cn, hcn, hct, hwt⟩ := hinv.wit e he
      obtain ⟨p, q, hpq, hp⟩ := hto u v cn hcn ((hjc hj).mp hct)
      exact ⟨p, q, hpq, by rw [hwt]; exact hp⟩
    · rintro w ⟨p, q, hpq, hp⟩
      rcases hpq with hpq | hpq
      · obtain ⟨cn, hcn, h1, h2, h3⟩ := hof _ _ p q hpq
        rw [hp] at h3; simp only [Option.some.injEq] at h3; rw [h3]
        exact hinv.low e he cn hcn ((hjc hj).mpr (Or.inl ⟨h1, h2⟩))
      · obtain ⟨cn, hcn, h1, h2, h3⟩ := hof _ _ p q hpq
        rw [hp] at h3; simp only [Option.some.injEq] at h3; rw [h3]
        exact hinv.low e he cn hcn ((hjc hj).mpr (Or.inr ⟨h1, h2⟩))
  · intro u
    constructor
    · intro hu
      obtain ⟨cn, hcn, hne, hor⟩ := hinv.nodes u hu
      rcases hor with h1 | h1
      · obtain ⟨p, q, hpq, _⟩ := hto u cn.2.lab cn hcn (Or.inl ⟨h1, rfl⟩)
        exact ⟨cn.2.lab, by rw [← h1]; exact hne, p, q, hpq⟩
      · obtain ⟨p, q, hpq, _⟩ := hto u cn.1.lab cn hcn (Or.inr ⟨rfl, h1⟩)
        exact ⟨cn.1.lab, by rw [← h1]; exact hne.symm, p, q, hpq⟩
    · rintro ⟨v, hne, hpq⟩
      obtain ⟨e, he, hj⟩ := (hedge u v).mpr ⟨hne, hpq⟩
      obtain ⟨i, hi⟩ := List.mem_iff_getElem?.mp he
      have := hinv.rep.ends i e (by simp [hi])
      rcases hj with ⟨h1, _⟩ | ⟨_, h1⟩
      · rw [← h1]; exact this.1
      · rw [← h1]; exact this.2

/-- A mosaic of 3 regions on 2 rows, with edge values. -/
def exMos : Img Int := ⟨⟨4, 2, 1⟩, fun i => [1, 1, 2, 2, 1, 1, 3, 3].getD i 0⟩

/-- Edge values. -/
def exEv : Img Int := ⟨⟨4, 2, 1⟩, fun i => [9, 4, 6, 5, 9, 8, 7, 3].getD i 0⟩

/-- The 4-connected cross. -/
def exCross : StrElt := ⟨false, .generic, 1, [⟨0, 0, 0⟩, ⟨1, 0, 0⟩, ⟨0, 1, 0⟩, ⟨-1, 0, 0⟩, ⟨0, -1, 0⟩]⟩

/-- The hypotheses hold and the graph is the expected one. -/
example : RowOk exMos.dims.w (execSe exCross) ∧
    (match mosaicToGraph true exMos (some exEv) none exCross with
      | some (.ok g) => some (g.nodes, g.edges)
      | _ => none) = some ({1, 2, 3}, [⟨1, 2, 4⟩, ⟨2, 3, 3⟩, ⟨1, 3, 7⟩]) := by decide

/-- Without an image of edge values there is one edge for every pair of neighbouring pixels of different
regions: parallel edges. -/
theorem C47_parallel_bug : (match mosaicToGraph true exMos none none exCross with
      | some (.ok g) => some (g.edges.map fun e => (e.src, e.tgt))
      | _ => none) = some [(1, 2), (2, 3), (2, 1), (2, 3), (1, 3), (3, 1), (3, 2), (3, 2)] := by decide

/-- A mosaic of one region gives a graph without nodes. -/
theorem C47_single_bug : (match mosaicToGraph true ⟨⟨4, 2, 1⟩, fun _ => 1⟩ (some exEv) none exCross with
      | some (.ok g) => some (g.nodes, g.edges)
      | _ => none) = some (∅, []) := by decide

end Smil
