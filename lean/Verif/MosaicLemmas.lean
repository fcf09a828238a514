import Verif.Mosaic
import Verif.PropsNeigh

/-!
# Lemmas on `mosaicToGraph`
-/

namespace Smil

/-- The visits of the neighbours: current pixel, neighbour. -/
def mosFold (hasE hasN : Bool) (L : List (MPix × MPix)) (g : Graph Int) : Graph Int :=
  L.foldl (fun g cn => mosVisit hasE hasN cn.1 g cn.2) g

/-- The pairs that `processImage` visits. -/
def mosPairs (se : StrElt) (im : Img MPix) : List (MPix × MPix) :=
  (rasterPts im.dims).flatMap fun p =>
    (nbhd se im (Img.pt p.1 p.2.1 p.2.2)).map fun n =>
      (im.buf (rasterIndex im.dims.w im.dims.h p.1 p.2.1 p.2.2), n)

theorem mem_rasterPts {D : Dims} {p : Nat × Nat × Nat} :
    p ∈ rasterPts D ↔ p.1 < D.w ∧ p.2.1 < D.h ∧ p.2.2 < D.d := by
  unfold rasterPts
  simp only [List.mem_flatMap, List.mem_map, List.mem_range]
  constructor
  · rintro ⟨z, hz, y, hy, x, hx, rfl⟩; exact ⟨hx, hy, hz⟩
  · rintro ⟨hx, hy, hz⟩; exact ⟨_, hz, _, hy, _, hx, rfl⟩

theorem mos_run {hasE hasN : Bool} {se : StrElt} {im : Img MPix} (h : RowOk im.dims.w se)
    (hw : im.dims.w < 2 ^ 31) (g : Graph Int) :
    (rasterPts im.dims).foldlM (mosPixel hasE hasN se im) g =
      some (mosFold hasE hasN (mosPairs se im) g) := by
  unfold mosPairs
  have : ∀ (l : List (Nat × Nat × Nat)), (∀ p ∈ l, p ∈ rasterPts im.dims) → ∀ g : Graph Int,
      l.foldlM (mosPixel hasE hasN se im) g = some (mosFold hasE hasN (l.flatMap fun p =>
        (nbhd se im (Img.pt p.1 p.2.1 p.2.2)).map fun n =>
          (im.buf (rasterIndex im.dims.w im.dims.h p.1 p.2.1 p.2.2), n)) g) := by
    intro l
    induction l with
    | nil => intro _ g; rfl
    | cons p l ih =>
      intro hl g
      have hp := mem_rasterPts.mp (hl p List.mem_cons_self)
      have hin := (Img.in_pt im.dims p.1 p.2.1 p.2.2).mpr ⟨hp.1, hp.2.1, hp.2.2⟩
      rw [List.foldlM_cons]
      have e : mosPixel hasE hasN se im g p = some (mosFold hasE hasN ((nbhd se im (Img.pt p.1 p.2.1 p.2.2)).map
          fun n => (im.buf (rasterIndex im.dims.w im.dims.h p.1 p.2.1 p.2.2), n)) g) := by
        unfold mosPixel
        rw [pixelVals_eq h hw hin]
        simp only [mosFold, List.foldl_map]
        rfl
      rw [e]
      simp only [List.flatMap_cons]
      unfold mosFold
      rw [List.foldl_append]
      exact ih (fun p hp => hl p (List.mem_cons_of_mem _ hp)) _
  exact this _ (fun _ h => h) g

/-- The visited pairs, geometrically. -/
theorem mem_mosPairs {se : StrElt} {im : Img MPix} {c n : MPix} :
    (c, n) ∈ mosPairs se im ↔ ∃ p q, seRel se p q ∧ im.at? p = some c ∧ im.at? q = some n := by
  unfold mosPairs
  simp only [List.mem_flatMap, List.mem_map, Prod.mk.injEq]
  constructor
  · rintro ⟨p, hp, m, hm, hc, rfl⟩
    obtain ⟨q, hq, hq'⟩ := mem_nbhd.mp hm
    have hp := mem_rasterPts.mp hp
    have hin := (Img.in_pt im.dims p.1 p.2.1 p.2.2).mpr ⟨hp.1, hp.2.1, hp.2.2⟩
    refine ⟨_, q, hq, ?_, hq'⟩
    rw [Img.at?_some im _ hin]
    simp only [Img.pt, Int.toNat_natCast]
    rw [← hc]; rfl
  · rintro ⟨p, q, hpq, hp, hq⟩
    have hin := Img.at?_eq_some_in _ _ _ hp
    rw [Img.at?_some im _ hin] at hp
    simp only [Option.some.injEq] at hp
    refine ⟨(p.x.toNat, p.y.toNat, p.z.toNat), mem_rasterPts.mpr ?_, n, ?_, hp, rfl⟩
    · unfold Img.In at hin; simp only; omega
    · have e : Img.pt p.x.toNat p.y.toNat p.z.toNat = p := by
        unfold Img.In at hin
        obtain ⟨x, y, z⟩ := p
        simp only [Img.pt, IntPoint.mk.injEq]
        simp only at hin
        omega
      rw [e]
      exact mem_nbhd.mpr ⟨q, hpq, hq⟩

/-- The pair is a contact between the regions `u` and `v`. -/
def Contact (u v : Int) (cn : MPix × MPix) : Prop :=
  (cn.1.lab = u ∧ cn.2.lab = v) ∨ (cn.1.lab = v ∧ cn.2.lab = u)

/-- What the graph is after the visits `L`. -/
structure MosInv (hasN : Bool) (L : List (MPix × MPix)) (g : Graph Int) : Prop where
  rep : Rep g ⟨g.nodes, g.edges.map some⟩
  uniq : g.edges.Pairwise fun e f => ¬ SameEnds e f
  loop : ∀ e ∈ g.edges, e.src ≠ e.tgt
  wit : ∀ e ∈ g.edges, ∃ cn ∈ L, Contact e.src e.tgt cn ∧ e.weight = cn.1.ev
  low : ∀ e ∈ g.edges, ∀ cn ∈ L, Contact e.src e.tgt cn → e.weight ≤ cn.1.ev
  all : ∀ cn ∈ L, cn.1.lab ≠ cn.2.lab → ∃ e ∈ g.edges, Contact e.src e.tgt cn
  nodes : ∀ v ∈ g.nodes, ∃ cn ∈ L, cn.1.lab ≠ cn.2.lab ∧ (cn.1.lab = v ∨ cn.2.lab = v)
  keys : g.keys = g.nodes
  vals : if hasN then ∀ v ∈ g.nodes, ∃ cn ∈ L, ∃ m, (m = cn.1 ∨ m = cn.2) ∧ m.lab = v ∧ g.vals v = some m.nv
    else ∀ v, g.vals v = none

theorem findEdge_some {g : Graph Int} {e : E} {i : Nat} (h : g.findEdge e = some i) :
    ∃ f, g.edges[i]? = some f ∧ SameEnds f e := by
  unfold Graph.findEdge at h
  rw [List.findIdx?_eq_some_iff_getElem] at h
  obtain ⟨hi, h1, _⟩ := h
  exact ⟨_, List.getElem?_eq_getElem hi, (same_iff _ _).mp h1⟩

theorem findEdge_none {g : Graph Int} {e : E} (h : g.findEdge e = none) :
    ∀ f ∈ g.edges, ¬ SameEnds f e := by
  unfold Graph.findEdge at h
  rw [List.findIdx?_eq_none_iff] at h
  intro f hf hs
  have := h f hf
  rw [(same_iff _ _).mpr hs] at this
  simp at this

theorem MosInv.mono {hasN : Bool} {L : List (MPix × MPix)} {g : Graph Int} (h : MosInv hasN L g)
    {cn : MPix × MPix} (hc : cn.2.lab = cn.1.lab) : MosInv hasN (L ++ [cn]) g := by
  refine ⟨h.rep, h.uniq, h.loop, ?_, ?_, ?_, ?_, h.keys, ?_⟩
  · intro e he
    obtain ⟨c, hc, h1⟩ := h.wit e he
    exact ⟨c, List.mem_append_left _ hc, h1⟩
  · intro e he c hcl hcon
    rcases List.mem_append.mp hcl with h1 | h1
    · exact h.low e he c h1 hcon
    · rw [List.mem_singleton] at h1; subst h1
      exfalso
      apply h.loop e he
      rcases hcon with ⟨h1, h2⟩ | ⟨h1, h2⟩
      · rw [← h1, ← h2, hc]
      · rw [← h1, ← h2, hc]
  · intro c hcl hne
    rcases List.mem_append.mp hcl with h1 | h1
    · exact h.all c h1 hne
    · rw [List.mem_singleton] at h1; subst h1; exact absurd hc.symm hne
  · intro v hv
    obtain ⟨c, hc, h1⟩ := h.nodes v hv
    exact ⟨c, List.mem_append_left _ hc, h1⟩
  · have := h.vals
    cases hasN
    · exact this
    · simp only [if_true] at this ⊢
      intro v hv
      obtain ⟨c, hc, h1⟩ := this v hv
      exact ⟨c, List.mem_append_left _ hc, h1⟩

theorem contact_same {e : E} {cn : MPix × MPix} {w : Int} :
    Contact e.src e.tgt cn ↔ SameEnds e ⟨cn.1.lab, cn.2.lab, w⟩ := by
  unfold Contact SameEnds
  rfl

theorem MosInv.add {hasN : Bool} {L : List (MPix × MPix)} {g : Graph Int} (h : MosInv hasN L g)
    {cn : MPix × MPix} (hc : cn.2.lab ≠ cn.1.lab)
    (hf : ∀ f ∈ g.edges, ¬ SameEnds f ⟨cn.1.lab, cn.2.lab, 1⟩) :
    MosInv hasN (L ++ [cn]) (mosAdd true hasN cn.1 g cn.2) := by
  obtain ⟨e, he⟩ : ∃ e : E, e = ⟨cn.1.lab, cn.2.lab, cn.1.ev⟩ := ⟨_, rfl⟩
  have hE : (mosAdd true hasN cn.1 g cn.2).edges = g.edges ++ [e] := by
    cases hasN <;> simp [mosAdd, Graph.addEdge, Graph.pushEdge, Graph.pushAdj, Graph.addNodeVal, he]
  have hN : (mosAdd true hasN cn.1 g cn.2).nodes = insert cn.2.lab (insert cn.1.lab g.nodes) := by
    cases hasN <;> simp [mosAdd, Graph.addEdge, Graph.pushEdge, Graph.pushAdj, Graph.addNodeVal]
  have hK : (mosAdd true hasN cn.1 g cn.2).keys = insert cn.2.lab (insert cn.1.lab g.keys) := by
    cases hasN <;> simp [mosAdd, Graph.addEdge, Graph.pushEdge, Graph.pushAdj, Graph.addNodeVal]
  have hR : Rep (mosAdd true hasN cn.1 g cn.2)
      ⟨insert cn.2.lab (insert cn.1.lab g.nodes), g.edges.map some ++ [some e]⟩ := by
    have hpos : ¬ (e.src = 0 ∧ e.tgt = 0) := by
      rw [he]; simp only
      rintro ⟨h1, h2⟩; exact hc (by rw [h1, h2])
    cases hasN
    · have := h.rep.pushEdge e hpos
      simpa [mosAdd, Graph.addEdge, he] using this
    · have := ((h.rep.addNodeVal cn.1.lab cn.1.nv).addNodeVal cn.2.lab cn.2.nv).pushEdge e hpos
      have e2 : insert e.tgt (insert e.src (insert cn.2.lab (insert cn.1.lab g.nodes))) =
          insert cn.2.lab (insert cn.1.lab g.nodes) := by
        rw [he]; ext x; simp only [Finset.mem_insert]; tauto
      simp only [e2] at this
      simpa [mosAdd, Graph.addEdge, he] using this
  have hf' : ∀ f ∈ g.edges, ¬ Contact f.src f.tgt cn := fun f h1 h2 => hf f h1 (contact_same.mp h2)
  refine ⟨?_, ?_, ?_, ?_, ?_, ?_, ?_, ?_, ?_⟩
  · rw [hN, hE, List.map_append]; exact hR
  · rw [hE, List.pairwise_append]
    refine ⟨h.uniq, by simp, ?_⟩
    intro f hf1 f' hf2 hs
    rw [List.mem_singleton] at hf2; subst hf2
    apply hf f hf1
    rw [he] at hs
    exact hs
  · intro f hfm
    rw [hE] at hfm
    rcases List.mem_append.mp hfm with h1 | h1
    · exact h.loop f h1
    · rw [List.mem_singleton] at h1; subst h1; rw [he]; exact hc.symm
  · intro f hfm
    rw [hE] at hfm
    rcases List.mem_append.mp hfm with h1 | h1
    · obtain ⟨c, hc1, h2⟩ := h.wit f h1
      exact ⟨c, List.mem_append_left _ hc1, h2⟩
    · rw [List.mem_singleton] at h1; subst h1
      exact ⟨cn, by simp, by rw [he]; exact Or.inl ⟨rfl, rfl⟩, by rw [he]⟩
  · intro f hfm c hcl hcon
    rw [hE] at hfm
    rcases List.mem_append.mp hfm with h1 | h1
    · rcases List.mem_append.mp hcl with h2 | h2
      · exact h.low f h1 c h2 hcon
      · rw [List.mem_singleton] at h2; subst h2
        exact absurd hcon (hf' f h1)
    · rw [List.mem_singleton] at h1; subst h1
      rcases List.mem_append.mp hcl with h2 | h2
      · exfalso
        have hne : c.1.lab ≠ c.2.lab := by
          rw [he] at hcon
          rcases hcon with ⟨a1, a2⟩ | ⟨a1, a2⟩
          · rw [a1, a2]; exact hc.symm
          · rw [a1, a2]; exact hc
        obtain ⟨f', hf1, hf2⟩ := h.all c h2 hne
        apply hf' f' hf1
        rw [he] at hcon
        unfold Contact at hcon hf2 ⊢
        simp only at hcon
        rcases hcon with ⟨a1, a2⟩ | ⟨a1, a2⟩ <;> rcases hf2 with ⟨b1, b2⟩ | ⟨b1, b2⟩
        · exact Or.inl ⟨a1.symm.trans b1, a2.symm.trans b2⟩
        · exact Or.inr ⟨a1.symm.trans b1, a2.symm.trans b2⟩
        · exact Or.inr ⟨a2.symm.trans b2, a1.symm.trans b1⟩
        · exact Or.inl ⟨a2.symm.trans b2, a1.symm.trans b1⟩
      · rw [List.mem_singleton] at h2; subst h2; rw [he]
  · intro c hcl hne
    rw [hE]
    rcases List.mem_append.mp hcl with h1 | h1
    · obtain ⟨f, hf1, hf2⟩ := h.all c h1 hne
      exact ⟨f, List.mem_append_left _ hf1, hf2⟩
    · rw [List.mem_singleton] at h1; subst h1
      exact ⟨e, by simp, by rw [he]; exact Or.inl ⟨rfl, rfl⟩⟩
  · intro v hv
    rw [hN] at hv
    simp only [Finset.mem_insert] at hv
    rcases hv with rfl | rfl | hv
    · exact ⟨cn, by simp, hc.symm, Or.inr rfl⟩
    · exact ⟨cn, by simp, hc.symm, Or.inl rfl⟩
    · obtain ⟨c, hc1, h2⟩ := h.nodes v hv
      exact ⟨c, List.mem_append_left _ hc1, h2⟩
  · rw [hK, hN, h.keys]
  · have hv := h.vals
    cases hasN
    · simp only [Bool.false_eq_true, if_false] at hv ⊢
      intro v
      simpa [mosAdd, Graph.addEdge, Graph.pushEdge, Graph.pushAdj] using hv v
    · simp only [if_true] at hv ⊢
      have hV : (mosAdd true true cn.1 g cn.2).vals =
          Function.update (Function.update g.vals cn.1.lab (some cn.1.nv)) cn.2.lab (some cn.2.nv) := by
        simp [mosAdd, Graph.addEdge, Graph.pushEdge, Graph.pushAdj, Graph.addNodeVal]
      intro v hvn
      rw [hV]
      by_cases h2 : v = cn.2.lab
      · subst h2
        exact ⟨cn, by simp, cn.2, Or.inr rfl, rfl, by simp⟩
      · rw [Function.update_of_ne h2]
        by_cases h1 : v = cn.1.lab
        · subst h1
          exact ⟨cn, by simp, cn.1, Or.inl rfl, rfl, by simp⟩
        · rw [Function.update_of_ne h1]
          rw [hN] at hvn
          simp only [Finset.mem_insert, h1, h2, false_or] at hvn
          obtain ⟨c, hc1, h3⟩ := hv v hvn
          exact ⟨c, List.mem_append_left _ hc1, h3⟩

theorem modify_mem {l : List E} {i : Nat} {w : Int} {f : E} (hi : l[i]? = some f) (x : E) :
    x ∈ l.modify i (fun e => { e with weight := min e.weight w }) ↔
      x = { f with weight := min f.weight w } ∨ ∃ j, j ≠ i ∧ l[j]? = some x := by
  rw [List.mem_iff_getElem?]
  constructor
  · rintro ⟨j, hj⟩
    rw [List.getElem?_modify] at hj
    by_cases h1 : i = j
    · subst h1
      rw [hi] at hj
      simp at hj
      exact Or.inl hj.symm
    · simp [h1] at hj
      exact Or.inr ⟨j, fun h => h1 h.symm, by simpa using hj⟩
  · rintro (rfl | ⟨j, hj, hx⟩)
    · exact ⟨i, by rw [List.getElem?_modify, hi]; simp⟩
    · exact ⟨j, by rw [List.getElem?_modify, hx]; simp [Ne.symm hj]⟩

theorem Rep.reweigh {g : Graph Int} (h : Rep g ⟨g.nodes, g.edges.map some⟩) (i : Nat) (w : Int) :
    Rep { g with edges := g.edges.modify i fun e => { e with weight := min e.weight w } }
      ⟨g.nodes, (g.edges.modify i fun e => { e with weight := min e.weight w }).map some⟩ := by
  have hget : ∀ j, (g.edges.modify i fun e : E => { e with weight := min e.weight w })[j]? =
      (g.edges[j]?).map fun e => if i = j then { e with weight := min e.weight w } else e := by
    intro j
    rw [List.getElem?_modify]
    by_cases h1 : i = j <;> simp [h1]
  have hlive : ∀ (j : Nat) e, (g.edges.map some)[j]? = some (some e) ↔ g.edges[j]? = some e := by
    intro j e; simp
  refine ⟨by simp, by simpa using h.nbr, rfl, ?_, ?_, ?_, h.keys, ?_, ?_⟩
  · intro j e hj
    simpa using hj
  · intro j hj
    simp at hj
  · intro n j
    refine (h.adj n j).trans ?_
    simp only [List.getElem?_map]
    rw [hget]
    cases g.edges[j]? with
    | none => rfl
    | some e =>
      by_cases h1 : i = j <;> simp [h1, endCount]
  · intro j e hj
    simp only [List.getElem?_map, hget, Option.map_map, Option.map_eq_some_iff, Function.comp] at hj
    obtain ⟨f, hf, he⟩ := hj
    have := h.ends j f ((hlive j f).mpr hf)
    simp only [Option.some.injEq] at he
    rw [← he]
    split_ifs <;> exact this
  · intro j e hj
    simp only [List.getElem?_map, hget, Option.map_map, Option.map_eq_some_iff, Function.comp] at hj
    obtain ⟨f, hf, he⟩ := hj
    have := h.pos j f ((hlive j f).mpr hf)
    simp only [Option.some.injEq] at he
    rw [← he]
    split_ifs <;> exact this

theorem MosInv.lower {hasN : Bool} {L : List (MPix × MPix)} {g : Graph Int} (h : MosInv hasN L g)
    {cn : MPix × MPix} (hc : cn.2.lab ≠ cn.1.lab) {i : Nat} {f : E} (hi : g.edges[i]? = some f)
    (hf : Contact f.src f.tgt cn) :
    MosInv hasN (L ++ [cn])
      { g with edges := g.edges.modify i fun e => { e with weight := min e.weight cn.1.ev } } := by
  have hfm : f ∈ g.edges := List.mem_of_getElem? hi
  have hpw := h.uniq
  rw [List.pairwise_iff_getElem] at hpw
  have hother : ∀ j x, j ≠ i → g.edges[j]? = some x → ¬ Contact x.src x.tgt cn := by
    intro j x hji hx hcon
    have hss : SameEnds f x ∧ SameEnds x f := by
      unfold Contact at hf hcon
      unfold SameEnds
      constructor
      · rcases hf with ⟨a1, a2⟩ | ⟨a1, a2⟩ <;> rcases hcon with ⟨b1, b2⟩ | ⟨b1, b2⟩
        · exact Or.inl ⟨b1.symm.trans a1, b2.symm.trans a2⟩
        · exact Or.inr ⟨b2.symm.trans a2, b1.symm.trans a1⟩
        · exact Or.inr ⟨b1.symm.trans a1, b2.symm.trans a2⟩
        · exact Or.inl ⟨b2.symm.trans a2, b1.symm.trans a1⟩
      · rcases hf with ⟨a1, a2⟩ | ⟨a1, a2⟩ <;> rcases hcon with ⟨b1, b2⟩ | ⟨b1, b2⟩
        · exact Or.inl ⟨a1.symm.trans b1, a2.symm.trans b2⟩
        · exact Or.inr ⟨a1.symm.trans b1, a2.symm.trans b2⟩
        · exact Or.inr ⟨a2.symm.trans b2, a1.symm.trans b1⟩
        · exact Or.inl ⟨a2.symm.trans b2, a1.symm.trans b1⟩
    obtain ⟨hjl, hjx⟩ := List.getElem?_eq_some_iff.mp hx
    obtain ⟨hil, hif⟩ := List.getElem?_eq_some_iff.mp hi
    rcases Nat.lt_or_gt_of_ne hji with h1 | h1
    · exact hpw j i hjl hil h1 (by rw [hjx, hif]; exact hss.2)
    · exact hpw i j hil hjl h1 (by rw [hjx, hif]; exact hss.1)
  refine ⟨h.rep.reweigh i _, ?_, ?_, ?_, ?_, ?_, ?_, h.keys, ?_⟩
  · rw [List.pairwise_iff_getElem]
    intro j k hj hk hjk hs
    simp only [List.length_modify] at hj hk
    refine hpw j k hj hk hjk ?_
    simp only [List.getElem_modify] at hs
    unfold SameEnds at hs ⊢
    split_ifs at hs <;> exact hs
  · intro x hx
    rcases (modify_mem hi x).mp hx with rfl | ⟨j, _, hj⟩
    · exact h.loop f hfm
    · exact h.loop x (List.mem_of_getElem? hj)
  · intro x hx
    rcases (modify_mem hi x).mp hx with rfl | ⟨j, _, hj⟩
    · rcases le_total f.weight cn.1.ev with h1 | h1
      · obtain ⟨c, hc1, h2, h3⟩ := h.wit f hfm
        exact ⟨c, List.mem_append_left _ hc1, h2, by simp only; rw [min_eq_left h1, h3]⟩
      · exact ⟨cn, by simp, hf, by simp only; rw [min_eq_right h1]⟩
    · obtain ⟨c, hc1, h2⟩ := h.wit x (List.mem_of_getElem? hj)
      exact ⟨c, List.mem_append_left _ hc1, h2⟩
  · intro x hx c hcl hcon
    rcases (modify_mem hi x).mp hx with rfl | ⟨j, hji, hj⟩
    · rcases List.mem_append.mp hcl with h1 | h1
      · exact le_trans (min_le_left _ _) (h.low f hfm c h1 hcon)
      · rw [List.mem_singleton] at h1; subst h1; exact min_le_right _ _
    · rcases List.mem_append.mp hcl with h1 | h1
      · exact h.low x (List.mem_of_getElem? hj) c h1 hcon
      · rw [List.mem_singleton] at h1; subst h1
        exact absurd hcon (hother j x hji hj)
  · intro c hcl hne
    have hex : ∃ e ∈ g.edges, Contact e.src e.tgt c := by
      rcases List.mem_append.mp hcl with h1 | h1
      · exact h.all c h1 hne
      · rw [List.mem_singleton] at h1; subst h1
        exact ⟨f, hfm, hf⟩
    obtain ⟨e, he, h2⟩ := hex
    obtain ⟨j, hj⟩ := List.mem_iff_getElem?.mp he
    by_cases hji : j = i
    · subst hji
      rw [hi] at hj; simp only [Option.some.injEq] at hj; subst hj
      exact ⟨_, (modify_mem hi _).mpr (Or.inl rfl), h2⟩
    · exact ⟨e, (modify_mem hi _).mpr (Or.inr ⟨j, hji, hj⟩), h2⟩
  · intro v hv
    obtain ⟨c, hc1, h2⟩ := h.nodes v hv
    exact ⟨c, List.mem_append_left _ hc1, h2⟩
  · have := h.vals
    cases hasN
    · exact this
    · simp only [if_true] at this ⊢
      intro v hv
      obtain ⟨c, hc, h1⟩ := this v hv
      exact ⟨c, List.mem_append_left _ hc, h1⟩

theorem mosFold_spec (hasN : Bool) (L : List (MPix × MPix)) :
    MosInv hasN L (mosFold true hasN L Graph.empty) := by
  induction L using List.reverseRecOn with
  | nil =>
    refine ⟨Rep.empty, by simp [mosFold, Graph.empty], ?_, ?_, ?_, ?_, ?_, rfl, ?_⟩ <;>
      first
      | (intro e he; simp [mosFold, Graph.empty] at he)
      | (cases hasN <;> simp [mosFold, Graph.empty])
  | append_singleton L cn ih =>
    unfold mosFold at ih ⊢
    rw [List.foldl_append]
    simp only [List.foldl_cons, List.foldl_nil]
    generalize List.foldl (fun g cn => mosVisit true hasN cn.1 g cn.2) Graph.empty L = g at ih ⊢
    unfold mosVisit
    by_cases hc : cn.2.lab ≠ cn.1.lab
    · rw [if_pos hc]
      cases hfe : g.findEdge ⟨cn.1.lab, cn.2.lab, 1⟩ with
      | none => exact ih.add hc (findEdge_none hfe)
      | some i =>
        obtain ⟨f, hf, hs⟩ := findEdge_some hfe
        exact ih.lower hc hf (contact_same.mpr hs)
    · rw [if_neg hc]
      exact ih.mono (not_not.mp hc)

/-- Without edge values every contact adds an edge. -/
theorem mosFold_noval (L : List (MPix × MPix)) :
    (mosFold false false L Graph.empty).edges =
      (L.filter fun cn => cn.2.lab ≠ cn.1.lab).map fun cn => ⟨cn.1.lab, cn.2.lab, 0⟩ := by
  induction L using List.reverseRecOn with
  | nil => rfl
  | append_singleton L cn ih =>
    unfold mosFold at ih ⊢
    rw [List.foldl_append, List.filter_append, List.map_append, ← ih]
    simp only [List.foldl_cons, List.foldl_nil]
    generalize List.foldl (fun g cn => mosVisit false false cn.1 g cn.2) Graph.empty L = g
    unfold mosVisit
    by_cases hc : cn.2.lab ≠ cn.1.lab
    · rw [if_pos hc]
      cases g.findEdge ⟨cn.1.lab, cn.2.lab, 1⟩ <;>
        simp [mosAdd, Graph.addEdge, Graph.pushEdge, Graph.pushAdj, hc]
    · rw [if_neg hc]
      simp [not_not.mp hc]

end Smil
