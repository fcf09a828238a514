import Verif.GraphMosaic
import Verif.PropsGraph
import Verif.PropsMosaic
import Verif.PropsLookup

/-! # C102: from a graph back to a mosaic -/

namespace Smil

variable {W : Type} {t : PT}

theorem keepFirst_ok : ∀ l : LutMap t t, ((keepFirst l).map Prod.fst).Nodup ∧ ∀ e ∈ keepFirst l, e ∈ l := by
  intro l
  induction l with
  | nil => simp [keepFirst]
  | cons e l ih =>
    unfold keepFirst
    constructor
    · rw [List.map_cons, List.nodup_cons]
      constructor
      · intro h
        obtain ⟨x, hx, he⟩ := List.mem_map.1 h
        have := (List.mem_filter.1 hx).2
        simp [he] at this
      · exact ih.1.sublist (List.Sublist.map _ List.filter_sublist)
    · intro x hx
      rcases List.mem_cons.1 hx with rfl | hx
      · simp
      · exact List.mem_cons_of_mem _ (ih.2 x (List.mem_filter.1 hx).1)

theorem keepFirst_mem : ∀ l : LutMap t t, (l.map Prod.fst).Nodup → ∀ e ∈ l, e ∈ keepFirst l := by
  intro l
  induction l with
  | nil => simp
  | cons e l ih =>
    intro hn x hx
    rw [List.map_cons, List.nodup_cons] at hn
    unfold keepFirst
    rcases List.mem_cons.1 hx with rfl | hx
    · simp
    · refine List.mem_cons_of_mem _ (List.mem_filter.2 ⟨ih hn.2 x hx, ?_⟩)
      simp only [ne_eq, decide_not, Bool.not_eq_true', decide_eq_false_iff_not]
      intro h
      exact hn.1 (List.mem_map.2 ⟨x, hx, h⟩)

theorem wrap_inj_mem {u v : Int} (hu : t.lo ≤ u ∧ u ≤ t.hi) (hv : t.lo ≤ v ∧ v ≤ t.hi) (h : t.wrap u = t.wrap v) :
    u = v := by
  have := congrArg Px.val h
  rwa [t.wrap_of_mem hu.1 hu.2, t.wrap_of_mem hv.1 hv.2] at this

theorem sortedNodes_eq (nodes : Finset Int) : sortedNodes nodes = nodes.sort (· ≤ ·) := by
  obtain ⟨m, hm⟩ := nodes
  induction m using Quot.inductionOn with
  | h l => exact (List.mergeSort_eq_insertionSort (r := (· ≤ ·)) l).symm

theorem graphLut_mem (nodes : Finset Int) (lk : Int → Option Int) (hr : ∀ n ∈ nodes, t.lo ≤ n ∧ n ≤ t.hi) (e : Px t × Px t) :
    e ∈ (graphLut nodes lk : LutMap t t) ↔ ∃ n ∈ nodes, ∃ l, lk n = some l ∧ e = (t.wrap n, t.wrap l) := by
  have hmem : ∀ e : Px t × Px t, e ∈ (nodes.sort (· ≤ ·)).filterMap (fun n => (lk n).map fun l => (t.wrap n, t.wrap l)) ↔
      ∃ n ∈ nodes, ∃ l, lk n = some l ∧ e = (t.wrap n, t.wrap l) := by
    intro e
    simp only [List.mem_filterMap, Finset.mem_sort, Option.map_eq_some_iff]
    constructor
    · rintro ⟨n, hn, l, hl, rfl⟩; exact ⟨n, hn, l, hl, rfl⟩
    · rintro ⟨n, hn, l, hl, rfl⟩; exact ⟨n, hn, l, hl, rfl⟩
  have hnd : (((nodes.sort (· ≤ ·)).filterMap fun n => (lk n).map fun l => (t.wrap n, t.wrap l)).map Prod.fst).Nodup := by
    have h1 : (nodes.sort (· ≤ ·)).Nodup := Finset.sort_nodup _ _
    have h2 : ∀ n ∈ nodes.sort (· ≤ ·), t.lo ≤ n ∧ n ≤ t.hi := fun n hn => hr n ((Finset.mem_sort _).1 hn)
    generalize nodes.sort (· ≤ ·) = L at h1 h2
    induction L with
    | nil => simp
    | cons n L ih =>
      rw [List.nodup_cons] at h1
      have ih' := ih h1.2 fun m hm => h2 m (by simp [hm])
      cases hl : lk n with
      | none => simpa [List.filterMap_cons, hl] using ih'
      | some l =>
        rw [List.filterMap_cons, hl]
        simp only [Option.map_some, List.map_cons, List.nodup_cons]
        refine ⟨?_, ih'⟩
        intro h
        obtain ⟨x, hx, he⟩ := List.mem_map.1 h
        obtain ⟨m, hm, hx⟩ := List.mem_filterMap.1 hx
        cases hlm : lk m with
        | none => rw [hlm] at hx; cases hx
        | some l' =>
          rw [hlm] at hx
          cases hx
          have := wrap_inj_mem (h2 m (by simp [hm])) (h2 n (by simp)) he
          exact h1.1 (this ▸ hm)
  unfold graphLut
  rw [sortedNodes_eq, ← hmem]
  exact ⟨fun h => (keepFirst_ok _).2 e h, fun h => keepFirst_mem _ hnd e h⟩

/-- The statement for a graph whose representation is right. -/
theorem graphToMosaic_rep {g : Graph W} {a : AGraph W} (hrep : Rep g a) (hk : ∀ v ∈ a.nodes, v ∈ g.keys)
    (auto : Bool) (raw : Nat → Px t) (im : Img (Px t)) (dout : Dims) (ha : AcceptsD auto im.dims dout)
    (hne : a.nodes.Nonempty) (hr : ∀ n ∈ a.nodes, t.lo ≤ n ∧ n ≤ t.hi)
    (htop : t = UINT8 ∨ t = UINT16 → t.hi ∈ a.nodes ∨ ∀ p v, im.at? p = some v → v.val ≠ t.hi) :
    ∃ out, graphToMosaic auto raw im g dout = .ok (.ok out) ∧
      out.dims = im.dims ∧ ∀ p v, im.at? p = some v → ∃ b, out.at? p = some b ∧
        (v.val ∈ a.nodes → IsLeast {u | a.Linked v.val u} b.val) ∧ (v.val ∉ a.nodes → b = Px.zero) := by
  have hnodes : g.nodes = a.nodes := hrep.nodes
  rcases labelize_spec hrep with ⟨_, lk, h1, h4, _⟩ | ⟨⟨v, hv, hv'⟩, _⟩
  swap
  · exact absurd (hk v hv) hv'
  have hmem := graphLut_mem (t := t) a.nodes lk hr
  have hok : (graphLut a.nodes lk : LutMap t t).Ok := (keepFirst_ok _).1
  have hin : ∀ u v, u ∈ a.nodes → a.Linked u v → v ∈ a.nodes := by
    intro u v hu huv
    induction huv with
    | refl => exact hu
    | tail _ hs _ =>
      obtain ⟨e, he, hj⟩ := hs
      obtain ⟨i, hi⟩ := List.mem_iff_getElem?.mp he
      have := hrep.ends i e hi
      rcases hj with hj | hj
      · rw [← hj.2]; exact this.2
      · rw [← hj.1]; exact this.1
  obtain ⟨n0, hn0⟩ := hne
  obtain ⟨l0, hl0, _⟩ := h4 n0 hn0
  have hnil : (graphLut a.nodes lk : LutMap t t) ≠ [] := List.ne_nil_of_mem ((hmem _).2 ⟨n0, hn0, l0, hl0, rfl⟩)
  have hlook : ∃ out, applyLookupMap auto raw (graphLut a.nodes lk) Px.zero im dout = .ok out ∧
      IsLookup (graphLut a.nodes lk : LutMap t t) Px.zero im out := by
    by_cases hs : t = UINT8 ∨ t = UINT16
    · refine C12_table_partial auto raw _ hnil hok Px.zero im dout ha hs ?_
      rcases htop hs with hT | hT
      · left
        obtain ⟨l, hl, _⟩ := h4 _ hT
        exact ⟨_, (hmem _).2 ⟨_, hT, l, hl, rfl⟩, t.wrap_of_mem t.lo_le_hi (le_refl _)⟩
      · exact Or.inr hT
    · rw [not_or] at hs
      exact C12_map auto raw _ hnil hok Px.zero im dout ha hs.1 hs.2
  obtain ⟨out, ho, hd, hpx⟩ := hlook
  refine ⟨out, ?_, hd, fun p v hv => ?_⟩
  · unfold graphToMosaic
    rw [if_neg ha.2.1, h1, hnodes]
    simp only [ho]
  · obtain ⟨b, hb, hb1, hb2⟩ := hpx p v hv
    refine ⟨b, hb, fun hvn => ?_, fun hvn => hb2 ?_⟩
    · obtain ⟨l, hl, hlk, hmin⟩ := h4 _ hvn
      have hln := hin _ _ hvn hlk
      have := hb1 _ ((hmem _).2 ⟨_, hvn, l, hl, rfl⟩) (t.wrap_of_mem v.lo_le v.le_hi)
      simp only at this
      rw [this, t.wrap_of_mem (hr l hln).1 (hr l hln).2]
      exact ⟨hlk, fun u hu => hmin u hu⟩
    · intro e he
      obtain ⟨n, hn, l, hl, rfl⟩ := (hmem e).1 he
      simp only
      rw [t.wrap_of_mem (hr n hn).1 (hr n hn).2]
      exact fun hc => hvn (hc ▸ hn)

theorem isLeast_class {R : Int → Int → Prop} (hs : ∀ u v, R u v → R v u) {u v b c : Int}
    (hb : IsLeast {w | Relation.ReflTransGen R u w} b) (hc : IsLeast {w | Relation.ReflTransGen R v w} c) :
    b = c ↔ Relation.ReflTransGen R u v := by
  have hsym : ∀ x y, Relation.ReflTransGen R x y → Relation.ReflTransGen R y x := by
    intro x y h
    induction h with
    | refl => exact .refl
    | tail _ h ih => exact .head (hs _ _ h) ih
  constructor
  · rintro rfl
    have x1 : Relation.ReflTransGen R u b := hb.1
    have x2 : Relation.ReflTransGen R v b := hc.1
    exact x1.trans (hsym _ _ x2)
  · intro hl
    have : {w | Relation.ReflTransGen R u w} = {w | Relation.ReflTransGen R v w} := by
      ext w
      exact ⟨fun hw => (hsym _ _ hl).trans hw, fun hw => hl.trans hw⟩
    rw [this] at hb
    exact hb.unique hc

/-- **C102** (partial: every node has or had an edge, C46; the nodes are values of the pixel type; for `UINT8` and
`UINT16`, the maximum is a node or is absent from the image, C12). After any sequence of edits of the graph,
`graphToMosaic` replaces each pixel which is a node by the least node of its component and the other pixels by
zero. -/
theorem C102_mosaic_partial (ops : List (GOp W)) (a : AGraph W) (h : History ops a) (auto : Bool) (raw : Nat → Px t)
    (im : Img (Px t)) (dout : Dims) (ha : AcceptsD auto im.dims dout) (hne : a.nodes.Nonempty)
    (hr : ∀ n ∈ a.nodes, t.lo ≤ n ∧ n ≤ t.hi)
    (htop : t = UINT8 ∨ t = UINT16 → t.hi ∈ a.nodes ∨ ∀ p v, im.at? p = some v → v.val ≠ t.hi) :
    ∃ g, runOps ops = some g ∧ ((∀ v ∈ a.nodes, v ∈ g.keys) → ∃ out, graphToMosaic auto raw im g dout = .ok (.ok out) ∧
      out.dims = im.dims ∧ ∀ p v, im.at? p = some v → ∃ b, out.at? p = some b ∧
        (v.val ∈ a.nodes → IsLeast {u | a.Linked v.val u} b.val) ∧ (v.val ∉ a.nodes → b = Px.zero)) := by
  obtain ⟨g, hg, hrep⟩ := history_rep h
  exact ⟨g, hg, fun hk => graphToMosaic_rep hrep hk auto raw im dout ha hne hr htop⟩

/-- **C102**: under the same conditions, two pixels which are nodes get the same value exactly when a path of
active edges joins them. -/
theorem C102_merge_partial (ops : List (GOp W)) (a : AGraph W) (h : History ops a) (auto : Bool) (raw : Nat → Px t)
    (im : Img (Px t)) (dout : Dims) (ha : AcceptsD auto im.dims dout) (hne : a.nodes.Nonempty)
    (hr : ∀ n ∈ a.nodes, t.lo ≤ n ∧ n ≤ t.hi)
    (htop : t = UINT8 ∨ t = UINT16 → t.hi ∈ a.nodes ∨ ∀ p v, im.at? p = some v → v.val ≠ t.hi) :
    ∃ g, runOps ops = some g ∧ ((∀ v ∈ a.nodes, v ∈ g.keys) → ∃ out, graphToMosaic auto raw im g dout = .ok (.ok out) ∧
      ∀ p q u v, im.at? p = some u → im.at? q = some v → u.val ∈ a.nodes → v.val ∈ a.nodes →
        (out.at? p = out.at? q ↔ a.Linked u.val v.val)) := by
  obtain ⟨g, hg, hC⟩ := C102_mosaic_partial ops a h auto raw im dout ha hne hr htop
  refine ⟨g, hg, fun hk => ?_⟩
  obtain ⟨out, h1, _, h2⟩ := hC hk
  refine ⟨out, h1, fun p q u v hu hv hun hvn => ?_⟩
  obtain ⟨b, hb, hb1, _⟩ := h2 p u hu
  obtain ⟨c, hc, hc1, _⟩ := h2 q v hv
  rw [hb, hc, Option.some.injEq]
  refine Iff.trans ⟨fun e => congrArg Px.val e, Px.ext⟩ (isLeast_class (fun u v h => h.symm) (hb1 hun) (hc1 hvn))

/-! ## Cutting the graph of a mosaic -/

theorem removeEdge_keys (g : Graph W) (i : Nat) : (g.removeEdge i).keys = g.keys := by
  unfold Graph.removeEdge Graph.removeNodeEdge
  split
  · rfl
  · simp only
    split <;> split <;> rfl

theorem removeWhere_keys (g : Graph W) (p : W → Bool) : (g.removeWhere p).keys = g.keys := by
  unfold Graph.removeWhere
  generalize List.range g.edges.length = l
  induction l generalizing g with
  | nil => rfl
  | cons i l ih =>
    rw [List.foldl_cons, ih]
    unfold Graph.removeIf
    split
    · rfl
    · split
      · exact removeEdge_keys g i
      · rfl

/-- The labels of a mosaic as integers. -/
def labelsOf (im : Img (Px t)) : Img Int := ⟨im.dims, fun i => (im.buf i).val⟩

theorem labelsOf_at (im : Img (Px t)) (p : IntPoint) (u : Int) :
    (labelsOf im).at? p = some u ↔ ∃ v, im.at? p = some v ∧ v.val = u := by
  unfold Img.at? labelsOf
  simp only
  split_ifs with h
  · simp [Img.px]
  · simp

/-- The zones `u` and `v` touch at a pixel whose edge value is at most `τ`. -/
def TouchUnder (se : StrElt) (mos : Img (Px t)) (ev : Img Int) (τ u v : Int) : Prop :=
  u ≠ v ∧ ∃ p q w, (Touch se (labelsOf mos) u v p q ∨ Touch se (labelsOf mos) v u p q) ∧ ev.at? p = some w ∧ w ≤ τ

/-- The zone `u` touches another zone. -/
def TouchesOther (se : StrElt) (mos : Img (Px t)) (u : Int) : Prop :=
  ∃ v, u ≠ v ∧ ∃ p q, Touch se (labelsOf mos) u v p q ∨ Touch se (labelsOf mos) v u p q

/-- **C102** (partial: as C47 and C12; some zone touches another one). The cut of the graph of a mosaic at the value
`τ` (`mosaicToGraph`, `removeHighEdges`, `graphToMosaic`): each zone takes the least label of the zones that can
be reached from it by contacts with an edge value at most `τ`, and two zones which touch others get the same value
exactly when such contacts join them. -/
theorem C102_cut_partial (auto : Bool) (raw : Nat → Px t) (mos : Img (Px t)) (ev : Img Int) (nv : Option (Img Int))
    (se : StrElt) (τ : Int) (dout : Dims) (ha : AcceptsD auto mos.dims dout) (hev : ev.dims = mos.dims)
    (hnv : ∀ im ∈ nv, im.dims = mos.dims) (hro : RowOk mos.dims.w (execSe se)) (hw : mos.dims.w < 2 ^ 31)
    (hne : ∃ u, TouchesOther (execSe se) mos u)
    (htop : t = UINT8 ∨ t = UINT16 → TouchesOther (execSe se) mos t.hi ∨ ∀ p v, mos.at? p = some v → v.val ≠ t.hi) :
    ∃ g out, mosaicToGraph auto (labelsOf mos) (some ev) nv se = some (.ok g) ∧
      graphToMosaic auto raw mos (g.removeWhere fun w => decide (w > τ)) dout = .ok (.ok out) ∧ out.dims = mos.dims ∧
      (∀ p u, mos.at? p = some u → ∃ b, out.at? p = some b ∧
        (TouchesOther (execSe se) mos u.val →
          IsLeast {v | Relation.ReflTransGen (TouchUnder (execSe se) mos ev τ) u.val v} b.val) ∧
        (¬ TouchesOther (execSe se) mos u.val → b = Px.zero)) ∧
      ∀ p q u v, mos.at? p = some u → mos.at? q = some v → TouchesOther (execSe se) mos u.val →
        TouchesOther (execSe se) mos v.val →
        (out.at? p = out.at? q ↔ Relation.ReflTransGen (TouchUnder (execSe se) mos ev τ) u.val v.val) := by
  obtain ⟨g, hg, -, hE, -, hW, hN⟩ := C47_mosaic_partial auto (labelsOf mos) ev nv se ha.1 hev hnv hro hw
  -- the invariant of the loop
  have hinv : ∃ L, MosInv nv.isSome L g := by
    have h2 := hg
    unfold mosaicToGraph at h2
    simp only at h2
    split_ifs at h2
    · cases h2
    · cases h2
    · rw [show (labelsOf mos).dims = (zip3 (labelsOf mos) (some ev) nv).dims from rfl,
        mos_run (hasE := (some ev).isSome) (hasN := nv.isSome) (im := zip3 (labelsOf mos) (some ev) nv) hro hw Graph.empty] at h2
      simp only [Option.map_some, Option.some.injEq, Except.ok.injEq] at h2
      exact ⟨_, h2 ▸ mosFold_spec _ _⟩
  obtain ⟨L, hinv⟩ := hinv
  have hrep := hinv.rep.removeWhere fun w => decide (w > τ)
  set a : AGraph Int := { (⟨g.nodes, g.edges.map some⟩ : AGraph Int) with
    slots := (g.edges.map some).map (dropIf fun w => decide (w > τ)) } with hadef
  have han : a.nodes = g.nodes := rfl
  have hadj : ∀ u v, a.Adj u v ↔ TouchUnder (execSe se) mos ev τ u v := by
    intro u v
    have : a.Adj u v ↔ ∃ e ∈ g.edges, e.weight ≤ τ ∧ Joins e u v := by
      unfold AGraph.Adj Joins
      constructor
      · rintro ⟨e, he, hj⟩
        simp only [hadef, List.mem_map] at he
        obtain ⟨o, ⟨f, hf, rfl⟩, ho⟩ := he
        simp only [dropIf] at ho
        split_ifs at ho with hc
        cases ho
        simp only [gt_iff_lt, decide_eq_true_eq, not_lt] at hc
        exact ⟨e, hf, hc, hj⟩
      · rintro ⟨e, he, hc, hj⟩
        refine ⟨e, ?_, hj⟩
        simp only [hadef, List.mem_map]
        refine ⟨some e, ⟨e, he, rfl⟩, ?_⟩
        simp only [dropIf]
        rw [if_neg]
        simpa using hc
    rw [this]
    constructor
    · rintro ⟨e, he, hc, hj⟩
      obtain ⟨p, q, hpq, hp⟩ := (hW u v e he hj).1
      exact ⟨((hE u v).1 ⟨e, he, hj⟩).1, p, q, _, hpq, hp, hc⟩
    · rintro ⟨hne, p, q, w, hpq, hp, hc⟩
      obtain ⟨e, he, hj⟩ := (hE u v).2 ⟨hne, p, q, hpq⟩
      exact ⟨e, he, le_trans ((hW u v e he hj).2 ⟨p, q, hpq, hp⟩) hc, hj⟩
  have hrel : a.Adj = TouchUnder (execSe se) mos ev τ := by
    funext u v; exact propext (hadj u v)
  have hnode : ∀ u, u ∈ a.nodes ↔ TouchesOther (execSe se) mos u := by
    intro u; rw [han, hN u]; rfl
  have hk : ∀ v ∈ a.nodes, v ∈ (g.removeWhere fun w => decide (w > τ)).keys := by
    intro v hv
    rw [removeWhere_keys, hinv.keys]
    exact hv
  have hr : ∀ n ∈ a.nodes, t.lo ≤ n ∧ n ≤ t.hi := by
    intro n hn
    obtain ⟨v, _, p, q, hpq⟩ := (hnode n).1 hn
    have : ∃ r, (labelsOf mos).at? r = some n := by
      rcases hpq with ⟨_, h1, _⟩ | ⟨_, _, h1⟩ <;> exact ⟨_, h1⟩
    obtain ⟨r, hr⟩ := this
    obtain ⟨x, _, rfl⟩ := (labelsOf_at mos r n).1 hr
    exact ⟨x.lo_le, x.le_hi⟩
  obtain ⟨u0, hu0⟩ := hne
  obtain ⟨out, ho, hd, hpx⟩ := graphToMosaic_rep hrep hk auto raw mos dout ha ⟨u0, (hnode u0).2 hu0⟩ hr
    (fun hs => (htop hs).imp (fun h => (hnode _).2 h) id)
  have hpx' : ∀ p u, mos.at? p = some u → ∃ b, out.at? p = some b ∧
        (TouchesOther (execSe se) mos u.val →
          IsLeast {v | Relation.ReflTransGen (TouchUnder (execSe se) mos ev τ) u.val v} b.val) ∧
        (¬ TouchesOther (execSe se) mos u.val → b = Px.zero) := by
    intro p u hu
    obtain ⟨b, hb, h1, h2⟩ := hpx p u hu
    unfold AGraph.Linked at h1
    rw [hrel, hnode] at h1
    rw [hnode] at h2
    exact ⟨b, hb, h1, h2⟩
  refine ⟨g, out, hg, ho, hd, hpx', ?_⟩
  intro p q u v hu hv hun hvn
  obtain ⟨b, hb, hb1, _⟩ := hpx' p u hu
  obtain ⟨c, hc, hc1, _⟩ := hpx' q v hv
  rw [hb, hc, Option.some.injEq]
  refine Iff.trans ⟨fun e => congrArg Px.val e, Px.ext⟩ (isLeast_class (fun u v h => ?_) (hb1 hun) (hc1 hvn))
  rw [← hrel] at h ⊢
  exact h.symm

/-! ## Exceptions -/

/-- If a node never had an edge the function throws. -/
theorem C102_isolated_throws (ops : List (GOp W)) (a : AGraph W) (h : History ops a) (v : Int) (hv : v ∈ a.nodes)
    (auto : Bool) (raw : Nat → Px t) (im : Img (Px t)) (dout : Dims) (hd : dout.count ≠ 0) :
    ∃ g, runOps ops = some g ∧ (v ∉ g.keys → graphToMosaic auto raw im g dout = .error .outOfRange) := by
  obtain ⟨g, hg, h1⟩ := C46_isolated_throws ops a h v hv
  refine ⟨g, hg, fun hn => ?_⟩
  unfold graphToMosaic
  rw [if_neg hd, h1 hn]

/-- A mosaic of one zone: its graph is empty and `graphToMosaic` refuses it. -/
theorem C102_single_bug : (match mosaicToGraph true ⟨⟨4, 2, 1⟩, fun _ => 1⟩ (some exEv) none exCross with
      | some (.ok g) => (match graphToMosaic false (fun _ => Px.zero) (im8 ⟨4, 2, 1⟩ [1, 1, 1, 1, 1, 1, 1, 1]) g ⟨4, 2, 1⟩ with
        | .ok (.error e) => some e
        | _ => none)
      | _ => none) = some (-100) := by decide +kernel

/-- A graph with a node type wider than the pixel type: the pixels 44 and 45 are not nodes, but the nodes 300 and 301
are taken for them. -/
theorem C102_wide_bug : (match runOps (W := Int) [.addEdge ⟨300, 301, 5⟩ true] with
      | some g => some (g.nodes, match graphToMosaic false (fun _ => Px.zero) (im8 ⟨3, 1, 1⟩ [44, 45, 7]) g ⟨3, 1, 1⟩ with
        | .ok (.ok o) => [o.buf 0, o.buf 1, o.buf 2].map Px.val
        | _ => [])
      | none => none) = some ({300, 301}, [44, 44, 0]) := by decide +kernel

/-- A cut of a mosaic of three zones. -/
example : (match mosaicToGraph true exMos (some exEv) none exCross with
      | some (.ok g) => (match graphToMosaic false (fun _ => Px.zero) (im8 ⟨4, 2, 1⟩ [1, 1, 2, 2, 1, 1, 3, 3])
          (g.removeWhere fun w => decide (w > 3)) ⟨4, 2, 1⟩ with
        | .ok (.ok o) => some ((List.range 8).map fun i => (o.buf i).val)
        | _ => none)
      | _ => none) = some [1, 1, 2, 2, 1, 1, 2, 2] := by decide +kernel

/-- Its hypotheses. -/
example : RowOk exMos.dims.w (execSe exCross) ∧ TouchesOther (execSe exCross) (im8 ⟨4, 2, 1⟩ [1, 1, 2, 2, 1, 1, 3, 3]) 1 := by
  refine ⟨by decide, 2, by decide, ⟨1, 0, 0⟩, ⟨2, 0, 0⟩, Or.inl ⟨?_, by decide +kernel, by decide +kernel⟩⟩
  unfold seRel
  decide

end Smil
