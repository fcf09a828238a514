import Verif.ExtinctionFlood
import Verif.PropsWatershed

/-!
# C59: extinction flooding
-/

namespace Smil
open StrElt
variable {t : PT}

/-! ## Merges, for all sequences of operations -/

/-- **C59** (the merge): after any sequence of operations, merging two labels of different basins absorbs
exactly one of the two basins: it stops being its own representative, the other one represents all their
labels, and no other basin changes. The survivor is the more important one and gets the sums of the areas and of
the volumes (modulo `2^32`); the absorbed one gets its extinction value, and an edge of that weight is
recorded between the two labels. -/
theorem C59_merge {K : ExtKind} {L eb top : Nat} {T : ExtTab} {ins : List (Nat × Nat)}
    (h : ExtReach K L eb top T ins) {a b : Nat} (ha : 1 ≤ a ∧ a ≤ L) (hb : 1 ≤ b ∧ b ≤ L)
    (hne : T.equ a ≠ T.equ b) :
    ∃ T' e d, T.mergeOne K L eb (a, b) = some T' ∧
      ((e = T.equ a ∧ d = T.equ b) ∨ (e = T.equ b ∧ d = T.equ a)) ∧
      (∀ r, T'.equ r = r ↔ T.equ r = r ∧ r ≠ d) ∧
      (∀ i, T.equ i = d → T'.equ i = e) ∧ (∀ i, T.equ i ≠ d → T'.equ i = T.equ i) ∧
      (match K with
        | .area => T.area d < T.area e ∨ T.area d = T.area e ∧ T.minV e ≤ T.minV d
        | .volume => T.vol d < T.vol e ∨ T.vol d = T.vol e ∧ T.flood e ≤ T.flood d
        | .dynamic => T.minV e < T.minV d ∨ T.minV e = T.minV d ∧ T.area d ≤ T.area e) ∧
      T'.area e = (T.area e + T.area d) % 2 ^ 32 ∧ (∀ r, r ≠ e → T'.area r = T.area r) ∧
      (K = .volume → T'.vol e = (T.vol e + T.vol d) % 2 ^ 32 ∧ ∀ r, r ≠ e → T'.vol r = T.vol r) ∧
      T'.ext d = (match K with
        | .area => T.area d
        | .volume => T.vol d
        | .dynamic => T.level - T.minV d) % 2 ^ eb ∧
      (∀ r, r ≠ d → T'.ext r = T.ext r) ∧
      ((e = T.equ a ∧ T'.edges = T.edges ++ [(a, b, T'.ext d)]) ∨
        (e = T.equ b ∧ T'.edges = T.edges ++ [(b, a, T'.ext d)])) := by
  obtain ⟨T', e, d, g0, g1, g2, gq, gx, ga, gv, gm, gf, gl, ge, gE⟩ := mergeOne_spec (eb := eb) h.inv ha hb hne
  have hde : d ≠ e := by rcases g1 with ⟨x, y⟩ | ⟨x, y⟩ <;> rw [x, y]; exacts [fun x => hne x.symm, hne]
  have re : T.equ e = e := by
    rcases g1 with ⟨rfl, _⟩ | ⟨rfl, _⟩
    exacts [(h.inv.rng a ha.1 ha.2).2.2, (h.inv.rng b hb.1 hb.2).2.2]
  have hxd : T'.ext d = T.value K d % 2 ^ eb := by rw [gx, Function.update_self]
  refine ⟨T', e, d, g0, g1, ?_, fun i hi => by rw [gq, if_pos hi], fun i hi => by rw [gq, if_neg hi], ?_, ?_, ?_,
    ?_, ?_, ?_, ?_⟩
  · intro r
    rw [gq]
    by_cases hr : T.equ r = d
    · rw [if_pos hr]
      constructor
      · intro x
        rw [← x, re] at hr; exact absurd hr.symm hde
      · rintro ⟨x, y⟩; rw [x] at hr; exact absurd hr y
    · rw [if_neg hr]
      exact ⟨fun x => ⟨x, fun y => hr (by rw [x, y])⟩, fun x => x.1⟩
  · cases K <;> exact g2
  · rw [ga, Function.update_self]; rfl
  · intro r hr; rw [ga, Function.update_apply, if_neg hr]
  · intro hk
    rw [gv, if_pos hk]
    exact ⟨by rw [Function.update_self]; rfl, fun r hr => by rw [Function.update_apply, if_neg hr]⟩
  · rw [hxd]; cases K <;> rfl
  · intro r hr; rw [gx, Function.update_apply, if_neg hr]
  · rw [hxd]; exact gE

theorem mass_one (equ : Nat → Nat) (ins : List (Nat × Nat)) (r : Nat) :
    mass equ (fun _ => 1) ins r = (ins.filter fun e => equ e.2 = r).length := by
  simp [mass]

/-- **C59** (conservation): after any sequence of operations every label has a representative among the live
basins; a live basin has as area the number of pixels inserted under the labels that it represents, as volume
the sum of the depths of these pixels below the current level (both modulo `2^32`), and as minimum the least
value of these pixels; each label is absorbed at most once, and there are as many edges as absorbed basins. -/
theorem C59_basins {K : ExtKind} {L eb top : Nat} {T : ExtTab} {ins : List (Nat × Nat)}
    (h : ExtReach K L eb top T ins) :
    (∀ i, 1 ≤ i → i ≤ L → 1 ≤ T.equ i ∧ T.equ i ≤ L ∧ T.equ (T.equ i) = T.equ i) ∧
    (∀ r, 1 ≤ r → r ≤ L → T.equ r = r →
      T.area r = (ins.filter fun e => T.equ e.2 = r).length % 2 ^ 32 ∧
      (K = .volume →
        T.vol r = ((ins.filter fun e => T.equ e.2 = r).map fun e => T.level - e.1).sum % 2 ^ 32) ∧
      (K = .dynamic → (∀ e ∈ ins, T.equ e.2 = r → T.minV r ≤ e.1) ∧
        ((∃ e ∈ ins, T.equ e.2 = r) → ∃ e ∈ ins, T.equ e.2 = r ∧ T.minV r = e.1))) ∧
    ((List.range' 1 L).filter fun i => T.equ i = i).length + T.edges.length = L ∧
    (∀ i j, T.equ i = T.equ j ↔ Relation.EqvGen (fun i j => ∃ w, (i, j, w) ∈ T.edges) i j) := by
  have hi := h.inv
  refine ⟨hi.rng, fun r h1 h2 h3 => ⟨?_, fun hk => (hi.vol hk r h1 h2 h3).1, fun hk => ?_⟩, ?_,
    fun i j => (hi.joined_iff i j).symm⟩
  · rw [hi.area r h1 h2 h3, mass_one]; rfl
  · obtain ⟨k1, k2⟩ := hi.minV hk r h1 h2 h3
    refine ⟨k1, fun ⟨e, he, hr⟩ => ?_⟩
    rcases k2 with k2 | k2
    · exact ⟨e, he, hr, by have := k1 e he hr; have := hi.entry e he; omega⟩
    · exact k2
  · have hp : T.eaten.Perm ((List.range' 1 L).filter fun i => ¬ T.equ i = i) := by
      rw [List.perm_ext_iff_of_nodup hi.nodup ((List.nodup_range' (s := 1) (n := L)).filter _)]
      intro i
      rw [hi.eaten, List.mem_filter, List.mem_range'_1]
      constructor
      · intro hh
        refine ⟨?_, by simpa using hh⟩
        by_contra hc
        exact hh (hi.out i (by omega))
      · rintro ⟨_, hh⟩; simpa using hh
    have h2 : T.edges.length = T.eaten.length := by
      have := congrArg List.length hi.weights
      simpa using this
    rw [h2, hp.length_eq]
    have := List.length_eq_length_filter_add (l := List.range' 1 L) (fun i => decide (T.equ i = i))
    rw [List.length_range'] at this
    simpa using this.symm

/-! ## The flooding of an image -/

/-- Any two pixels of the image are connected. -/
def ConnectedIm (N : IntPoint → IntPoint → Prop) (im : Img (Px t)) : Prop :=
  ∀ p q, Img.In im.dims p → Img.In im.dims q → Pass N im ⊤ p q

theorem val_eq_level (hs : t.signed = false) (a : Px t) : ((hqLevel a : Nat) : Int) = a.val := by
  have h1 := a.lo_le
  have h2 : t.lo = 0 := lo_unsigned hs
  unfold hqLevel
  omega

/-- `r` is the number given to the last basin by the three measures: the number of pixels, the sum of the depths
below the highest pixel plus the number of pixels, the difference between the highest and the lowest pixel. -/
def TotalMeasure (K : ExtKind) (im : Img (Px t)) (r : Nat) : Prop :=
  ∃ hi lo : Nat, (∀ i < im.dims.count, (lo : Int) ≤ (im.buf i).val ∧ (im.buf i).val ≤ hi) ∧
    (∃ i < im.dims.count, (im.buf i).val = hi) ∧ (∃ i < im.dims.count, (im.buf i).val = lo) ∧
    r = match K with
      | .area => im.dims.count % 2 ^ 32
      | .volume => ((List.range im.dims.count).map fun i => hi - (im.buf i).val.toNat + 1).sum % 2 ^ 32
      | .dynamic => hi - lo

theorem mass_all {C : FloodCfg} {lbl equ : Nat → Nat} {f : Nat → Nat} {ins : List Nat} {r : Nat}
    (h : ∀ i ∈ ins, equ (lbl i) = r) : mass equ f (entries C lbl ins) r = (ins.map fun i => f (C.lev i)).sum := by
  unfold mass entries
  rw [List.filter_eq_self.mpr, List.map_map]
  · rfl
  · intro e he
    obtain ⟨i, hi, rfl⟩ := List.mem_map.mp he
    simpa using h i hi

/-- **C59** (partial: unsigned images, symmetric neighbourhoods): flooding a connected image from markers
below the maximum of the label type, at least one, ends without error, with the labels of `basins`; the tables are
those of a sequence of insertions of all the pixels, changes of level and merges, then `finalize`; all the labels used end in one
basin, which gets the measure of the whole image, converted to the type of the extinction values. If the markers use
all the labels `1 .. L`, this basin is the only one that is left, and there are `L - 1` edges, which join all the
labels. -/
theorem C59_flood_partial (hs : t.signed = false) (hb : t.bits ≤ 64) (auto : Bool) (raw : Nat → Nat)
    (M : Nat) (K : ExtKind) (eb : Nat) (se : StrElt) (im : Img (Px t)) (mk : Img Nat) (dout : Dims)
    (h : AcceptsF auto im.dims mk.dims dout) (hM : ∀ p v, mk.at? p = some v → v < M)
    (hsym : ∀ p q, seRel se p q → seRel se q p) (hc : ConnectedIm (seRel se) im) (m₀ : IntPoint) (v₀ : Nat)
    (hm : mk.at? m₀ = some v₀) (hv0 : v₀ ≠ 0) :
    ∃ s b r, extFlood auto raw M K eb se im mk dout = some (.ok s) ∧
      basins auto raw M se im mk dout = some (.ok b) ∧ b.buf = s.bas.lbl ∧
      (∀ p v, mk.at? p = some v → v ≠ 0 → s.tab.equ v = r) ∧
      (∀ p, Img.In im.dims p → ∃ v, b.at? p = some v ∧ v ≠ 0 ∧ s.tab.equ v = r) ∧
      s.tab.equ r = r ∧
      (∃ L T ins, ExtReach K L eb t.hi.toNat T ins ∧ s.tab = T.finalize K eb r ∧
        List.Perm ins ((List.range im.dims.count).map fun i => ((im.buf i).val.toNat, b.buf i))) ∧
      (∃ w, TotalMeasure K im w ∧ s.tab.ext r = w % 2 ^ eb) ∧
      (∀ L, (∀ p v, mk.at? p = some v → v ≤ L) → (∀ v, 1 ≤ v → v ≤ L → ∃ p, mk.at? p = some v) →
        (1 ≤ r ∧ r ≤ L) ∧ (∀ i, 1 ≤ i → i ≤ L → s.tab.equ i = r) ∧ s.tab.edges.length + 1 = L ∧
        (∀ i j, 1 ≤ i → i ≤ L → 1 ≤ j → j ≤ L →
          Relation.EqvGen (fun i j => ∃ w, (i, j, w) ∈ s.tab.edges) i j)) := by
  have hC := floodCfg_ok (se := se) (im := im) hs hb
  have hn : (floodCfg se im).n = im.dims.count := rfl
  have hat : ∀ p, Img.In im.dims p → mk.at? p = some (mk.buf (offOf im.dims p)) := by
    intro p hp
    have := mk.buf_offOf p (h.2.2.1.symm ▸ hp)
    rwa [h.2.2.1] at this
  have hati : ∀ i < im.dims.count, mk.at? (coordPt im.dims i) = some (mk.buf i) := by
    intro i hi
    rw [hat _ (coordPt_in hi).1, (coordPt_in hi).2]
  have hin : ∀ p v, mk.at? p = some v → Img.In im.dims p := fun p v h' =>
    h.2.2.1 ▸ Img.at?_eq_some_in _ _ _ h'
  have hmin := hin _ _ hm
  have hmv : mk.buf (offOf im.dims m₀) = v₀ := by
    have := hat _ hmin; rw [hm] at this; exact (Option.some.inj this).symm
  have hnbs : ∀ i < (floodCfg se im).n, ∀ j ∈ (floodCfg se im).nbs i, i ∈ (floodCfg se im).nbs j := by
    intro i hi j hj
    obtain ⟨hne, hr⟩ := nb_ne hi hj
    have hjl := nbOffsets_lt hi hj
    obtain ⟨hi1, hi2⟩ := coordPt_in hi
    obtain ⟨hj1, hj2⟩ := coordPt_in hjl
    have := (seRel_nb hj1 hi1 (fun e => hne (by rw [← hi2, ← hj2, e]))).mp (hsym _ _ hr)
    rwa [hi2, hj2] at this
  have htop : ∀ i < (floodCfg se im).n, (floodCfg se im).lev i ≤ t.hi.toNat := by
    intro i _
    have h1 := val_eq_level hs (im.buf i)
    have h2 := (im.buf i).le_hi
    change hqLevel (im.buf i) ≤ _
    omega
  obtain ⟨s, T, ins, i₀, e1, e2, e3, e4, e5, e6, e7, e8, e9⟩ := extRun_spec hC K eb t.hi.toNat htop hnbs mk.buf
    ⟨offOf im.dims m₀, offOf_lt hmin, by rw [hmv]; exact hv0⟩
  obtain ⟨s', f1, f2, f3, f4, _⟩ := basRun_spec hC mk.buf
  rw [e2] at f1; cases f1
  -- everything is labelled
  have hpath : ∀ i j, i < im.dims.count → j < im.dims.count →
      IPass (floodCfg se im) (hqLevel (⊤ : Px t)) i j := by
    intro i j hi hj
    have := (ipass_of_pass (hc _ _ (coordPt_in hi).1 (coordPt_in hj).1)).2.2
    rwa [(coordPt_in hi).2, (coordPt_in hj).2] at this
  have hlab : ∀ i < im.dims.count, s.bas.lbl i ≠ 0 := fun i hi =>
    f4 i hi ⟨offOf im.dims m₀, _, by rw [hmv]; exact hv0, hpath _ _ (offOf_lt hmin) hi⟩
  have hins : ∀ j, j ∈ ins ↔ j < im.dims.count := fun j => by
    rw [e5]; exact ⟨fun x => x.1, fun x => ⟨x, hlab j x⟩⟩
  have hone : ∀ i j, i < im.dims.count → IPass (floodCfg se im) (hqLevel (⊤ : Px t)) i j →
      T.equ (s.bas.lbl i) = T.equ (s.bas.lbl j) := by
    intro i j hi hp
    induction hp with
    | base => rfl
    | @step u v hp hj _ ih =>
      have hu : u < im.dims.count := hp.lt hC
      exact ih.trans (e7 u ((hins u).mpr hu) v ((hins v).mpr (nbOffsets_lt hu hj)) hj)
  have hi₀ : i₀ < im.dims.count := (hins _).mp e6
  have hall : ∀ j < im.dims.count, T.equ (s.bas.lbl j) = T.equ (s.bas.lbl i₀) := fun j hj =>
    (hone _ _ hj (hpath _ _ hj hi₀))
  have hperm : ins.Perm (List.range im.dims.count) := by
    rw [List.perm_ext_iff_of_nodup e4 List.nodup_range]
    intro j; rw [hins, List.mem_range]
  -- bounds on the root
  have hle : ∀ j < im.dims.count, s.bas.lbl j ≤ maxLabel im.dims.count mk.buf := by
    intro j hj
    obtain ⟨m, hh, x1, x2, _⟩ := f3 j hj (hlab j hj)
    rw [← x1]; exact le_maxLabel _ _ m x2.mlt
  have hr0 := e3.inv.rng _ (Nat.pos_of_ne_zero (hlab i₀ hi₀)) (hle i₀ hi₀)
  have hfin : s.tab.equ = T.equ ∧ s.tab.edges = T.edges := by rw [e9]; cases K <;> exact ⟨rfl, rfl⟩
  have hent : ∀ i ∈ ins, T.equ (s.bas.lbl i) = T.equ (s.bas.lbl i₀) := fun i hi => hall i ((hins i).mp hi)
  have harea : T.area (T.equ (s.bas.lbl i₀)) = im.dims.count % 2 ^ 32 := by
    rw [e3.inv.area _ hr0.1 hr0.2.1 hr0.2.2, mass_all hent, hperm.map _ |>.sum_eq]
    simp [u32]
  have hext0 : T.ext (T.equ (s.bas.lbl i₀)) = 0 := e3.inv.ext _ hr0.2.2
  -- the highest and the lowest value
  have hlev : ∀ i, (floodCfg se im).lev i = hqLevel (im.buf i) := fun _ => rfl
  have hhi : ∀ i < im.dims.count, hqLevel (im.buf i) ≤ T.level := fun i hi =>
    (e3.inv.entry (hqLevel (im.buf i), s.bas.lbl i) (List.mem_map.mpr ⟨i, (hins i).mpr hi, rfl⟩)).2.2.1
  have hhi' : ∃ i < im.dims.count, hqLevel (im.buf i) = T.level := by
    rcases e8 with e8 | ⟨j, hj, hj'⟩
    · exact ⟨i₀, hi₀, by have := hhi i₀ hi₀; omega⟩
    · exact ⟨j, (hins j).mp hj, hj'⟩
  have hlow : ∃ lo, (∀ i < im.dims.count, lo ≤ hqLevel (im.buf i)) ∧ ∃ i < im.dims.count, hqLevel (im.buf i) = lo := by
    have hex : ∃ v, ∃ i < im.dims.count, hqLevel (im.buf i) = v := ⟨_, i₀, hi₀, rfl⟩
    classical
    refine ⟨Nat.find hex, fun i hi => Nat.find_min' hex ⟨i, hi, rfl⟩, Nat.find_spec hex⟩
  obtain ⟨lo, hlo1, hlo2⟩ := hlow
  refine ⟨s, ⟨im.dims, s.bas.lbl⟩, T.equ (s.bas.lbl i₀), ?_, ?_, rfl, ?_, ?_, ?_, ⟨_, T, _, e3, e9, ?_⟩, ?_, ?_⟩
  · unfold extFlood
    rw [floodCheck_ok h]
    simp only
    rw [if_pos, e1]
    · rfl
    · rw [List.all_eq_true]
      intro i hi
      rw [List.mem_range] at hi
      simpa using hM _ _ (hati i hi)
  · unfold basins
    rw [floodCheck_ok h]
    simp only
    rw [if_pos, e2]
    · rfl
    · rw [List.all_eq_true]
      intro i hi
      rw [List.mem_range] at hi
      simpa using hM _ _ (hati i hi)
  · intro p v hv h0
    have hp := hin p v hv
    have hv' := hat p hp
    rw [hv] at hv'; cases hv'
    rw [hfin.1, ← f2 _ (offOf_lt hp) h0]
    exact hall _ (offOf_lt hp)
  · intro p hp
    refine ⟨s.bas.lbl (offOf im.dims p), Img.buf_offOf ⟨im.dims, s.bas.lbl⟩ p hp, hlab _ (offOf_lt hp), ?_⟩
    rw [hfin.1]; exact hall _ (offOf_lt hp)
  · rw [hfin.1]; exact hr0.2.2
  · refine (hperm.map _).trans (List.Perm.of_eq ?_)
    apply List.map_congr_left
    intro i _
    rw [hlev, Prod.mk.injEq]
    exact ⟨by have := val_eq_level hs (im.buf i); omega, rfl⟩
  · have hbnd : ∀ i < im.dims.count, ((lo : Nat) : Int) ≤ (im.buf i).val ∧ (im.buf i).val ≤ (T.level : Nat) := by
      intro i hi
      have h1 := val_eq_level hs (im.buf i)
      have h2 := hhi i hi
      have h3 := hlo1 i hi
      omega
    have hh : ∃ i < im.dims.count, (im.buf i).val = (T.level : Nat) := by
      obtain ⟨i, hi, hi'⟩ := hhi'
      exact ⟨i, hi, by rw [← val_eq_level hs, hi']⟩
    have hl : ∃ i < im.dims.count, (im.buf i).val = (lo : Nat) := by
      obtain ⟨i, hi, hi'⟩ := hlo2
      exact ⟨i, hi, by rw [← val_eq_level hs, hi']⟩
    refine ⟨_, ⟨T.level, lo, hbnd, hh, hl, rfl⟩, ?_⟩
    rw [e9]
    cases K with
    | area =>
      simp only [ExtTab.finalize, Function.update_self]
      rw [hext0, harea, Nat.zero_add]
    | volume =>
      simp only [ExtTab.finalize, Function.update_self]
      rw [hext0, Nat.zero_add, harea, (e3.inv.vol rfl _ hr0.1 hr0.2.1 hr0.2.2).1, mass_all hent,
        hperm.map _ |>.sum_eq]
      congr 1
      unfold u32
      rw [← Nat.add_mod]
      congr 1
      generalize im.dims.count = n
      induction n with
      | zero => rfl
      | succ n ih =>
        rw [List.range_succ, List.map_append, List.map_append, List.sum_append, List.sum_append, ← ih]
        have : (im.buf n).val.toNat = hqLevel (im.buf n) := by
          have := val_eq_level hs (im.buf n); omega
        simp only [List.map_cons, List.map_nil, List.sum_cons, List.sum_nil, hlev, this]
        omega
    | dynamic =>
      simp only [ExtTab.finalize, Function.update_self]
      congr 1
      obtain ⟨k1, k2⟩ := e3.inv.minV rfl _ hr0.1 hr0.2.1 hr0.2.2
      obtain ⟨i, hi, hi'⟩ := hlo2
      have hmi := k1 (hqLevel (im.buf i), s.bas.lbl i) (List.mem_map.mpr ⟨i, (hins i).mpr hi, rfl⟩) (hall i hi)
      simp only at hmi
      have hge : lo ≤ T.minV (T.equ (s.bas.lbl i₀)) := by
        rcases k2 with k2 | ⟨x, hx, _, hx'⟩
        · rw [k2, ← hi']; exact htop i hi
        · obtain ⟨j, hj, rfl⟩ := List.mem_map.mp hx
          rw [hx']; exact hlo1 j ((hins j).mp hj)
      omega
  · intro L hL1 hL2
    have hLm : maxLabel im.dims.count mk.buf = L := by
      apply le_antisymm
      · rcases maxLabel_att im.dims.count mk.buf with g | ⟨i, hi, g⟩
        · omega
        · rw [← g]; exact hL1 _ _ (hati i hi)
      · by_cases h0 : L = 0
        · omega
        · obtain ⟨p, hp⟩ := hL2 L (by omega) (le_refl _)
          have hp' := hat p (hin _ _ hp)
          rw [hp] at hp'
          have hp'' := Option.some.inj hp'
          have := le_maxLabel im.dims.count mk.buf _ (offOf_lt (hin _ _ hp))
          omega
    have e3' : TabInv K L t.hi.toNat T (entries (floodCfg se im) s.bas.lbl ins) := by
      rw [← hLm]; exact e3.inv
    have hallL : ∀ i, 1 ≤ i → i ≤ L → T.equ i = T.equ (s.bas.lbl i₀) := by
      intro i h1 h2
      obtain ⟨p, hp⟩ := hL2 i h1 h2
      have hpin := hin _ _ hp
      have hp' := hat p hpin
      rw [hp] at hp'
      have hp'' := Option.some.inj hp'
      have := f2 _ (offOf_lt hpin) (by omega)
      have := hall _ (offOf_lt hpin)
      simp_all
    have hr1 : 1 ≤ T.equ (s.bas.lbl i₀) ∧ T.equ (s.bas.lbl i₀) ≤ L := ⟨hr0.1, hLm ▸ hr0.2.1⟩
    refine ⟨hr1, fun i h1 h2 => by rw [hfin.1]; exact hallL i h1 h2, ?_, ?_⟩
    · rw [hfin.2]
      have hp : T.eaten.Perm ((List.range' 1 L).erase (T.equ (s.bas.lbl i₀))) := by
        rw [List.perm_ext_iff_of_nodup e3'.nodup ((List.nodup_range' (s := 1) (n := L)).erase _)]
        intro i
        rw [e3'.eaten, (List.nodup_range' (s := 1) (n := L)).mem_erase_iff, List.mem_range'_1]
        constructor
        · intro hne
          have hir : 1 ≤ i ∧ i ≤ L := by
            by_contra hcc; exact hne (e3'.out i hcc)
          refine ⟨fun x => hne ?_, by omega⟩
          rw [x]; exact hr0.2.2
        · rintro ⟨x, y⟩ hh
          rw [hallL i (by omega) (by omega)] at hh
          exact x hh.symm
      have h2 : T.edges.length = T.eaten.length := by
        have := congrArg List.length e3'.weights
        simpa using this
      rw [h2, hp.length_eq, List.length_erase_of_mem (by rw [List.mem_range'_1]; omega), List.length_range']
      omega
    · intro i j a1 a2 a3 a4
      rw [hfin.2]
      exact (e3'.joined_iff i j).mpr ((hallL i a1 a2).trans (hallL j a3 a4).symm)

/-! ## Connected images -/

/-- Two neighbours along one of the axes. -/
def UnitStep (p q : IntPoint) : Prop :=
  (p.y = q.y ∧ p.z = q.z ∧ (q.x = p.x + 1 ∨ p.x = q.x + 1)) ∨
  (p.x = q.x ∧ p.z = q.z ∧ (q.y = p.y + 1 ∨ p.y = q.y + 1)) ∨
  (p.x = q.x ∧ p.y = q.y ∧ (q.z = p.z + 1 ∨ p.z = q.z + 1))

/-- An image is connected for every neighbourhood that contains the steps along the axes. -/
theorem connectedIm_of_unit {N : IntPoint → IntPoint → Prop} {im : Img (Px t)}
    (hN : ∀ p q, Img.In im.dims p → Img.In im.dims q → UnitStep p q → N p q) : ConnectedIm N im := by
  have hbase : ∀ p, Img.In im.dims p → ∃ a, im.at? p = some a := fun p hp => ⟨_, Img.buf_offOf im p hp⟩
  intro p q hp hq
  -- by induction on the distance
  have key : ∀ (k : Nat) (q : IntPoint), Img.In im.dims q →
      (q.x - p.x).natAbs + (q.y - p.y).natAbs + (q.z - p.z).natAbs = k → Pass N im ⊤ p q := by
    intro k
    induction k with
    | zero =>
      intro q hq hk
      have : p = q := by
        cases p; cases q; simp only [IntPoint.mk.injEq] at *; omega
      subst this
      obtain ⟨a, ha⟩ := hbase p hp
      exact .base ha le_top
    | succ k ih =>
      intro q hq hk
      obtain ⟨a, ha⟩ := hbase q hq
      have hp' := hp
      have hq' := hq
      unfold Img.In at hp' hq'
      have step : ∀ q' : IntPoint, Img.In im.dims q' → UnitStep q' q →
          (q'.x - p.x).natAbs + (q'.y - p.y).natAbs + (q'.z - p.z).natAbs = k → Pass N im ⊤ p q :=
        fun q' h1 h2 h3 => .step (ih q' h1 h3) (hN q' q h1 hq h2) ha le_top
      rcases lt_trichotomy q.x p.x with hx | hx | hx
      · exact step ⟨q.x + 1, q.y, q.z⟩ (by unfold Img.In; simp only; omega)
          (Or.inl ⟨rfl, rfl, Or.inr rfl⟩) (by simp only; omega)
      · rcases lt_trichotomy q.y p.y with hy | hy | hy
        · exact step ⟨q.x, q.y + 1, q.z⟩ (by unfold Img.In; simp only; omega)
            (Or.inr (Or.inl ⟨rfl, rfl, Or.inr rfl⟩)) (by simp only; omega)
        · rcases lt_trichotomy q.z p.z with hz | hz | hz
          · exact step ⟨q.x, q.y, q.z + 1⟩ (by unfold Img.In; simp only; omega)
              (Or.inr (Or.inr ⟨rfl, rfl, Or.inr rfl⟩)) (by simp only; omega)
          · omega
          · exact step ⟨q.x, q.y, q.z - 1⟩ (by unfold Img.In; simp only; omega)
              (Or.inr (Or.inr ⟨rfl, rfl, Or.inl (by simp)⟩)) (by simp only; omega)
        · exact step ⟨q.x, q.y - 1, q.z⟩ (by unfold Img.In; simp only; omega)
            (Or.inr (Or.inl ⟨rfl, rfl, Or.inl (by simp)⟩)) (by simp only; omega)
      · exact step ⟨q.x - 1, q.y, q.z⟩ (by unfold Img.In; simp only; omega)
          (Or.inl ⟨rfl, rfl, Or.inl (by simp)⟩) (by simp only; omega)
  exact key _ q hq rfl

/-! ## Ranks and outputs -/

theorem rankFold (l : List Nat) : ∀ (n : Nat) (e : Nat → Nat), l.Nodup → ∀ x,
    (l.zipIdx n).foldl (fun e p => Function.update e p.1 (p.2 + 1)) e x =
      if x ∈ l then l.idxOf x + n + 1 else e x := by
  induction l with
  | nil => intro n e _ x; rfl
  | cons a l ih =>
    intro n e hnd x
    rw [List.nodup_cons] at hnd
    rw [List.zipIdx_cons, List.foldl_cons, ih (n + 1) _ hnd.2 x]
    by_cases hx : x = a
    · subst hx
      rw [if_neg hnd.1, if_pos (by simp)]
      simp
    · by_cases hm : x ∈ l
      · rw [if_pos hm, if_pos (by simp [hm]), List.idxOf_cons_ne _ (fun h => hx h.symm)]
        omega
      · rw [if_neg hm, if_neg (by simp [hm, hx]), Function.update_apply, if_neg hx]

theorem rankFold_ne (l : List Nat) : ∀ (n : Nat) (e : Nat → Nat) (x : Nat), x ∉ l →
    (l.zipIdx n).foldl (fun e p => Function.update e p.1 (p.2 + 1)) e x = e x := by
  induction l with
  | nil => intro n e x _; rfl
  | cons a l ih =>
    intro n e x hx
    rw [List.mem_cons, not_or] at hx
    rw [List.zipIdx_cons, List.foldl_cons, ih (n + 1) _ x hx.2, Function.update_apply, if_neg hx.1]

theorem rankInit_eq {ob L : Nat} (h : L < 2 ^ ob) : rankInit ob L = List.range' 1 L := by
  unfold rankInit
  conv_rhs => rw [← List.map_id (List.range' 1 L)]
  apply List.map_congr_left
  intro i hi
  rw [List.mem_range'_1] at hi
  exact Nat.mod_eq_of_lt (by omega)

/-- **C59** (ranks): whatever the order chosen by the sort between equal values, the ranks of the labels
`1 .. L` are `1 .. L`, each once, and a basin of larger extinction value has a smaller rank. -/
theorem C59_rank_partial {ob L : Nat} (hL : L < 2 ^ ob) (ext : Nat → Nat) (rank : List Nat)
    (h : IsSorted ext (rankInit ob L) rank) :
    (∀ i, 1 ≤ i → i ≤ L → 1 ≤ extRanks rank ext i ∧ extRanks rank ext i ≤ L) ∧
    (∀ i j, 1 ≤ i → i ≤ L → 1 ≤ j → j ≤ L → extRanks rank ext i = extRanks rank ext j → i = j) ∧
    (∀ i j, 1 ≤ i → i ≤ L → 1 ≤ j → j ≤ L → ext j < ext i → extRanks rank ext i < extRanks rank ext j) := by
  rw [rankInit_eq hL] at h
  have hnd : rank.Nodup := h.1.nodup_iff.mpr List.nodup_range'
  have hmem : ∀ i, 1 ≤ i → i ≤ L → i ∈ rank := fun i h1 h2 => h.1.mem_iff.mpr (by rw [List.mem_range'_1]; omega)
  have hlen : rank.length = L := by rw [h.1.length_eq, List.length_range']
  have hv : ∀ i, 1 ≤ i → i ≤ L → extRanks rank ext i = rank.idxOf i + 1 := by
    intro i h1 h2
    unfold extRanks
    rw [rankFold rank 0 ext hnd, if_pos (hmem i h1 h2)]
  refine ⟨fun i h1 h2 => ?_, fun i j h1 h2 h3 h4 he => ?_, fun i j h1 h2 h3 h4 he => ?_⟩
  · rw [hv i h1 h2]
    have := List.idxOf_lt_length_of_mem (hmem i h1 h2)
    omega
  · rw [hv i h1 h2, hv j h3 h4] at he
    exact (List.idxOf_inj (hmem i h1 h2)).mp (by omega)
  · rw [hv i h1 h2, hv j h3 h4]
    by_contra hc
    have hi := List.idxOf_lt_length_of_mem (hmem i h1 h2)
    have hj := List.idxOf_lt_length_of_mem (hmem j h3 h4)
    have hij : rank.idxOf j ≤ rank.idxOf i := by omega
    rcases Nat.lt_or_eq_of_le hij with hlt | heq
    · have := List.pairwise_iff_getElem.mp h.2 _ _ hj hi hlt
      rw [List.getElem_idxOf, List.getElem_idxOf] at this
      omega
    · have := (List.idxOf_inj (hmem j h3 h4)).mp heq
      subst this; omega

/-- **C59 fails** for the ranks when the output type cannot hold the number of labels: the label `2^ob` is not
ranked and keeps its extinction value. -/
theorem C59_rank_bug {ob L : Nat} (_hL : 2 ^ ob ≤ L) (ext : Nat → Nat) (rank : List Nat)
    (h : IsSorted ext (rankInit ob L) rank) : extRanks rank ext (2 ^ ob) = ext (2 ^ ob) := by
  have hn : 2 ^ ob ∉ rank := by
    intro hh
    obtain ⟨i, _, hi⟩ := List.mem_map.mp (h.1.mem_iff.mp hh)
    have := Nat.mod_lt i (Nat.two_pow_pos ob)
    omega
  exact rankFold_ne rank 0 ext _ hn

/-- **C59** (output): with `rankOutput = false`, the pixels of a marker get the extinction value of its label and
the other pixels 0; with `rankOutput = true` they get the rank of the label. (The returned code: see
`C59_return_bug`.) -/
theorem C59_output_partial (srt : (Nat → Nat) → List Nat → List Nat)
    (hsrt : ∀ ext l, IsSorted ext l (srt ext l)) (M ob : Nat) (se : StrElt) (im : Img (Px t)) (mk : Img Nat)
    (type : String) (K : ExtKind)
    (hK : (type = "v" ∧ K = .volume) ∨ (type = "a" ∧ K = .area) ∨ (type = "d" ∧ K = .dynamic))
    (rank : Bool) (out : Img Nat) (s : ExtSt)
    (h : extFlood false (fun _ => 0) M K (if rank then 32 else ob) se im mk im.dims = some (.ok s))
    (hd : mk.dims = im.dims) (L : Nat) (hL : L < 2 ^ ob) (hmx : ∀ p v, mk.at? p = some v → v ≤ L)
    (hall : ∀ v, 1 ≤ v → v ≤ L → ∃ p, mk.at? p = some v) :
    ∃ c r, watershedExtinction srt M ob se im mk type rank out = some (c, r) ∧ r.dims = im.dims ∧
      (∀ p, mk.at? p = some 0 → r.at? p = some 0) ∧
      ∃ val : Nat → Nat, (∀ p v, mk.at? p = some v → v ≠ 0 → r.at? p = some (val v)) ∧
        (rank = false → ∀ v, val v = s.tab.ext v % 2 ^ ob) ∧
        (rank = true → (∀ i, 1 ≤ i → i ≤ L → 1 ≤ val i ∧ val i ≤ L) ∧
          (∀ i j, 1 ≤ i → i ≤ L → 1 ≤ j → j ≤ L → val i = val j → i = j) ∧
          ∀ i j, 1 ≤ i → i ≤ L → 1 ≤ j → j ≤ L → s.tab.ext j < s.tab.ext i → val i < val j) := by
  have hk : extKind type = some K := by
    rcases hK with ⟨rfl, rfl⟩ | ⟨rfl, rfl⟩ | ⟨rfl, rfl⟩ <;> rfl
  have hin : ∀ p v, mk.at? p = some v → Img.In im.dims p ∧ mk.buf (offOf im.dims p) = v := by
    intro p v hv
    have hp : Img.In im.dims p := hd ▸ Img.at?_eq_some_in _ _ _ hv
    have := mk.buf_offOf p (hd.symm ▸ hp)
    rw [hd, hv] at this
    exact ⟨hp, (Option.some.inj this).symm⟩
  have hLm : maxLabel im.dims.count mk.buf = L := by
    apply le_antisymm
    · rcases maxLabel_att im.dims.count mk.buf with g | ⟨i, hi, g⟩
      · omega
      · rw [← g]
        have := mk.buf_offOf (coordPt im.dims i) (hd.symm ▸ (coordPt_in hi).1)
        rw [hd, (coordPt_in hi).2] at this
        exact hmx _ _ this
    · by_cases h0 : L = 0
      · omega
      · obtain ⟨p, hp⟩ := hall L (by omega) (le_refl _)
        obtain ⟨h1, h2⟩ := hin _ _ hp
        have := le_maxLabel im.dims.count mk.buf _ (offOf_lt h1)
        omega
  have hrun : watershedExtinction srt M ob se im mk type rank out = some (resErr, ⟨im.dims, extValues ob
      { s.tab with ext := (if rank then extRanks (srt s.tab.ext (rankInit ob (maxLabel im.dims.count mk.buf)))
                            s.tab.ext else s.tab.ext) } mk.buf⟩) := by
    unfold watershedExtinction
    rw [hk]
    simp only
    rw [h]
    rfl
  have hpix : ∀ (T : ExtTab) p v, mk.at? p = some v →
      (⟨im.dims, extValues ob T mk.buf⟩ : Img Nat).at? p = some (if v ≠ 0 then T.ext v % 2 ^ ob else 0) := by
    intro T p v hv
    obtain ⟨h1, h2⟩ := hin p v hv
    rw [Img.buf_offOf ⟨im.dims, extValues ob T mk.buf⟩ p h1]
    simp only [extValues, h2]
  rw [hLm] at hrun
  have hR := C59_rank_partial hL s.tab.ext _ (hsrt s.tab.ext (rankInit ob L))
  refine ⟨_, _, hrun, rfl, fun p hp => by rw [hpix _ p 0 hp]; rfl,
    fun v => (if rank then extRanks (srt s.tab.ext (rankInit ob L)) s.tab.ext else s.tab.ext) v % 2 ^ ob,
    fun p v hv h0 => by rw [hpix _ p v hv, if_pos h0], fun hr v => by rw [hr]; rfl, fun hr => ?_⟩
  subst hr
  simp only [if_true]
  have hmod : ∀ i, 1 ≤ i → i ≤ L → extRanks (srt s.tab.ext (rankInit ob L)) s.tab.ext i % 2 ^ ob =
      extRanks (srt s.tab.ext (rankInit ob L)) s.tab.ext i := fun i h1 h2 =>
    Nat.mod_eq_of_lt (by have := (hR.1 i h1 h2).2; omega)
  refine ⟨fun i h1 h2 => by rw [hmod i h1 h2]; exact hR.1 i h1 h2, fun i j h1 h2 h3 h4 he => ?_,
    fun i j h1 h2 h3 h4 he => ?_⟩
  · rw [hmod i h1 h2, hmod j h3 h4] at he; exact hR.2.1 i j h1 h2 h3 h4 he
  · rw [hmod i h1 h2, hmod j h3 h4]; exact hR.2.2 i j h1 h2 h3 h4 he

/-! ## Examples and defects -/

/-- The values of a table for the labels `1 .. L`. -/
def tabVals (L : Nat) (f : ExtTab → Nat → Nat) : Option ExtSt → List Nat
  | some s => (List.range' 1 L).map (f s.tab)
  | none => []

/-- C59: three basins on a line; the hypotheses of `C59_flood_partial` are met. -/
example : let im := im8 ⟨7, 1, 1⟩ [0, 3, 1, 5, 2, 2, 9]
    let mk := imN ⟨7, 1, 1⟩ [1, 0, 2, 0, 3, 0, 0]
    AcceptsF false im.dims mk.dims ⟨7, 1, 1⟩ ∧ (∀ p v, mk.at? p = some v → v < 255) ∧
    (∀ p q, seRel (SquSE 1) p q → seRel (SquSE 1) q p) ∧ ConnectedIm (seRel (SquSE 1)) im ∧
    mk.at? ⟨2, 0, 0⟩ = some 2 ∧
    tabVals 3 ExtTab.ext (extRun (floodCfg (SquSE 1) im) .area 32 255 mk.buf) = [7, 1, 2] ∧
    tabVals 3 ExtTab.ext (extRun (floodCfg (SquSE 1) im) .dynamic 32 255 mk.buf) = [9, 2, 3] ∧
    tabVals 3 ExtTab.ext (extRun (floodCfg (SquSE 1) im) .volume 32 255 mk.buf) = [48, 2, 6] ∧
    tabVals 3 ExtTab.equ (extRun (floodCfg (SquSE 1) im) .volume 32 255 mk.buf) = [1, 1, 1] := by
  refine ⟨⟨by decide, by decide, rfl, Or.inl rfl⟩, fun p v hv => ?_, seRel_symm (by decide), ?_, by decide,
    by decide +kernel, by decide +kernel, by decide +kernel, by decide +kernel⟩
  · obtain ⟨i, hi, rfl, _⟩ := Img.at?_buf _ _ _ hv
    have : ∀ i < 7, (imN ⟨7, 1, 1⟩ [1, 0, 2, 0, 3, 0, 0]).buf i < 255 := by decide
    exact this i hi
  · apply connectedIm_of_unit
    intro p q hp hq hu
    unfold Img.In at hp hq
    refine ⟨⟨q.x - p.x, q.y - p.y, q.z - p.z⟩, ?_, ?_⟩
    · have h1 : q.y - p.y = 0 := by simp only [im8] at hp hq; omega
      have h2 : q.z - p.z = 0 := by simp only [im8] at hp hq; omega
      have h3 : q.x - p.x = 1 ∨ q.x - p.x = -1 := by
        simp only [im8] at hp hq
        unfold UnitStep at hu; omega
      rw [h1, h2]
      rcases h3 with h3 | h3 <;> rw [h3] <;> decide
    · have : (SquSE 1).odd = false := rfl
      rw [this]
      simp only [phys, Bool.false_eq_true, false_and, if_false, add_zero, Prod.mk_add_mk, Prod.mk.injEq]
      omega

/-- Values of an output image and the returned code. -/
def outVals : Option (Int × Img Nat) → Option (Int × List Nat)
  | some (c, r) => some (c, (List.range r.dims.count).map r.buf)
  | none => none

/-- **C59 fails** for the returned code: the flooding succeeds, the output holds the extinction values, and
`watershedExtinction` returns `RES_ERR`. -/
theorem C59_return_bug :
    outVals (watershedExtinction (fun _ l => l) 255 8 (SquSE 1) (im8 ⟨5, 1, 1⟩ [0, 3, 1, 5, 2])
      (imN ⟨5, 1, 1⟩ [1, 0, 2, 0, 3]) "d" false (imN ⟨5, 1, 1⟩ [])) = some (-100, [5, 0, 2, 0, 3]) := by
  decide +kernel

/-- **C59 fails** without markers: an uninitialised offset is read. -/
theorem C59_nomarker_bug :
    extRun (floodCfg (SquSE 1) (im8 ⟨2, 1, 1⟩ [4, 4])) .area 32 255 (fun _ => 0) = none := by rfl

/-- **C59 fails** when an object is used for a second flooding of the same image: the areas of the first one are
still there. -/
theorem C59_reuse_bug :
    let C := floodCfg (SquSE 1) (im8 ⟨3, 1, 1⟩ [0, 3, 1])
    let mk := (imN ⟨3, 1, 1⟩ [1, 0, 2]).buf
    tabVals 2 ExtTab.ext (extRun C .area 32 255 mk) = [3, 1] ∧
    tabVals 2 ExtTab.ext ((extRun C .area 32 255 mk).bind (extRunAgain C .area 32 255 mk)) = [10, 2] := by
  decide +kernel

/-- **C59 fails** for a neighbourhood that is not symmetric: two basins that touch are not merged. -/
theorem C59_asym_bug :
    let se : StrElt := { (SquSE 1) with points := [⟨0, 0, 0⟩, ⟨1, 0, 0⟩] }
    tabVals 2 ExtTab.equ (extRun (floodCfg se (im8 ⟨2, 1, 1⟩ [0, 3])) .area 32 255
      (imN ⟨2, 1, 1⟩ [1, 2]).buf) = [1, 2] := by decide +kernel

end Smil
