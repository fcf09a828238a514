import Verif.OtsuMultiInv
import Verif.OtsuMultiCuts
import Verif.OtsuMultiLut
import Verif.PropsBuild

/-!
# C82: the search of several thresholds maximises the variance between the classes
-/

namespace Smil

section
variable {t : PT}
variable {l : List (Px t)} {a b : Px t}

/-! ### Start -/

theorem init_table (hc : MCtx l a b) {hist : List (Px t × Nat)}
    (ht : IsTable (fun v => a ≤ v ∧ v ≤ b) (fun v => l.count v) hist) :
    ∀ K : Nat, (K : Int) ≤ b.val →
    IsTable (fun v => (a ≤ v ∧ v ≤ b) ∨ (0 ≤ v.val ∧ v.val < K)) (fun v => l.count v)
      ((List.range K).foldl (fun m (j : Nat) => mapIns (t.wrap (j : Int)) 0 m) hist) ∧
    (((List.range K).foldl (fun m (j : Nat) => mapIns (t.wrap (j : Int)) 0 m) hist).length : Int) =
      if (K : Int) ≤ a.val then b.val - a.val + 1 + K else b.val + 1 := by
  have hb := b.le_hi
  have hab := Px.le_iff.mp hc.ab
  have hnn := hc.nn
  intro K
  induction K with
  | zero =>
    intro _
    refine ⟨ht.congr fun v => ?_, ?_⟩
    · push_cast
      constructor
      · exact Or.inl
      · rintro (h | h)
        · exact h
        · omega
    · rw [if_pos (by push_cast; omega)]
      have := length_table _ a b hc.ab _ ht
      simp only [List.range_zero, List.foldl_nil]
      push_cast
      omega
  | succ K ih =>
    intro hK
    push_cast at hK
    obtain ⟨i1, i2⟩ := ih (by omega)
    rw [List.range_succ, List.foldl_append]
    simp only [List.foldl_cons, List.foldl_nil]
    set h := (List.range K).foldl (fun m (j : Nat) => mapIns (t.wrap (j : Int)) 0 m) hist
    have hw := wrap_nat (t := t) (x := K) (by omega)
    constructor
    · refine (i1.ins _ 0 ?_).congr fun v => ?_
      · intro hn
        exact (List.count_eq_zero_of_not_mem fun hm => hn (Or.inl (hc.mem _ hm))).symm
      · rw [Px.ext_iff', hw, or_assoc]
        refine or_congr Iff.rfl ?_
        push_cast
        omega
    · obtain ⟨l1, l2⟩ := length_mapIns (t.wrap (K : Int)) 0 h i1.1
      by_cases hin : a.val ≤ (K : Int)
      · rw [l1 ⟨_, (i1.2 _ _).mpr ⟨Or.inl ⟨Px.le_iff.mpr (by rw [hw]; omega), Px.le_iff.mpr (by rw [hw]; omega)⟩, rfl⟩⟩, i2,
          if_neg (show ¬ ((K + 1 : Nat) : Int) ≤ a.val by push_cast; omega)]
        split
        · omega
        · rfl
      · rw [l2, if_pos (by push_cast; omega)]
        · rw [if_pos (by omega)] at i2
          push_cast
          omega
        · intro q hq
          rcases ((i1.2 _ _).mp hq).1 with ⟨r1, r2⟩ | ⟨r1, r2⟩
          · have r1' := Px.le_iff.mp r1
            omega
          · omega

theorem multiInit_inv (hc : MCtx l a b) {hist : List (Px t × Nat)}
    (ht : IsTable (fun v => a ≤ v ∧ v ≤ b) (fun v => l.count v) hist) {K : Nat} (h1 : 1 ≤ K) (hK : (K : Int) ≤ b.val) :
    MultiInv l a b K (multiInit (meanVals l) l.length K hist) ∧
    ((multiInit (meanVals l) l.length K hist).hist.length : Int) = if (K : Int) ≤ a.val then b.val - a.val + 1 + K else b.val + 1 := by
  have hb := b.le_hi
  obtain ⟨i1, i2⟩ := init_table hc ht K hK
  have hv : ValidT b.val K (fun j => j) := ⟨fun i j h _ => h, fun i hi => by simp only; omega⟩
  refine ⟨⟨hv, ⟨K - 1, ⟨?_, ?_, by omega⟩, fun _ => rfl⟩, ?_⟩, i2⟩
  · refine i1.congr fun v => or_congr Iff.rfl ?_
    omega
  · refine i2.trans ?_
    by_cases h : (K : Int) ≤ a.val
    · rw [if_pos h, if_pos (by omega)]; omega
    · rw [if_neg h, if_neg (by omega)]
  · set s0 : MSt t := ⟨fun j => j, (List.range K).foldl (fun m (j : Nat) => mapIns (t.wrap (j : Int)) 0 m) hist,
      fun j => (mapAt (t.wrap (j : Int)) ((List.range K).foldl (fun m (j : Nat) => mapIns (t.wrap (j : Int)) 0 m) hist) : ℚ),
      fun j => if ((mapAt (t.wrap (j : Int)) ((List.range K).foldl (fun m (j : Nat) => mapIns (t.wrap (j : Int)) 0 m) hist) : Nat) : ℚ) > 0
        then (j : ℚ) else 0⟩ with hs0
    have hcls : ∀ j, j < K → GoodCls l K s0.idx s0.f s0.m j := by
      intro j hj
      have hw := wrap_nat (t := t) (x := j) (by omega)
      have hat : mapAt (t.wrap (j : Int)) ((List.range K).foldl (fun m (j : Nat) => mapIns (t.wrap (j : Int)) 0 m) hist) =
          l.count (t.wrap (j : Int)) := i1.at _ (Or.inr (by rw [hw]; omega))
      obtain ⟨e1, e2⟩ := partOf_low l (hv.low_le_up (t := t) hb (show j ≤ K by omega))
      have hup : upB t K (fun j => j) j = j := if_pos hj
      have hlow : lowB (fun j => j) j = (j : Int) - 1 := by
        unfold lowB
        simp only
        split <;> omega
      obtain ⟨q1, q2⟩ := low_succ l (t.wrap (j : Int))
      rw [hw] at q1 q2
      have hf : ((l.count (t.wrap (j : Int)) : Nat) : ℚ) = (classOf l K (fun j => j) j).length := by
        unfold classOf
        rw [e1, hlow, hup, q1]
        ring
      have hS : (j : ℚ) * (l.count (t.wrap (j : Int)) : ℚ) = sumVals (classOf l K (fun j => j) j) := by
        unfold classOf
        rw [e2, hlow, hup, q2]
        push_cast
        ring
      unfold GoodCls
      simp only [hs0, hat]
      refine ⟨hf, ?_⟩
      rw [← mean_of (classOf l K (fun j => j) j) _ _ hf hS]
      split
      · rename_i hpos
        rw [mul_div_cancel_right₀ _ hpos.ne']
      · rfl
    obtain ⟨-, -, i3⟩ := multiLast_inv hc (s := s0) hv hcls
    have e : multiInit (meanVals l) l.length K hist = multiLast (meanVals l) l.length K s0 := by
      unfold multiInit multiLast
      simp only [hs0]
      rw [foldl_addQ, foldl_subQ, foldl_addQ (fun k => (_ : ℚ)), foldl_subQ (fun k => (_ : ℚ))]
      simp only [zero_add]
    rw [e]
    exact i3

/-! ### Loop -/

theorem LexLt.congr {K : Nat} {x y x' y' : Nat → Nat} (h : LexLt K x y) (hx : ∀ i, i < K → x i = x' i) (hy : ∀ i, i < K → y i = y' i) :
    LexLt K x' y' := by
  obtain ⟨j, hj, h1, h2⟩ := h
  refine ⟨j, hj, fun i hi => ?_, ?_⟩
  · rw [← hx i (by omega), ← hy i (by omega)]; exact h1 i hi
  · rw [← hx j hj, ← hy j hj]; exact h2

/-- The best configuration among those of a set. -/
structure BestIn (l : List (Px t)) (b : Int) (K : Nat) (S : (Nat → Nat) → Prop) (r : (Nat → Nat) × ℚ) : Prop where
  valid : ValidT b K r.1
  var : r.2 = betweenVar l K r.1
  max : ∀ y, ValidT b K y → S y → betweenVar l K y ≤ r.2
  first : ∀ y, ValidT b K y → LexLt K y r.1 → betweenVar l K y < r.2

theorem multiLoop_best (hc : MCtx l a b) (hab : a ≠ b) (hhi : t.hi < 2 ^ 32) {K : Nat} (h1 : 1 ≤ K) (hK : (K : Int) ≤ b.val) :
    ∀ n (s : MSt t) r, MultiInv l a b K s →
      BestIn l b.val K (fun y => (∀ i, i < K → y i = s.idx i) ∨ LexLt K y s.idx) r →
      t.hi.toNat ^ K ≤ n + rankOf t.hi.toNat s.idx K →
      BestIn l b.val K (fun _ => True) (multiLoop (meanVals l) l.length K n s r) := by
  have hb := b.le_hi
  have hB : ∀ {x : Nat → Nat}, ValidT b.val K x → ∀ i, i < K → x i < t.hi.toNat := fun hx i hi => by
    have := hx.2 i hi
    omega
  intro n
  induction n with
  | zero =>
    intro s r hs _ hr
    have := rank_bound t.hi.toNat K (hB hs.valid)
    omega
  | succ n ih =>
    intro s r hs hr hn
    rw [multiLoop, multiInc, if_neg (by omega)]
    rcases try_inv hc hab hhi hs hK K le_rfl (fun i h hi => by omega) with ⟨s', j, e, hs', hj, hm, hmax, hidx⟩ | ⟨e, hmax⟩
    · rw [e]
      simp only
      have hlex : LexLt K s.idx s'.idx := (lex_succAt hj).congr (fun _ _ => rfl) fun i hi => (hidx i hi).symm
      -- what comes before the new configuration
      have hbefore : ∀ y, ValidT b.val K y → LexLt K y s'.idx → (∀ i, i < K → y i = s.idx i) ∨ LexLt K y s.idx := by
        intro y hy hlt
        rcases lex_total K y s.idx with h | h | h
        · exact Or.inl h
        · exact Or.inr h
        · exfalso
          rcases succAt_next hj hmax hy h with h' | h'
          · obtain ⟨k, hk, -, h4⟩ := hlt
            rw [hidx k hk, h' k hk] at h4
            omega
          · exact LexLt.asymm hlt (h'.congr (fun i hi => (hidx i hi).symm) fun _ _ => rfl)
      have hvar := multiVar_eq hs'.cls
      refine ih s' _ hs' ?_ ?_
      · by_cases hgt : multiVar (meanVals l) K s' > r.2
        · rw [if_pos hgt]
          refine ⟨hs'.valid, hvar, ?_, ?_⟩
          · rintro y hy (h | h)
            · exact (betweenVar_congr l h).le.trans hvar.ge
            · exact (hr.max y hy (hbefore y hy h)).trans hgt.le
          · intro y hy h
            exact lt_of_le_of_lt (hr.max y hy (hbefore y hy h)) hgt
        · rw [if_neg hgt]
          refine ⟨hr.valid, hr.var, ?_, hr.first⟩
          rintro y hy (h | h)
          · rw [betweenVar_congr l h, ← hvar]
            exact not_lt.mp hgt
          · exact hr.max y hy (hbefore y hy h)
      · have := rank_lt t.hi.toNat K (hB hs.valid) hlex
        omega
    · rw [e]
      refine ⟨hr.valid, hr.var, fun y hy _ => ?_, hr.first⟩
      rcases lex_total K y s.idx with h | h | h
      · exact hr.max y hy (Or.inl h)
      · exact hr.max y hy (Or.inr h)
      · exact absurd h (lex_max hmax hy)

/-! ### Constant images -/

theorem betweenVar_const {l : List (Px t)} {a : Px t} (h : ∀ v ∈ l, v = a) (hl : l ≠ []) (K : Nat) (x : Nat → Nat) :
    betweenVar l K x = 0 := by
  have hmean : ∀ q : List (Px t), q ≠ [] → (∀ v ∈ q, v = a) → meanVals q = a.val := by
    intro q hq hqa
    have e : q = List.replicate q.length a := List.eq_replicate_iff.mpr ⟨rfl, hqa⟩
    have hpos : (q.length : ℚ) ≠ 0 := by
      have := List.length_pos_iff.mpr hq
      positivity
    unfold meanVals sumVals
    have e2 : q.map (fun v => (v.val : ℚ)) = List.replicate q.length (a.val : ℚ) :=
      List.eq_replicate_iff.mpr ⟨by simp, fun v hv => by
        obtain ⟨w, hw, rfl⟩ := List.mem_map.mp hv
        rw [hqa w hw]⟩
    rw [e2, List.sum_replicate, nsmul_eq_mul]
    field_simp
  unfold betweenVar
  apply List.sum_eq_zero
  intro q hq
  obtain ⟨j, -, rfl⟩ := List.mem_map.mp hq
  by_cases hcl : classOf l K x j = []
  · rw [hcl]; simp
  · rw [hmean l hl h, hmean _ hcl fun v hv => h v (List.mem_of_mem_filter hv)]
    ring

theorem multiTry_const {K : Nat} {s : MSt t} (hid : ∀ j, j < K → s.idx j = j) (hlen : s.hist.length = K + 1) (hb : K < 2 ^ 32) (gm tot : ℚ) :
    ∀ n, n ≤ K → multiTry gm tot K s.hist.length n s = none
  | 0, _ => rfl
  | j + 1, hn => by
    rw [multiTry, if_neg]
    · exact multiTry_const hid hlen hb gm tot j (by omega)
    · rw [hid j (by omega), hlen, sizeT_of (by push_cast; omega) (by push_cast; omega)]
      push_cast
      omega

/-! ### C82 -/

theorem multiSearch_best (im : Img (Px t)) (h : im.dims.count ≠ 0) (hc : im.dims.count < 2 ^ 32)
    (hs : SpanOk im) (hhi : t.hi < 2 ^ 32) (hnn : ∀ p v, im.at? p = some v → 0 ≤ v.val)
    (K : Nat) (h1 : 1 ≤ K) (b : Px t) (hb : IsGreatest {v | v ∈ im.vals} b) (hK : (K : Int) ≤ b.val)
    (n : Nat) (hn : t.hi.toNat ^ K ≤ n) :
    ∃ m, histMap false im = some m ∧
      ValidT b.val K (multiSearch n K m).1 ∧
      (multiSearch n K m).2 = betweenVar im.vals K (multiSearch n K m).1 ∧
      (∀ y, ValidT b.val K y → betweenVar im.vals K y ≤ betweenVar im.vals K (multiSearch n K m).1) ∧
      (∀ y, ValidT b.val K y → LexLt K y (multiSearch n K m).1 →
        betweenVar im.vals K y < betweenVar im.vals K (multiSearch n K m).1) := by
  have hv : considered false im ≠ [] := by
    rw [considered_false]
    intro hn
    have := im.vals_length
    rw [hn] at this
    exact h this.symm
  obtain ⟨hA, hB⟩ := (C17_extremes false im).1 hv
  rw [considered_false] at hA hB hv
  obtain ⟨⟨m, hm, ht⟩, -⟩ := histCore_spec (fun _ => true) im h hc hs
  rw [kept_true] at ht
  have ebm : b = maxValOf false im := hb.unique hB
  rw [← ebm] at ht hB
  set a := minValOf false im
  have hl : ∀ v ∈ im.vals, a ≤ v ∧ v ≤ b := fun v hv => ⟨hA.2 hv, hB.2 hv⟩
  have hab : a ≤ b := hA.2 hB.1
  have ha : 0 ≤ a.val := by
    obtain ⟨p, hp⟩ := (im.mem_vals _).mp hA.1
    exact hnn p _ hp
  have hctx : MCtx im.vals a b := ⟨ha, hab, hl⟩
  have hnod : (m.map Prod.fst).Nodup := by
    rw [List.Nodup, List.pairwise_map]
    exact ht.1.imp fun hab => hab.ne
  have hcnt : ∀ e ∈ m, e.2 = im.vals.count e.1 := by
    rintro ⟨v, n⟩ he
    exact ((ht.2 v n).mp he).2
  have hkeys : ∀ v ∈ im.vals, v ∈ m.map Prod.fst := fun v hv =>
    List.mem_map.mpr ⟨(v, im.vals.count v), (ht.2 _ _).mpr ⟨hl v hv, rfl⟩, rfl⟩
  have htot : (m.map fun e => (e.2 : ℚ)).sum = im.vals.length := by
    have := sum_weighted (fun _ => (1 : ℚ)) m im.vals hnod hcnt hkeys
    simpa using this
  have hgm : (m.map fun e => (e.1.val : ℚ) * (e.2 : ℚ)).sum / (im.vals.length : ℚ) = meanVals im.vals := by
    rw [sum_weighted (fun v : Px t => (v.val : ℚ)) m im.vals hnod hcnt hkeys]
    rfl
  have hbh := b.le_hi
  obtain ⟨hinv, hlen⟩ := multiInit_inv hctx ht h1 hK
  have hvar := multiVar_eq hinv.cls
  have hbest : BestIn im.vals b.val K (fun _ => True) (multiSearch n K m) := by
    unfold multiSearch
    simp only [htot, hgm]
    by_cases hne : a = b
    · -- a constant image
      have hconst : ∀ v ∈ im.vals, v = a := fun v hv => by
        have := hl v hv
        rw [← hne] at this
        exact le_antisymm this.2 this.1
      have h0 : t.hi.toNat ^ K ≠ 0 := by
        have : t.hi.toNat ≠ 0 := by omega
        positivity
      obtain ⟨n', rfl⟩ : ∃ n', n = n' + 1 := ⟨n - 1, by omega⟩
      rw [multiLoop, multiInc, if_neg (by omega), multiTry_const (K := K) (fun j hj => rfl) ?_ (by omega) _ _ K le_rfl]
      · refine ⟨hinv.valid, hvar, fun y _ _ => ?_, fun y hy hlt => ?_⟩
        · simp only
          rw [hvar, betweenVar_const hconst hv, betweenVar_const hconst hv]
        · exfalso
          obtain ⟨j, hj, -, h3⟩ := hlt
          have := hy.ge_step 0 j (by omega)
          simp only [Nat.zero_add] at this h3
          omega
      · rw [hne] at hlen
        rw [if_pos hK] at hlen
        omega
    · refine multiLoop_best hctx hne hhi h1 hK n _ _ hinv ⟨hinv.valid, hvar, ?_, ?_⟩ (by omega)
      · rintro y hy (h | h)
        · simp only
          rw [hvar]
          exact (betweenVar_congr _ h).le
        · exfalso
          obtain ⟨j, hj, -, h3⟩ := h
          have := hy.ge_step 0 j (by omega)
          have h3' : y j < j := h3
          simp only [Nat.zero_add] at this
          omega
      · intro y hy hlt
        exfalso
        obtain ⟨j, hj, -, h3⟩ := hlt
        have := hy.ge_step 0 j (by omega)
        simp only [Nat.zero_add] at this h3
        omega
  exact ⟨m, hm, hbest.valid, hbest.var, fun y hy => hbest.var ▸ hbest.max y hy trivial, fun y hy hlt => hbest.var ▸ hbest.first y hy hlt⟩

/-- **C82**. For every allocated image of non-negative values and every number `K` of thresholds between one and the greatest
value, the search finds thresholds, increasing and below the greatest value, whose classes have the greatest variance
between them that any `K` integers can give (`cutVar`: the class of a value is the number of cuts below it; the cuts `y` are
any integers in any order), returns this variance, and takes the first such thresholds in the order of the dictionary. The
first argument of `multiSearch` bounds the number of turns of the loop: any bound from `hi ^ K` on gives this. Missing: the use of the
thresholds (`C82_label_bug`), the conversion of the variance to a pixel (`C82_variance_bug`), `K = 0` (`C82_zero_bug`),
images with negative values (`C62_signed_bug`); exact arithmetic stands for `double`. -/
theorem C82_search_partial (im : Img (Px t)) (h : im.dims.count ≠ 0) (hc : im.dims.count < 2 ^ 32)
    (hs : SpanOk im) (hhi : t.hi < 2 ^ 32) (hnn : ∀ p v, im.at? p = some v → 0 ≤ v.val)
    (K : Nat) (h1 : 1 ≤ K) (b : Px t) (hb : IsGreatest {v | v ∈ im.vals} b) (hK : (K : Int) ≤ b.val)
    (n : Nat) (hn : t.hi.toNat ^ K ≤ n) :
    ∃ m x var, histMap false im = some m ∧ multiSearch n K m = (x, var) ∧
      (∀ i j, i < j → j < K → x i < x j) ∧ (∀ i, i < K → (x i : Int) < b.val) ∧
      var = cutVar im.vals K (fun i => (x i : Int)) ∧
      (∀ y : Nat → Int, cutVar im.vals K y ≤ var) ∧
      (∀ y : Nat → Nat, (∀ i j, i < j → j < K → y i < y j) → (∀ i, i < K → (y i : Int) < b.val) →
        (∃ j, j < K ∧ (∀ i, i < j → y i = x i) ∧ y j < x j) → cutVar im.vals K (fun i => (y i : Int)) < var) := by
  obtain ⟨m, hm, hv, hvar, hmax, hfirst⟩ := multiSearch_best im h hc hs hhi hnn K h1 b hb hK n hn
  have hl0 : ∀ v ∈ im.vals, 0 ≤ v.val := fun v hv => by
    obtain ⟨p, hp⟩ := (im.mem_vals _).mp hv
    exact hnn p _ hp
  have hx := cutVar_valid im.vals hl0 hv
  refine ⟨m, (multiSearch n K m).1, (multiSearch n K m).2, hm, rfl, hv.1, hv.2, by rw [hvar, hx], ?_, ?_⟩
  · intro y
    obtain ⟨z, hz, hle⟩ := cuts_valid im.vals (b := b.val) (fun v hv => ⟨hl0 v hv, Px.le_iff.mp (hb.2 hv)⟩) hK y
    rw [cutVar_valid im.vals hl0 hz] at hle
    rw [hvar]
    exact hle.trans (hmax z hz)
  · intro y hy1 hy2 hlt
    rw [cutVar_valid im.vals hl0 (x := y) ⟨hy1, hy2⟩, hvar]
    exact hfirst y ⟨hy1, hy2⟩ hlt

/-- **C82**, one threshold: the search is that of C62, cut for cut. -/
theorem C82_one (l : List (Px t)) (k : Int) : cutVar l 1 (fun _ => k) = splitVar l k := by
  have e0 : cutClass l 1 (fun _ => k) 0 = lowPart l k := by
    unfold cutClass lowPart cutNo
    apply List.filter_congr
    intro v _
    by_cases hv : k < v.val
    · have : ¬ v.val ≤ k := by omega
      simp [hv, this, List.range_succ]
    · have : v.val ≤ k := by omega
      simp [hv, this, List.range_succ]
  have e1 : cutClass l 1 (fun _ => k) 1 = highPart l k := by
    unfold cutClass highPart cutNo
    apply List.filter_congr
    intro v _
    by_cases hv : k < v.val
    · simp [hv, List.range_succ]
    · simp [hv, List.range_succ]
  unfold cutVar splitVar
  rw [show List.range (1 + 1) = [0, 1] from rfl]
  simp only [List.map_cons, List.map_nil, List.sum_cons, List.sum_nil, add_zero, e0, e1]

/-- **C82**, labels. Whenever the values returned by the search can be converted to pixels (`tv`: the thresholds, then
the variance) and one of them is not the minimum of the type, the output holds at each pixel the rank of the first value of `tv`
above the pixel, or the length of `tv` if there is none. Missing: this is not the number of thresholds below the pixel
(`C82_label_bug`), and the labels must fit in the output type. -/
theorem C82_labels_partial {t2 : PT} (auto : Bool) (raw : Nat → Px t2) (n K : Nat) (im : Img (Px t)) (dout : Dims)
    (ha : AcceptsD auto im.dims dout) (ht : t.signed = false ∨ t.bits ≤ 16) (m : List (Px t × Nat)) (hm : histMap false im = some m)
    (tv : List (Px t)) (htv : multiValues n K m = some tv) (hlen : (tv.length : Int) ≤ t2.hi) (hne : ∃ s ∈ tv, ⊥ < s) :
    ∃ out, otsuMulti auto raw n K im dout = some (tv, some out) ∧ out.dims = im.dims ∧
      ∀ p v, im.at? p = some v → ∃ w, out.at? p = some w ∧ w.val = (tv.findIdx fun s => decide (v < s) : Nat) := by
  obtain ⟨lut, hl, htab⟩ := multiLut_spec (t2 := t2) ht (tv := tv) (by omega) hne
  have hall : ∀ v : Px t, ∃ w, (v, w) ∈ lut := by
    intro v
    have : (lblOf tv v : Int) ≤ t2.hi := by
      have : lblOf tv v ≤ tv.length := List.findIdx_le_length
      omega
    exact ⟨⟨(lblOf tv v : Int), by have := t2.lo_nonpos; omega, this⟩, (htab.mem _ _).mpr ⟨trivial, rfl⟩⟩
  have hlne : lut ≠ [] := by
    rintro rfl
    obtain ⟨w, hw⟩ := hall ⊥
    simp at hw
  have hok : lut.Ok := by
    unfold LutMap.Ok
    rw [List.Nodup, List.pairwise_map]
    exact htab.sorted.imp fun h => h.ne
  have hlook : ∃ out, applyLookupMap auto raw lut (t2.wrap 0) im dout = .ok out ∧ IsLookup lut (t2.wrap 0) im out := by
    by_cases h8 : t = UINT8 ∨ t = UINT16
    · refine C12_table_partial auto raw lut hlne hok _ im dout ha h8 (Or.inl ?_)
      obtain ⟨w, hw⟩ := hall ⊤
      exact ⟨_, hw, Px.top_val⟩
    · exact C12_map auto raw lut hlne hok _ im dout ha (fun h => h8 (Or.inl h)) (fun h => h8 (Or.inr h))
  obtain ⟨out, ho, hod, hop⟩ := hlook
  refine ⟨out, ?_, hod, fun p v hv => ?_⟩
  · unfold otsuMulti
    rw [if_neg (by have := ha.1; have := ha.2.1; tauto), hm]
    simp only [Option.bind_eq_bind, Option.bind_some, htv, hl, ho]
    rfl
  · obtain ⟨w, hw, h1, -⟩ := hop p v hv
    obtain ⟨u, hu⟩ := hall v
    refine ⟨w, hw, ?_⟩
    rw [h1 _ hu rfl]
    exact ((htab.mem _ _).mp hu).2

/-- **C82**, refusal: with an image that is not allocated the vector is empty and nothing is written. -/
theorem C82_refused {t2 : PT} (auto : Bool) (raw : Nat → Px t2) (n K : Nat) (im : Img (Px t)) (dout : Dims)
    (h : im.dims.count = 0 ∨ dout.count = 0) : otsuMulti auto raw n K im dout = some ([], none) := if_pos h

/-- Without any threshold the loop never ends: `IncrementThresholds` returns `true` for ever, and changes nothing. -/
theorem C82_zero_bug (gm tot : ℚ) (s : MSt t) : multiInc gm tot 0 s = some s := rfl

/-- The labels are not the classes of the search: the threshold itself, which the search puts in the lower class, gets the label of the
class above, and the variance returned after the thresholds is taken for one more threshold. On `1, 2, 4` one
threshold, 2, makes the classes `1, 2` and `4`; the output has three labels. -/
theorem C82_label_bug :
    let im := im8 ⟨3, 1, 1⟩ [1, 2, 4]
    (histMap false im).bind (multiValues 255 1) = some [UINT8.wrap 2, UINT8.wrap 4] ∧
    im.vals.map (cutNo 1 fun _ => 2) = [0, 0, 1] ∧
    (otsuMulti (t2 := UINT8) false (fun _ => ⊥) 255 1 im ⟨3, 1, 1⟩).map (fun r => r.2.map fun o => o.vals.map Px.val) =
      some (some [0, 1, 2]) := by
  decide +kernel

/-- The variance is returned as a value of the pixel type, which cannot hold it. -/
theorem C82_variance_bug :
    ((histMap false (im8 ⟨3, 1, 1⟩ [0, 100, 255])).bind (multiValues 600 1)).isNone = true := by decide +kernel

/-- An image of zeros is not written at all: the table is empty and the error of `applyLookup` is not looked at. -/
theorem C82_zeros_bug :
    (otsuMulti (t2 := UINT8) false (fun _ => ⊥) 10 1 (im8 ⟨2, 1, 1⟩ [0, 0]) ⟨2, 1, 1⟩).map (fun r => (r.1, r.2.isSome)) =
      some ([⊥, ⊥], false) := by
  decide +kernel

/-- Two thresholds. -/
example :
    let im := im8 ⟨6, 1, 1⟩ [0, 1, 4, 5, 8, 9]
    ((histMap false im).map (multiSearch 100 2)).map (fun r => (r.1 0, r.1 1, r.2)) = some (1, 5, 64) ∧
    cutVar im.vals 2 (fun i => if i = 0 then 5 else 1) = 64 ∧ cutVar im.vals 2 (fun i => if i = 0 then 0 else 5) = 169 / 3 := by
  decide +kernel

end

end Smil
