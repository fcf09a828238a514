import Verif.HistogramLemmas
import Verif.PropsMeasures

/-!
# C15 and C16: histograms and thresholds
-/

namespace Smil

section
variable {t : PT}

/-- The values of the pixels where the mask is not zero. -/
def maskedVals (im mask : Img (Px t)) : List (Px t) :=
  (im.scan.filter fun e => match mask.at? e.1 with
    | some m => decide (m.val ≠ 0)
    | none => false).map Prod.snd

theorem kept_true (im : Img (Px t)) : kept im (fun _ => true) = im.vals := by
  rw [im.vals_eq]
  simp [kept]

theorem kept_mask (im mask : Img (Px t)) (h : mask.dims = im.dims) :
    kept im (fun i => nzPx (mask.buf i)) = maskedVals im mask := by
  unfold kept maskedVals
  rw [im.scan_eq, List.filter_map, List.map_map]
  have : (List.range im.dims.count).filter (fun i => nzPx (mask.buf i)) =
      (List.range im.dims.count).filter ((fun e : IntPoint × Px t => match mask.at? e.1 with
        | some m => decide (m.val ≠ 0)
        | none => false) ∘ fun i => (coordPt im.dims i, im.buf i)) := by
    apply List.filter_congr
    intro i hi
    rw [List.mem_range] at hi
    simp only [Function.comp_apply]
    have : mask.at? (coordPt im.dims i) = some (mask.buf i) := by
      have := (mask.mem_scan (coordPt im.dims i) (mask.buf i)).mp (by
        rw [mask.scan_eq, h]
        exact List.mem_map.mpr ⟨i, List.mem_range.mpr hi, rfl⟩)
      exact this
    rw [this]
    rfl
  rw [this]
  rfl

/-- The differences of values fit the type in which they are computed: always for 8 and 16 bits; for
wider types the values may not span the whole range of an unsigned type, or more than half of
that of a signed one. -/
def SpanOk (im : Img (Px t)) : Prop :=
  t.bits ≤ 16 ∨ (t.bits ≤ 32 ∧ ∀ p q u v, im.at? p = some u → im.at? q = some v →
    v.val - u.val < t.hi)

theorem SpanOk.cpp {im : Img (Px t)} (h : SpanOk im) {p q : IntPoint} {u v : Px t}
    (hu : im.at? p = some u) (hv : im.at? q = some v) (huv : u ≤ v) :
    t.cpp (v.val - u.val) = some (v.val - u.val) ∧
    t.cpp (v.val - u.val + 1) = some (v.val - u.val + 1) ∧ v.val - u.val + 1 < 2 ^ 64 := by
  have h0 := Px.le_iff.mp huv
  have h1 := u.lo_le
  have h2 := v.le_hi
  rcases h with hb | ⟨hb, h⟩
  · have := range_small hb
    exact ⟨cpp_small hb (by omega) (by omega), cpp_small hb (by omega) (by omega), by omega⟩
  · have := h p q u v hu hv
    have hl := t.lo_nonpos
    have h32 : t.hi < 2 ^ 32 := by
      unfold PT.hi
      have e1 : (2 ^ (t.bits - 1) : Nat) ≤ 2 ^ 32 := Nat.pow_le_pow_right (by omega) (by omega)
      have e2 : (2 ^ t.bits : Nat) ≤ 2 ^ 32 := Nat.pow_le_pow_right (by omega) hb
      split <;> omega
    exact ⟨cpp_of_mem (by omega) (by omega), cpp_of_mem (by omega) (by omega), by omega⟩

theorem count_kept (l : List (Px t)) (a : Px t) (j : Nat) (v : Px t) (h : v.val = a.val + j) :
    l.countP (fun w => decide (w.val = a.val + j)) = l.count v := by
  rw [List.count]
  apply List.countP_congr
  intro w _
  simp only [decide_eq_true_eq, beq_iff_eq, Px.ext_iff', h]

theorem histCore_spec (keep : Nat → Bool) (im : Img (Px t)) (h : im.dims.count ≠ 0)
    (hc : im.dims.count < 2 ^ 32) (hs : SpanOk im) :
    (∃ m, histCore keep false im = some m ∧
      IsTable (fun v => minValOf false im ≤ v ∧ v ≤ maxValOf false im)
        (fun v => (kept im keep).count v) m) ∧
    (t.signed = false ∨ t.bits ≤ 16 → maxValOf false im ≠ ⊥ →
      ∃ m, histCore keep true im = some m ∧
        IsTable (fun _ => True) (fun v => (kept im keep).count v) m) := by
  have hv : considered false im ≠ [] := by
    rw [considered_false]
    intro hn
    have := im.vals_length
    rw [hn] at this
    exact h this.symm
  obtain ⟨hx, -, hr⟩ := C17_extremes false im
  obtain ⟨⟨ha, ha'⟩, ⟨hb, hb'⟩⟩ := hx hv
  rw [if_neg h] at hr
  set a := minValOf false im
  set b := maxValOf false im
  have hmem : ∀ w, w ∈ im.vals → a ≤ w ∧ w ≤ b := by
    intro w hw
    rw [← considered_false] at hw
    exact ⟨ha' hw, hb' hw⟩
  obtain ⟨pa, hpa⟩ := ((mem_considered false im a).mp ha).1
  obtain ⟨pb, hpb⟩ := ((mem_considered false im b).mp hb).1
  have hab : a ≤ b := ha' hb
  obtain ⟨c1, c2, c3⟩ := hs.cpp hpa hpb hab
  have hab' := Px.le_iff.mp hab
  have hn : sizeT (b.val - a.val + 1) = (b.val - a.val + 1).toNat := sizeT_of (by omega) c3
  obtain ⟨buf, hbuf, hcnt⟩ := histLoop_spec (b.val - a.val + 1).toNat a im keep (by omega) (by
    intro i hi _
    have hw : im.buf i ∈ im.vals := by
      rw [im.vals_eq]; exact List.mem_map.mpr ⟨i, List.mem_range.mpr hi, rfl⟩
    obtain ⟨pw, hpw⟩ := (im.mem_vals _).mp hw
    obtain ⟨h1, h2⟩ := hmem _ hw
    have h1' := Px.le_iff.mp h1
    have h2' := Px.le_iff.mp h2
    exact ⟨(hs.cpp hpa hpw h1).1, by omega, by omega⟩)
  have hlen : (kept im keep).length < 2 ^ 32 := by
    unfold kept
    rw [List.length_map]
    have := List.length_filter_le keep (List.range im.dims.count)
    rw [List.length_range] at this
    omega
  have hg : ∀ v : Px t, a ≤ v → v ≤ b →
      buf (v.val - a.val).toNat % 2 ^ 32 = (kept im keep).count v := by
    intro v h1 _
    have h1' := Px.le_iff.mp h1
    rw [hcnt, count_kept _ a _ v (by omega)]
    apply Nat.mod_eq_of_lt
    exact lt_of_le_of_lt List.count_le_length hlen
  have hkmem : ∀ v, v ∈ kept im keep → a ≤ v ∧ v ≤ b := by
    intro v hv
    apply hmem
    rw [im.vals_eq]
    unfold kept at hv
    obtain ⟨i, hi, rfl⟩ := List.mem_map.mp hv
    exact List.mem_map.mpr ⟨i, (List.mem_filter.mp hi).1, rfl⟩
  have hzero : ∀ v, ¬ (a ≤ v ∧ v ≤ b) → (kept im keep).count v = 0 := by
    intro v hv
    exact List.count_eq_zero_of_not_mem fun hm => hv (hkmem v hm)
  constructor
  · have hm := midLoop_spec (fun v => (kept im keep).count v) a b (fun j => buf j % 2 ^ 32)
      (fun _ => False) [] (isTable_nil _) hg (b.val - a.val + 1).toNat (by omega)
    refine ⟨_, ?_, hm.congr fun v => ?_⟩
    · unfold histCore
      rw [hr]
      simp only [Option.bind_eq_bind, Option.bind_some, c1, c2, hn, hbuf]
      rfl
    · rw [Px.le_iff, Px.le_iff]
      simp only [false_or]
      omega
  · intro hs2 hbot
    obtain ⟨h0, hl0, ht0⟩ := lowLoop_spec (fun v => (kept im keep).count v) t.card.toNat ⊥ a []
      (by
        have := a.le_hi
        rw [Px.bot_val]
        unfold PT.card
        omega)
      (fun v hv => hzero v fun hc => absurd hc.1 (not_le.mpr hv)) bot_le
      ((isTable_nil _).congr fun v => by simp)
    have hm := midLoop_spec (fun v => (kept im keep).count v) a b (fun j => buf j % 2 ^ 32)
      _ h0 ht0 hg (b.val - a.val + 1).toNat (by omega)
    obtain ⟨h2, hl2, ht2⟩ := upLoop_spec hs2 (fun v => (kept im keep).count v) t.card.toNat b _
      (by
        have := b.lo_le
        unfold PT.card
        omega) hbot _ (by
        intro v hv
        have hv' := Px.lt_iff.mp hv
        by_cases hva : v < a
        · exact Or.inl hva
        · right
          exact ⟨not_lt.mp hva, by omega⟩) (by
        intro v hv
        apply hzero
        rintro ⟨q1, q2⟩
        apply hv
        right
        have := Px.le_iff.mp q2
        exact ⟨q1, by omega⟩) hm
    refine ⟨h2, ?_, ht2⟩
    unfold histCore
    rw [hr]
    simp only [Option.bind_eq_bind, Option.bind_some, c1, c2, hn, hbuf, if_true, hl0, hl2]

/-- The map gives, in increasing order, each value satisfying `P` once, with the number of its occurrences in
`l`; and the numbers add up to the length of `l`. -/
def IsHistogram (P : Px t → Prop) (l : List (Px t)) (m : List (Px t × Nat)) : Prop :=
  m.Pairwise (fun a b => a.1 < b.1) ∧ (∀ v n, (v, n) ∈ m ↔ P v ∧ n = l.count v) ∧
  (m.map Prod.snd).sum = l.length

theorem IsTable.isHistogram {P : Px t → Prop} {l : List (Px t)} {m : List (Px t × Nat)}
    (h : IsTable P (fun v => l.count v) m) (hl : ∀ v ∈ l, P v) : IsHistogram P l m := by
  refine ⟨h.1, h.2, sum_counts m l ?_ ?_ ?_⟩
  · rw [List.Nodup, List.pairwise_map]
    exact h.1.imp fun hab => hab.ne
  · rintro ⟨v, n⟩ he
    exact ((h.2 v n).mp he).2
  · intro v hv
    exact List.mem_map.mpr ⟨(v, l.count v), (h.2 _ _).mpr ⟨hl v hv, rfl⟩, rfl⟩

theorem vals_range (im : Img (Px t)) (v : Px t) (hv : v ∈ im.vals) :
    minValOf false im ≤ v ∧ v ≤ maxValOf false im := by
  rw [← considered_false] at hv
  obtain ⟨h1, h2⟩ := (C17_extremes false im).1 (List.ne_nil_of_mem hv)
  exact ⟨h1.2 hv, h2.2 hv⟩

/-- **C15**, the histogram as a map, over the range of the values of the image: every value between the
least and the greatest, with the number of pixels that have it. -/
theorem C15_map_partial (im : Img (Px t)) (h : im.dims.count ≠ 0) (hc : im.dims.count < 2 ^ 32)
    (hs : SpanOk im) :
    ∃ m, histMap false im = some m ∧
      IsHistogram (fun v => (∃ u ∈ im.vals, u ≤ v) ∧ ∃ u ∈ im.vals, v ≤ u) im.vals m := by
  obtain ⟨⟨m, h1, h2⟩, -⟩ := histCore_spec (fun _ => true) im h hc hs
  rw [kept_true] at h2
  have hv : considered false im ≠ [] := by
    rw [considered_false]
    intro hn
    have := im.vals_length
    rw [hn] at this
    exact h this.symm
  obtain ⟨ha, hb⟩ := (C17_extremes false im).1 hv
  rw [considered_false] at ha hb
  refine ⟨m, h1, (h2.congr fun v => ?_).isHistogram ?_⟩
  · constructor
    · rintro ⟨q1, q2⟩
      exact ⟨⟨_, ha.1, q1⟩, ⟨_, hb.1, q2⟩⟩
    · rintro ⟨⟨u, hu, q1⟩, ⟨w, hw, q2⟩⟩
      exact ⟨le_trans (ha.2 hu) q1, le_trans q2 (hb.2 hw)⟩
  · intro v hv
    exact ⟨⟨v, hv, le_rfl⟩, ⟨v, hv, le_rfl⟩⟩

/-- **C15**, full range: one entry for each value of the type. Missing: images whose pixels are all at
the minimum of the type (`C15_fullrange_bug`). -/
theorem C15_full_partial (im : Img (Px t)) (h : im.dims.count ≠ 0) (hc : im.dims.count < 2 ^ 32)
    (hs : SpanOk im) (ht : t.signed = false ∨ t.bits ≤ 16) (hne : ∃ p v, im.at? p = some v ∧ v ≠ ⊥) :
    ∃ m, histMap true im = some m ∧ IsHistogram (fun _ => True) im.vals m := by
  obtain ⟨p, v, hp, hv⟩ := hne
  obtain ⟨-, hfull⟩ := histCore_spec (fun _ => true) im h hc hs
  have hb : maxValOf false im ≠ ⊥ := by
    intro hb
    have := (vals_range im v ((im.mem_vals v).mpr ⟨p, hp⟩)).2
    rw [hb, le_bot_iff] at this
    exact hv this
  obtain ⟨m, h1, h2⟩ := hfull ht hb
  rw [kept_true] at h2
  exact ⟨m, h1, h2.isHistogram fun _ _ => trivial⟩

/-- **C15**, with a mask: only the pixels where the mask is not zero are counted; the entries are those of
the range of the whole image. -/
theorem C15_mask_partial (im mask : Img (Px t)) (hd : mask.dims = im.dims) (h : im.dims.count ≠ 0)
    (hc : im.dims.count < 2 ^ 32) (hs : SpanOk im) :
    (∃ m, histMapMask false im mask = some m ∧
      IsHistogram (fun v => (∃ u ∈ im.vals, u ≤ v) ∧ ∃ u ∈ im.vals, v ≤ u) (maskedVals im mask) m) ∧
    (t.signed = false ∨ t.bits ≤ 16 → (∃ p v, im.at? p = some v ∧ v ≠ ⊥) →
      ∃ m, histMapMask true im mask = some m ∧
        IsHistogram (fun _ => True) (maskedVals im mask) m) := by
  obtain ⟨⟨m, h1, h2⟩, hfull⟩ := histCore_spec (fun i => nzPx (mask.buf i)) im h hc hs
  rw [kept_mask im mask hd] at h2 hfull
  have hv : considered false im ≠ [] := by
    rw [considered_false]
    intro hn
    have := im.vals_length
    rw [hn] at this
    exact h this.symm
  obtain ⟨ha, hb⟩ := (C17_extremes false im).1 hv
  rw [considered_false] at ha hb
  constructor
  · refine ⟨m, by unfold histMapMask; rw [if_pos ⟨h, hd⟩]; exact h1,
      (h2.congr fun v => ?_).isHistogram ?_⟩
    · constructor
      · rintro ⟨q1, q2⟩
        exact ⟨⟨_, ha.1, q1⟩, ⟨_, hb.1, q2⟩⟩
      · rintro ⟨⟨u, hu, q1⟩, ⟨w, hw, q2⟩⟩
        exact ⟨le_trans (ha.2 hu) q1, le_trans q2 (hb.2 hw)⟩
    · intro v hv
      have : v ∈ im.vals := by
        unfold maskedVals at hv
        obtain ⟨e, he, rfl⟩ := List.mem_map.mp hv
        exact List.mem_map.mpr ⟨e, (List.mem_filter.mp he).1, rfl⟩
      exact ⟨⟨v, this, le_rfl⟩, ⟨v, this, le_rfl⟩⟩
  · rintro ht ⟨p, v, hp, hv⟩
    have hb : maxValOf false im ≠ ⊥ := by
      intro hb
      have := (vals_range im v ((im.mem_vals v).mpr ⟨p, hp⟩)).2
      rw [hb, le_bot_iff] at this
      exact hv this
    obtain ⟨m, h1, h2⟩ := hfull ht hb
    exact ⟨m, by unfold histMapMask; rw [if_pos ⟨h, hd⟩]; exact h1, h2.isHistogram fun _ _ => trivial⟩

/-- **C15**, the array: for the 8 and 16 bit types, cell `j` counts the pixels of value `min + j`; with a mask of
another size the call is refused. -/
theorem C15_array (hb : t.bits ≤ 16) (im mask : Img (Px t)) :
    (∃ h, histArr im = some h ∧ ∀ v : Px t, h (v.val - t.lo).toNat = im.vals.count v) ∧
    (im.dims.count ≠ 0 → mask.dims = im.dims → ∃ h, histArrMask im mask = some (.ok h) ∧
      ∀ v : Px t, h (v.val - t.lo).toNat = (maskedVals im mask).count v) ∧
    (mask.dims ≠ im.dims → histArrMask im mask = some (.error (-100))) := by
  have hr := range_small hb
  have hl := t.lo_le_hi
  have hcard : cardT t = some (t.hi - t.lo + 1).toNat := by
    unfold cardT
    rw [cpp_small hb (by omega) (by omega)]
    simp only [Option.bind_eq_bind, Option.bind_some]
    rw [cpp_small hb (by omega) (by omega)]
    simp only [Option.bind_some]
    rw [sizeT_of (by omega) (by omega)]
    rfl
  have hloop : ∀ keep, ∃ h, histLoop (t.hi - t.lo + 1).toNat (⊥ : Px t) im keep = some h ∧
      ∀ v : Px t, h (v.val - t.lo).toNat = (kept im keep).count v := by
    intro keep
    obtain ⟨h, h1, h2⟩ := histLoop_spec (t.hi - t.lo + 1).toNat (⊥ : Px t) im keep (by omega) (by
      intro i _ _
      have q1 := (im.buf i).lo_le
      have q2 := (im.buf i).le_hi
      rw [Px.bot_val]
      exact ⟨cpp_small hb (by omega) (by omega), by omega, by omega⟩)
    refine ⟨h, h1, fun v => ?_⟩
    have := v.lo_le
    rw [h2, count_kept _ ⊥ _ v (by rw [Px.bot_val]; omega)]
  refine ⟨?_, fun hne hd => ?_, fun hd => ?_⟩
  · obtain ⟨h, h1, h2⟩ := hloop fun _ => true
    rw [kept_true] at h2
    refine ⟨h, ?_, h2⟩
    unfold histArr
    rw [hcard]
    exact h1
  · obtain ⟨h, h1, h2⟩ := hloop fun i => nzPx (mask.buf i)
    rw [kept_mask im mask hd] at h2
    refine ⟨h, ?_, h2⟩
    unfold histArrMask
    rw [if_pos ⟨hne, hd⟩, hcard]
    simp only [Option.bind_eq_bind, Option.bind_some, h1]
    rfl
  · unfold histArrMask
    rw [if_neg (by tauto)]

/-- **C15**, bins: on an unsigned type each non-empty bin `[k b, (k + 1) b)` of width `b = max(binSize, 1)` is
reported once, with the number of pixels in it. -/
theorem C15_bins_partial (hs : t.signed = false) (h1 : 1 ≤ t.hi) (bin : Px t) (im : Img (Px t)) :
    let b := max bin.val 1
    (histBins bin im).Pairwise (fun x y => x.1 < y.1) ∧
    (∀ k n, (k, n) ∈ histBins bin im ↔ 0 < n ∧
      n = im.vals.countP fun v => decide (k * b ≤ v.val ∧ v.val < (k + 1) * b)) ∧
    ((histBins bin im).map Prod.snd).sum = im.vals.length := by
  intro b
  have hlo := lo_unsigned hs
  have hw : (t.wrap 1).val = 1 := t.wrap_of_mem (by omega) h1
  have hmax : (max bin (t.wrap 1)).val = b := by
    rcases le_total bin (t.wrap 1) with h | h
    · rw [max_eq_right h, hw]
      have := Px.le_iff.mp h
      rw [hw] at this
      exact (max_eq_right this).symm
    · rw [max_eq_left h]
      have := Px.le_iff.mp h
      rw [hw] at this
      exact (max_eq_left this).symm
  have hb : 0 < b := lt_of_lt_of_le Int.zero_lt_one (le_max_right _ _)
  have hIs : IsCount (histBins bin im) (im.vals.map fun v => v.val / b) := by
    unfold histBins
    rw [im.vals_eq]
    split
    · rename_i h0; rw [h0]; exact isCount_nil
    · have key : ∀ n, IsCount ((List.range n).foldl
          (fun m i => mapIncr (Int.tdiv (im.buf i).val (max bin (t.wrap 1)).val) m) [])
          (((List.range n).map im.buf).map fun v => v.val / b) := by
        intro n
        induction n with
        | zero => exact isCount_nil
        | succ n ih =>
          rw [List.range_succ, List.foldl_append, List.map_append, List.map_append]
          have h0 := (im.buf n).lo_le
          have : Int.tdiv (im.buf n).val (max bin (t.wrap 1)).val = (im.buf n).val / b := by
            rw [hmax, Int.tdiv_eq_ediv_of_nonneg (by omega)]
          simp only [List.foldl_cons, List.foldl_nil, this]
          exact ih.incr _
      exact key _
  have hdiv : ∀ (k : Int) (v : Px t), v.val / b = k ↔ k * b ≤ v.val ∧ v.val < (k + 1) * b := by
    intro k v
    constructor
    · rintro rfl
      exact ⟨Int.ediv_mul_le _ hb.ne', Int.lt_ediv_add_one_mul_self _ hb⟩
    · rintro ⟨q1, q2⟩
      apply le_antisymm
      · exact Int.lt_add_one_iff.mp ((Int.ediv_lt_iff_lt_mul hb).mpr q2)
      · exact (Int.le_ediv_iff_mul_le hb).mpr q1
  refine ⟨hIs.1, fun k n => ?_, ?_⟩
  · rw [hIs.2]
    have hcount : (im.vals.map fun v => v.val / b).count k =
        im.vals.countP fun v => decide (k * b ≤ v.val ∧ v.val < (k + 1) * b) := by
      rw [List.count, List.countP_map]
      apply List.countP_congr
      intro v _
      simp only [Function.comp_apply, beq_iff_eq, decide_eq_true_eq, hdiv]
    rw [hcount]
    constructor
    · rintro ⟨q1, rfl⟩
      refine ⟨?_, rfl⟩
      rw [← hcount]
      exact List.count_pos_iff.mpr q1
    · rintro ⟨q1, rfl⟩
      refine ⟨?_, rfl⟩
      rw [← hcount] at q1
      exact List.count_pos_iff.mp q1
  · rw [hIs.total]
    simp

/-- The full range histogram of an image of zeros has a single entry. -/
theorem C15_fullrange_bug :
    histMap true (im8 ⟨2, 1, 1⟩ [0, 0]) = some [(UINT8.wrap 0, 2)] := by decide +kernel

/-- The histogram of an image that is not allocated reads an empty vector. -/
theorem C15_unallocated_bug (im : Img (Px t)) (h : im.dims.count = 0) (full : Bool) :
    histMap full im = none := by
  unfold histMap histCore rangeValOf measRun
  rw [if_pos h]
  rfl

/-- A 32 bit image with pixels at both ends of the range writes out of bounds. -/
theorem C15_wide_bug :
    histMap false (⟨⟨2, 1, 1⟩, fun i => if i = 0 then ⊥ else ⊤⟩ : Img (Px UINT32)) = none ∧
    histMap false (⟨⟨2, 1, 1⟩, fun i => if i = 0 then ⊥ else ⊤⟩ : Img (Px INT32)) = none := by
  decide +kernel

/-- The bin of zero of a signed image is twice as wide as the others. -/
theorem C15_signed_bins_bug :
    histBins (INT8.wrap 10) (⟨⟨4, 1, 1⟩, fun i => [INT8.wrap (-9), INT8.wrap (-1), INT8.wrap 0,
      INT8.wrap 9].getD i ⊥⟩ : Img (Px INT8)) = [(0, 4)] := by
  decide +kernel

example : histMap false (im8 ⟨3, 2, 1⟩ [4, 6, 4, 7, 4, 6]) =
    some [(UINT8.wrap 4, 3), (UINT8.wrap 5, 0), (UINT8.wrap 6, 2), (UINT8.wrap 7, 1)] := by
  decide +kernel

example : histMapMask false (im8 ⟨3, 2, 1⟩ [4, 6, 4, 7, 4, 6]) (im8 ⟨3, 2, 1⟩ [1, 1, 0, 0, 1, 0]) =
    some [(UINT8.wrap 4, 2), (UINT8.wrap 5, 0), (UINT8.wrap 6, 1), (UINT8.wrap 7, 0)] := by
  decide +kernel

example : SpanOk (im8 ⟨3, 2, 1⟩ [4, 6, 4, 7, 4, 6]) := Or.inl (by decide)

example : histBins (UINT8.wrap 2) (im8 ⟨3, 2, 1⟩ [4, 6, 5, 7, 4, 60]) = [(2, 3), (3, 2), (30, 1)] := by
  decide +kernel

/-! ### Thresholds -/

variable {t2 : PT}

theorem thrCore_spec (auto : Bool) (im : Img (Px t)) (lo hi : Px t) (tv fv : Px t2) (dout : Dims)
    (ha : AcceptsD auto im.dims dout) :
    ∃ out, thrCore auto im lo hi tv fv dout = .ok out ∧ out.dims = im.dims ∧
      ∀ p v, im.at? p = some v →
        out.at? p = some (if lo.val ≤ v.val ∧ v.val ≤ hi.val then tv else fv) := by
  refine ⟨⟨im.dims, fun i => kThresh lo hi tv fv (im.buf i)⟩, ?_, rfl, ?_⟩
  · unfold thrCore
    rw [checkDims_ok ha]
  · intro p v hp
    have hin := im.at?_eq_some_in p v hp
    have hv : im.buf (offOf im.dims p) = v := by
      have := Img.at?_some im p hin
      rw [hp] at this
      exact (Option.some.inj this).symm
    rw [Img.at?_some (⟨im.dims, fun i => kThresh lo hi tv fv (im.buf i)⟩ : Img (Px t2)) p hin, ← hv]
    rfl

/-- **C16**, thresholds in order: the true value between the two thresholds, both included (the documentation
excludes the second one), the false value elsewhere; for all types, sizes and values. The call is refused exactly when the
sizes are not acceptable. -/
theorem C16_threshold (auto : Bool) (im : Img (Px t)) (lo hi : Px t) (hle : lo ≤ hi) (tv fv : Px t2)
    (dout : Dims) :
    (AcceptsD auto im.dims dout →
      ∃ out, threshold auto im lo hi tv fv dout = .ok out ∧ out.dims = im.dims ∧
        ∀ p v, im.at? p = some v →
          out.at? p = some (if lo.val ≤ v.val ∧ v.val ≤ hi.val then tv else fv)) ∧
    (¬ AcceptsD auto im.dims dout → ∃ c, threshold auto im lo hi tv fv dout = .error c) := by
  unfold threshold
  rw [if_neg (not_lt.mpr hle)]
  refine ⟨thrCore_spec auto im lo hi tv fv dout, fun ha => ?_⟩
  unfold thrCore checkDims
  unfold AcceptsD at ha
  split
  · rename_i c _; exact ⟨c, rfl⟩
  · rename_i hc
    exfalso
    apply ha
    split at hc
    · cases hc
    · rename_i h0
      push Not at h0
      refine ⟨h0.1, h0.2, ?_⟩
      split at hc
      · rename_i h1; exact Or.inl h1
      · split at hc
        · rename_i h2; exact Or.inr h2
        · cases hc

/-- **C16**, thresholds in reverse order: the true value strictly below the smaller or strictly above the greater one. Missing:
the thresholds themselves, which belong to both of the ranges (`C16_reversed_bug`). -/
theorem C16_reversed_partial (auto : Bool) (im : Img (Px t)) (lo hi : Px t) (hlt : hi < lo)
    (tv fv : Px t2) (dout : Dims) (ha : AcceptsD auto im.dims dout) :
    ∃ out, threshold auto im lo hi tv fv dout = .ok out ∧ out.dims = im.dims ∧
      ∀ p v, im.at? p = some v →
        out.at? p = some (if v.val < hi.val ∨ lo.val < v.val then tv else fv) := by
  unfold threshold
  rw [if_pos hlt]
  obtain ⟨out, h1, h2, h3⟩ := thrCore_spec auto im hi lo fv tv dout ha
  refine ⟨out, h1, h2, fun p v hp => ?_⟩
  rw [h3 p v hp]
  congr 1
  by_cases hc : hi.val ≤ v.val ∧ v.val ≤ lo.val
  · rw [if_pos hc, if_neg (by omega)]
  · rw [if_neg hc, if_pos (by omega)]

/-- **C16**, shorter forms: the extreme values of the output type; with one threshold, the values at or above
it. -/
theorem C16_overloads (auto : Bool) (im : Img (Px t)) (lo hi : Px t) (hle : lo ≤ hi) (dout : Dims)
    (ha : AcceptsD auto im.dims dout) :
    (∃ out : Img (Px t2), threshold2 auto im lo hi dout = .ok out ∧ out.dims = im.dims ∧
      ∀ p v, im.at? p = some v →
        out.at? p = some (if lo.val ≤ v.val ∧ v.val ≤ hi.val then ⊤ else ⊥)) ∧
    (∃ out : Img (Px t2), threshold1 auto im lo dout = .ok out ∧ out.dims = im.dims ∧
      ∀ p v, im.at? p = some v → out.at? p = some (if lo.val ≤ v.val then ⊤ else ⊥)) := by
  refine ⟨(C16_threshold auto im lo hi hle ⊤ ⊥ dout).1 ha, ?_⟩
  obtain ⟨out, h1, h2, h3⟩ := (C16_threshold (t2 := t2) auto im lo ⊤ le_top ⊤ ⊥ dout).1 ha
  refine ⟨out, h1, h2, fun p v hp => ?_⟩
  rw [h3 p v hp]
  have := v.le_hi
  simp [this]

/-- A pixel equal to one of two reversed thresholds is outside of the wrapped range on both sides: with
thresholds 200 and 50 the pixel 200, at the first one, is not selected. -/
theorem C16_reversed_bug :
    (threshold false (im8 ⟨3, 1, 1⟩ [200, 50, 201]) (UINT8.wrap 200) (UINT8.wrap 50) (UINT8.wrap 1)
      (UINT8.wrap 0) ⟨3, 1, 1⟩).toOption.map Img.vals = some [UINT8.wrap 0, UINT8.wrap 0, UINT8.wrap 1] := by
  decide +kernel

example :
    (threshold false (im8 ⟨4, 1, 1⟩ [9, 10, 20, 21]) (UINT8.wrap 10) (UINT8.wrap 20) (UINT8.wrap 1)
      (UINT8.wrap 0) ⟨4, 1, 1⟩).toOption.map Img.vals =
      some [UINT8.wrap 0, UINT8.wrap 1, UINT8.wrap 1, UINT8.wrap 0] := by
  decide +kernel

end

end Smil
