import Verif.PropsStretch

/-!
# C81: range of the histogram and contrast
-/

namespace Smil

section
variable {t : PT}

/-! ### Specification -/

/-- `L` is the last value that can be ignored when one starts from `a` and stops before `b`, as long as `Q` allows it; `a` if
none can. -/
def LeftEnd (Q : Int → Prop) (a b L : Int) : Prop :=
  (L = a ∧ (a < b → ¬ Q a)) ∨ (a ≤ L ∧ L < b ∧ (∀ j, a ≤ j → j ≤ L → Q j) ∧ (L + 1 < b → ¬ Q (L + 1)))

/-- The same from `b` down to `a`. -/
def RightEnd (Q : Int → Prop) (a b R : Int) : Prop :=
  (R = b ∧ (a < b → ¬ Q b)) ∨ (a < R ∧ R ≤ b ∧ (∀ j, R ≤ j → j ≤ b → Q j) ∧ (a < R - 1 → ¬ Q (R - 1)))

/-- Number of the pixels of value at most `i`, at least `i`, equal to `i`. -/
def nLe (im : Img (Px t)) (i : Int) : Nat := im.vals.countP fun v => decide (v.val ≤ i)
def nGe (im : Img (Px t)) (i : Int) : Nat := im.vals.countP fun v => decide (i ≤ v.val)
def nEq (im : Img (Px t)) (i : Int) : Nat := im.vals.countP fun v => decide (v.val = i)

theorem countP_zero_of (l : List (Px t)) (P : Px t → Bool) (h : ∀ v ∈ l, P v = false) : l.countP P = 0 := by
  rw [List.countP_eq_zero]
  intro v hv
  simp [h v hv]

theorem histRange_run (hs : t.signed = false) (hb : t.bits ≤ 16) (im : Img (Px t)) (percent : ℚ) (cum : Bool)
    {a b : Px t} (hr : IsRange im a b) (vol : Nat)
    (hvol : vol = if cum then im.dims.count else ((List.range (t.hi + 1).toNat).map fun (i : Nat) => nEq im i).foldl max 0) :
    ∃ L R, histogramRange im percent cum = some (some (L, R)) ∧
      LeftEnd (fun i => ((if cum then nLe im i else nEq im i : Nat) : ℚ) ≤ vol * percent / 100) a.val b.val L.val ∧
      RightEnd (fun i => ((if cum then nGe im i else nEq im i : Nat) : ℚ) ≤ vol * percent / 100) a.val b.val R.val := by
  obtain ⟨hc, hrv⟩ := range_of_isRange hr
  have h0 := lo_unsigned hs
  have hl := t.lo_le_hi
  have hrs := range_small hb
  obtain ⟨h, hh, hcell⟩ := (C15_array hb im im).1
  have hcell' : ∀ j : Nat, j < (t.hi + 1).toNat → h j = nEq im j := by
    intro j hj
    have := hcell ⟨(j : Int), by omega, by omega⟩
    rw [count_countP] at this
    simp only [h0, sub_zero, Int.toNat_natCast] at this
    exact this
  have hab : a ≤ b := by
    obtain ⟨p, hp⟩ := hr.1
    exact (hr.2.2 p a hp).2
  have hab' := Px.le_iff.mp hab
  have a1 := a.lo_le
  have b2 := b.le_hi
  have hmin : ∀ v ∈ im.vals, a.val ≤ v.val ∧ v.val ≤ b.val := by
    intro v hv
    obtain ⟨p, hp⟩ := (im.mem_vals v).mp hv
    have := hr.2.2 p v hp
    exact ⟨Px.le_iff.mp this.1, Px.le_iff.mp this.2⟩
  have hvol' : (if cum then im.dims.count else ((List.range (t.hi - t.lo + 1).toNat).map h).foldl max 0) = vol := by
    rw [hvol]
    cases cum
    · simp only [h0, sub_zero]
      have : (List.range (t.hi + 1).toNat).map h = (List.range (t.hi + 1).toNat).map fun (i : Nat) => nEq im i := by
        apply List.map_congr_left
        intro i hi
        exact hcell' i (List.mem_range.mp hi)
      rw [this]
    · rfl
  have ea : sizeT a.val = a.val.toNat := sizeT_of (by omega) (by omega)
  have eb : sizeT b.val = b.val.toNat := sizeT_of (by omega) (by omega)
  -- the left loop
  obtain ⟨L, hL, hL2⟩ := histLeft_spec (t := t) (t.hi - t.lo + 1).toNat h cum ((vol : ℚ) * percent / 100)
    (fun i => ((if cum then nLe im i else nEq im i : Nat) : ℚ)) (b.val.toNat - a.val.toNat) a.val.toNat 0 a
    (by omega)
    (by
      intro _
      rw [hcell' _ (by omega)]
      cases cum
      · simp
      · simp only [if_true, zero_add]
        congr 1
        have e := countP_le_succ im.vals (a.val - 1)
        rw [countP_zero_of im.vals (fun v => decide (v.val ≤ a.val - 1)) (by
          intro v hv
          have := (hmin v hv).1
          simp only [decide_eq_false_iff_not]; omega), zero_add, sub_add_cancel] at e
        unfold nLe nEq
        rw [Int.toNat_of_nonneg (by omega)]
        exact e.symm)
    (by
      intro j hj hj2
      rw [hcell' _ (by omega)]
      cases cum
      · simp
      · simp only [if_true]
        have e := countP_le_succ im.vals j
        unfold nLe nEq
        push_cast at e ⊢
        exact_mod_cast e)
  obtain ⟨R, hR, hR2⟩ := histRight_spec (t := t) (t.hi - t.lo + 1).toNat h cum ((vol : ℚ) * percent / 100)
    (fun i => ((if cum then nGe im i else nEq im i : Nat) : ℚ)) (b.val.toNat - a.val.toNat) b.val.toNat 0 b
    (by omega) (by omega)
    (by
      intro _
      rw [hcell' _ (by omega)]
      cases cum
      · simp
      · simp only [if_true, zero_add]
        congr 1
        have e := countP_ge_succ im.vals b.val
        rw [countP_zero_of im.vals (fun v => decide (b.val + 1 ≤ v.val)) (by
          intro v hv
          have := (hmin v hv).2
          simp only [decide_eq_false_iff_not]; omega), zero_add] at e
        unfold nGe nEq
        rw [Int.toNat_of_nonneg (by omega)]
        exact e.symm)
    (by
      intro j hj hj2
      rw [hcell' _ (by omega)]
      cases cum
      · simp
      · simp only [if_true]
        have e := countP_ge_succ im.vals j
        unfold nGe nEq
        push_cast at e ⊢
        exact_mod_cast e)
  refine ⟨L, R, ?_, ?_, ?_⟩
  · unfold histogramRange
    rw [if_neg hc]
    simp only [cardT_small hb, hh, hrv, Option.bind_eq_bind, Option.bind_some, hvol', ea, eb, hL, hR]
    rfl
  · clear hR2
    rcases hL2 with ⟨e, f⟩ | ⟨m, m1, m2, m3, m4, m5⟩
    · left
      refine ⟨by rw [e], fun hlt => ?_⟩
      have := f (by omega)
      simp only [Int.toNat_of_nonneg (show 0 ≤ a.val by omega)] at this
      exact not_le.mpr this
    · right
      have em : L.val = m := by rw [m3, t.wrap_of_mem (by omega) (by omega)]
      refine ⟨by omega, by omega, fun j h1 h2 => ?_, fun h1 => ?_⟩
      · have := m4 j.toNat (by omega) (by omega)
        simp only [Int.toNat_of_nonneg (show 0 ≤ j by omega)] at this
        exact this
      · have := m5 (by omega)
        simp only [Nat.cast_add, Nat.cast_one] at this
        rw [em]
        exact not_le.mpr this
  · clear hL2
    rcases hR2 with ⟨e, f⟩ | ⟨m, m1, m2, m3, m4, m5⟩
    · left
      refine ⟨by rw [e], fun hlt => ?_⟩
      have := f (by omega)
      simp only [Int.toNat_of_nonneg (show 0 ≤ b.val by omega)] at this
      exact not_le.mpr this
    · right
      have em : R.val = m := by rw [m3, t.wrap_of_mem (by omega) (by omega)]
      refine ⟨by omega, by omega, fun j h1 h2 => ?_, fun h1 => ?_⟩
      · have := m4 j.toNat (by omega) (by omega)
        simp only [Int.toNat_of_nonneg (show 0 ≤ j by omega)] at this
        exact this
      · have := m5 (by omega) (by omega)
        rw [show ((m - 1 : Nat) : Int) = (m : Int) - 1 by omega] at this
        rw [em]
        exact not_le.mpr this

/-! ### C81 -/

/-- **C81**, cumulative: on an unsigned 8 or 16 bit image, `histogramRange` returns the last value `L` such that at most
`percent` % of the pixels are not above it, before the maximum of the image, and the least value `R` such that at most `percent` % of
them are not below it, after the minimum; the minimum and the maximum themselves if there are none. -/
theorem C81_range_partial (hs : t.signed = false) (hb : t.bits ≤ 16) (im : Img (Px t)) (percent : ℚ) (a b : Px t)
    (hr : IsRange im a b) :
    ∃ L R, histogramRange im percent true = some (some (L, R)) ∧
      LeftEnd (fun i => (nLe im i : ℚ) ≤ im.vals.length * percent / 100) a.val b.val L.val ∧
      RightEnd (fun i => (nGe im i : ℚ) ≤ im.vals.length * percent / 100) a.val b.val R.val := by
  rw [im.vals_length]
  exact histRange_run hs hb im percent true hr _ rfl

/-- **C81**, not cumulative: the same with the number of pixels of each value, compared to the largest of these numbers. -/
theorem C81_peak_partial (hs : t.signed = false) (hb : t.bits ≤ 16) (im : Img (Px t)) (percent : ℚ) (a b : Px t)
    (hr : IsRange im a b) :
    ∃ m : Nat, (∀ v : Px t, im.vals.count v ≤ m) ∧ (∃ v : Px t, im.vals.count v = m) ∧
    ∃ L R, histogramRange im percent false = some (some (L, R)) ∧
      LeftEnd (fun i => (nEq im i : ℚ) ≤ m * percent / 100) a.val b.val L.val ∧
      RightEnd (fun i => (nEq im i : ℚ) ≤ m * percent / 100) a.val b.val R.val := by
  have h0 := lo_unsigned hs
  have hl := t.hi_nonneg
  obtain ⟨h1, -, h3⟩ := foldl_max_spec ((List.range (t.hi + 1).toNat).map fun (i : Nat) => nEq im i) 0
  refine ⟨_, ?_, ?_, histRange_run hs hb im percent false hr _ rfl⟩
  · intro v
    have v1 := v.lo_le
    have v2 := v.le_hi
    simp only [Bool.false_eq_true, if_false]
    apply h1
    rw [List.mem_map]
    refine ⟨v.val.toNat, List.mem_range.mpr (by omega), ?_⟩
    rw [count_countP, Int.toNat_of_nonneg (by omega)]
    rfl
  · simp only [Bool.false_eq_true, if_false]
    rcases h3 with h3 | h3
    · refine ⟨⊥, ?_⟩
      have := h1 (nEq im 0) (by
        rw [List.mem_map]
        exact ⟨0, List.mem_range.mpr (by omega), rfl⟩)
      rw [h3] at this ⊢
      rw [count_countP, Px.bot_val, h0]
      exact Nat.le_zero.mp this
    · rw [List.mem_map] at h3
      obtain ⟨i, hi, he⟩ := h3
      rw [List.mem_range] at hi
      refine ⟨⟨i, by omega, by omega⟩, ?_⟩
      rw [count_countP]
      exact he

/-- **C81**, what is ignored: the range is inside that of the image, and each side leaves out at most `percent` % of the pixels. -/
theorem C81_ignored_partial (hs : t.signed = false) (hb : t.bits ≤ 16) (im : Img (Px t)) (percent : ℚ) (h0 : 0 ≤ percent)
    (a b : Px t) (hr : IsRange im a b) :
    ∃ L R, histogramRange im percent true = some (some (L, R)) ∧ a ≤ L ∧ L ≤ b ∧ a ≤ R ∧ R ≤ b ∧
      ((im.vals.countP fun v => decide (v < L) : Nat) : ℚ) * 100 ≤ im.vals.length * percent ∧
      ((im.vals.countP fun v => decide (R < v) : Nat) : ℚ) * 100 ≤ im.vals.length * percent := by
  obtain ⟨L, R, h1, hL, hR⟩ := C81_range_partial hs hb im percent a b hr
  have hab : a ≤ b := by
    obtain ⟨p, hp⟩ := hr.1
    exact (hr.2.2 p a hp).2
  have hab' := Px.le_iff.mp hab
  have hpos : (0 : ℚ) ≤ im.vals.length * percent := by positivity
  refine ⟨L, R, h1, ?_, ?_, ?_, ?_, ?_, ?_⟩
  · apply Px.le_iff.mpr; rcases hL with h | h <;> omega
  · apply Px.le_iff.mpr; rcases hL with h | h <;> omega
  · apply Px.le_iff.mpr; rcases hR with h | h <;> omega
  · apply Px.le_iff.mpr; rcases hR with h | h <;> omega
  · rcases hL with ⟨e, -⟩ | ⟨l1, l2, l3, -⟩
    · rw [countP_zero_of]
      · simpa using hpos
      · intro v hv
        obtain ⟨p, hp⟩ := (im.mem_vals v).mp hv
        have := Px.le_iff.mp (hr.2.2 p v hp).1
        simp only [decide_eq_false_iff_not, not_lt]
        exact Px.le_iff.mpr (by omega)
    · have q := l3 L.val l1 (le_refl _)
      have hle : (im.vals.countP fun v => decide (v < L)) ≤ nLe im L.val := by
        apply List.countP_mono_left
        intro v _ hv
        simp only [decide_eq_true_eq] at hv ⊢
        have := Px.lt_iff.mp hv
        omega
      have hle' : ((im.vals.countP fun v => decide (v < L) : Nat) : ℚ) ≤ (nLe im L.val : ℚ) := by exact_mod_cast hle
      linarith
  · rcases hR with ⟨e, -⟩ | ⟨l1, l2, l3, -⟩
    · rw [countP_zero_of]
      · simpa using hpos
      · intro v hv
        obtain ⟨p, hp⟩ := (im.mem_vals v).mp hv
        have := Px.le_iff.mp (hr.2.2 p v hp).2
        simp only [decide_eq_false_iff_not, not_lt]
        exact Px.le_iff.mpr (by omega)
    · have q := l3 R.val (le_refl _) l2
      have hle : (im.vals.countP fun v => decide (R < v)) ≤ nGe im R.val := by
        apply List.countP_mono_left
        intro v _ hv
        simp only [decide_eq_true_eq] at hv ⊢
        have := Px.lt_iff.mp hv
        omega
      have hle' : ((im.vals.countP fun v => decide (R < v) : Nat) : ℚ) ≤ (nGe im R.val : ℚ) := by exact_mod_cast hle
      linarith

theorem nLe_add_nGe (im : Img (Px t)) {i j : Int} (h : j ≤ i) : im.vals.length ≤ nLe im i + nGe im j := by
  unfold nLe nGe
  generalize im.vals = l
  induction l with
  | nil => simp
  | cons a l ih =>
    simp only [List.length_cons, List.countP_cons, decide_eq_true_eq]
    split_ifs <;> omega

/-- Below 50 % the range of an image that is not constant is not empty. -/
theorem C81_proper_partial (hs : t.signed = false) (hb : t.bits ≤ 16) (im : Img (Px t)) (percent : ℚ) (h0 : 0 ≤ percent)
    (h50 : percent < 50) (a b : Px t) (hr : IsRange im a b) (hab : a ≠ b) :
    ∃ L R, histogramRange im percent true = some (some (L, R)) ∧ a ≤ L ∧ L < R ∧ R ≤ b := by
  obtain ⟨L, R, h1, hL, hR⟩ := C81_range_partial hs hb im percent a b hr
  have hlt : a < b := by
    obtain ⟨p, hp⟩ := hr.1
    exact lt_of_le_of_ne (hr.2.2 p a hp).2 hab
  have hlt' := Px.lt_iff.mp hlt
  refine ⟨L, R, h1, ?_, ?_, ?_⟩
  · apply Px.le_iff.mpr; rcases hL with h | h <;> omega
  · rw [Px.lt_iff]
    rcases hL with ⟨e, -⟩ | ⟨l1, l2, l3, -⟩
    · rcases hR with ⟨f, -⟩ | ⟨r1, -⟩ <;> omega
    · rcases hR with ⟨f, -⟩ | ⟨r1, r2, r3, -⟩
      · omega
      · by_contra hle
        push Not at hle
        have c := nLe_add_nGe im hle
        have q1 := l3 L.val l1 (le_refl _)
        have q2 := r3 R.val (le_refl _) r2
        have c' : (im.vals.length : ℚ) ≤ (nLe im L.val : ℚ) + (nGe im R.val : ℚ) := by exact_mod_cast c
        have hpos : 0 < im.vals.length := by
          obtain ⟨p, hp⟩ := hr.1
          exact List.length_pos_of_mem ((im.mem_vals a).mpr ⟨p, hp⟩)
        have hpos' : (0 : ℚ) < im.vals.length := by exact_mod_cast hpos
        have : (im.vals.length : ℚ) * percent < im.vals.length * 50 := mul_lt_mul_of_pos_left h50 hpos'
        linarith
  · apply Px.le_iff.mpr; rcases hR with h | h <;> omega

/-- **C81**, contrast: on an unsigned 8 or 16 bit image that is not constant and for a saturation below 50 %, `enhanceContrast` is
increasing, its result has pixels at both ends of the range of the type, and it is the stretching of a range that leaves out at most
`percent` % of the pixels on each side. -/
theorem C81_enhance_partial (hs : t.signed = false) (hb : t.bits ≤ 16) (auto : Bool) (im out : Img (Px t)) (percent : ℚ)
    (h0 : 0 ≤ percent) (h50 : percent < 50) (h : AcceptsS auto im.dims out.dims) (a b : Px t) (hr : IsRange im a b)
    (hab : a ≠ b) :
    ∃ res L R, enhanceContrast auto im percent out = some (.ok res) ∧ res.dims = im.dims ∧
      IsStretch L R ⊥ ⊤ im res ∧ IsRange res ⊥ ⊤ ∧
      ((im.vals.countP fun v => decide (v < L) : Nat) : ℚ) * 100 ≤ im.vals.length * percent ∧
      ((im.vals.countP fun v => decide (R < v) : Nat) : ℚ) * 100 ≤ im.vals.length * percent ∧
      (∀ p q u v m n, im.at? p = some u → im.at? q = some v → res.at? p = some m → res.at? q = some n → u ≤ v → m ≤ n) := by
  obtain ⟨L, R, h1, haL, hLR, hRb⟩ := C81_proper_partial hs hb im percent h0 h50 a b hr hab
  obtain ⟨L', R', h1', -, -, -, -, c1, c2⟩ := C81_ignored_partial hs hb im percent h0 a b hr
  rw [h1] at h1'
  cases h1'
  obtain ⟨res, e1, e2⟩ := C80_stretch_partial (t2 := t) auto im L R ⊥ ⊤ out.dims h (ne_of_lt hLR) (Or.inl hb) (Or.inl hb)
  obtain ⟨res', f1, f2, f3, -⟩ := C80_order_partial (t2 := t) auto im L R ⊥ ⊤ out.dims h hLR bot_le (Or.inl hb) (Or.inl hb)
  rw [e1] at f1
  cases f1
  have hden : (0 : ℚ) < (R.val : ℚ) - L.val := by
    have : (L.val : ℚ) < R.val := by exact_mod_cast Px.lt_iff.mp hLR
    linarith
  have hnum : (0 : ℚ) ≤ (((⊤ : Px t).val : ℚ)) - ((⊥ : Px t).val : ℚ) := by
    have : ((⊥ : Px t).val : ℚ) ≤ ((⊤ : Px t).val : ℚ) := by exact_mod_cast Px.le_iff.mp bot_le
    linarith
  have hco : (0 : ℚ) ≤ (((⊤ : Px t).val : ℚ) - ((⊥ : Px t).val : ℚ)) / ((R.val : ℚ) - L.val) := by positivity
  refine ⟨res, L, R, ?_, f2, e2, ⟨?_, ?_, fun p v _ => ⟨bot_le, le_top⟩⟩, c1, c2, f3⟩
  · unfold enhanceContrast
    rw [h1]
    simp only [Option.bind_eq_bind, Option.bind_some, e1]
    rfl
  · obtain ⟨p, hp⟩ := hr.1
    obtain ⟨n, hn, hr'⟩ := e2.2 p a hp
    refine ⟨p, ?_⟩
    rw [hn]
    congr 1
    apply Px.ext
    rw [Px.bot_val]
    apply hr'.2.1
    have : (a.val : ℚ) ≤ L.val := by exact_mod_cast Px.le_iff.mp haL
    have := mul_nonneg (show (0 : ℚ) ≤ (L.val : ℚ) - a.val by linarith) hco
    have e : ((⊥ : Px t).val : ℚ) = (t.lo : ℚ) := by rw [Px.bot_val]
    linarith
  · obtain ⟨p, hp⟩ := hr.2.1
    obtain ⟨n, hn, hr'⟩ := e2.2 p b hp
    refine ⟨p, ?_⟩
    rw [hn]
    congr 1
    apply Px.ext
    rw [Px.top_val]
    apply hr'.1
    have : (R.val : ℚ) ≤ b.val := by exact_mod_cast Px.le_iff.mp hRb
    have h3 := mul_le_mul_of_nonneg_right (show (R.val : ℚ) - L.val ≤ (b.val : ℚ) - L.val by linarith) hco
    rw [mul_div_cancel₀ _ hden.ne'] at h3
    have e : ((⊤ : Px t).val : ℚ) = (t.hi : ℚ) := by rw [Px.top_val]
    linarith

/-- **C81**, refusal: an image that is not allocated has no range, and `enhanceContrast` refuses it. -/
theorem C81_refused (auto : Bool) (im out : Img (Px t)) (percent : ℚ) (cum : Bool) (h : im.dims.count = 0) :
    histogramRange im percent cum = some none ∧ enhanceContrast auto im percent out = some (.error errRes) := by
  have e : ∀ c, histogramRange im percent c = some none := fun c => if_pos h
  refine ⟨e cum, ?_⟩
  unfold enhanceContrast
  rw [e true]
  rfl

/-- **C81** does not hold on constant images: `enhanceContrast` is undefined on all of them. -/
theorem C81_constant_bug (hs : t.signed = false) (hb : t.bits ≤ 16) (auto : Bool) (im out : Img (Px t)) (percent : ℚ)
    (h : AcceptsS auto im.dims out.dims) (a : Px t) (hr : IsRange im a a) :
    enhanceContrast auto im percent out = none := by
  obtain ⟨L, R, h1, hL, hR⟩ := C81_range_partial hs hb im percent a a hr
  have eL : L = a := by
    apply Px.ext
    rcases hL with h | h <;> omega
  have eR : R = a := by
    apply Px.ext
    rcases hR with h | h <;> omega
  obtain ⟨p, hp⟩ := hr.1
  unfold enhanceContrast
  rw [h1, eL, eR]
  simp only [Option.bind_eq_bind, Option.bind_some, C80_point_bug (t2 := t) auto im a ⊥ ⊤ out.dims h p hp]
  rfl

/-- An output of another size that may not be resized is left as it is, and the call reports success. -/
theorem C81_size_bug (hs : t.signed = false) (hb : t.bits ≤ 16) (im out : Img (Px t)) (percent : ℚ)
    (h : im.dims.count ≠ 0) (hd : out.dims ≠ im.dims) : enhanceContrast false im percent out = some (.ok out) := by
  obtain ⟨L, R, h1, -⟩ := C81_range_partial hs hb im percent _ _ (rangeVal_isRange im h).2
  unfold enhanceContrast
  rw [h1]
  simp only [Option.bind_eq_bind, Option.bind_some, ((C80_refused (t2 := t) false im L R ⊥ ⊤ out.dims).2 h hd rfl).1]
  rfl

/-- With a large saturation the two ends pass each other and the contrast is reversed: at 80 %, `0 1 2 3` gives `255 255 0 0`. They can
also meet, and then the call divides by zero: `0 1 2` at 70 %. -/
theorem C81_crossed_bug :
    histogramRange (im8 ⟨4, 1, 1⟩ [0, 1, 2, 3]) 60 true = some (some (UINT8.wrap 1, UINT8.wrap 2)) ∧
    histogramRange (im8 ⟨4, 1, 1⟩ [0, 1, 2, 3]) 80 true = some (some (UINT8.wrap 2, UINT8.wrap 1)) ∧
    (enhanceContrast false (im8 ⟨4, 1, 1⟩ [0, 1, 2, 3]) 80 (im8 ⟨4, 1, 1⟩ [])).map
      (fun r => r.toOption.map fun o => o.vals.map Px.val) = some (some [255, 255, 0, 0]) ∧
    (enhanceContrast false (im8 ⟨3, 1, 1⟩ [0, 1, 2]) 70 (im8 ⟨3, 1, 1⟩ [])).isNone = true := by
  decide +kernel

/-- A line of signed 8 bit pixels. -/
def lineI8 (l : List Int) : Img (Px INT8) := ⟨⟨l.length, 1, 1⟩, fun i => INT8.wrap (l.getD i 0)⟩

/-- On signed types the array is read with the index of another value. Two pixels `0 10` at the default saturation: the ends cross
and the contrast is reversed. On negative values the array is read out of bounds. -/
theorem C81_signed_bug :
    histogramRange (lineI8 [0, 10]) (1 / 4) true = some (some (INT8.wrap 9, INT8.wrap 1)) ∧
    (enhanceContrast false (lineI8 [0, 10]) (1 / 4) (lineI8 [0, 0])).map
      (fun r => r.toOption.map fun o => o.vals.map Px.val) = some (some [127, -128]) ∧
    (histogramRange (lineI8 [-10, -5]) (1 / 4) true).isNone = true ∧
    histogramRange (lineI8 [-10, 0, 0, 10]) 30 true = some (some (INT8.wrap (-10), INT8.wrap 10)) := by
  decide +kernel

/-- On 32 bit types the array has no cell, or its size overflows. -/
theorem C81_wide_bug (im out : Img (Px UINT32)) (im' out' : Img (Px INT32)) (auto : Bool) (percent : ℚ)
    (h : im.dims.count ≠ 0) (h' : im'.dims.count ≠ 0) :
    enhanceContrast auto im percent out = none ∧ enhanceContrast auto im' percent out' = none := by
  have e' : histogramRange im' percent true = none := by
    unfold histogramRange
    rw [if_neg h', show cardT INT32 = none by decide]
    rfl
  have e : histogramRange im percent true = none := by
    unfold histogramRange
    rw [if_neg h]
    have hA : histArr im = none := by
      unfold histArr
      rw [show cardT UINT32 = some 0 by decide]
      simp only [Option.bind_eq_bind, Option.bind_some]
      unfold histLoop
      obtain ⟨n, hn⟩ := Nat.exists_eq_succ_of_ne_zero h
      rw [hn, List.range_succ_eq_map, List.foldlM_cons]
      have : histIncr 0 (⊥ : Px UINT32) (im.buf 0) (fun _ => 0) = none := by
        unfold histIncr
        cases UINT32.cpp ((im.buf 0).val - (⊥ : Px UINT32).val) with
        | none => rfl
        | some d => simp
      simp only [if_true, this]
      rfl
    rw [hA]
    cases cardT UINT32 <;> rfl
  unfold enhanceContrast
  rw [e, e']
  exact ⟨rfl, rfl⟩

/-- **C15**, the map with a mask and bins: the mask is not used, all the pixels are counted. -/
theorem C15_bins_mask_bug (bin : Px t) (im mask : Img (Px t)) (h : im.dims.count ≠ 0) (hd : mask.dims = im.dims) :
    histBinsMask bin im mask = histBins bin im := by
  unfold histBinsMask
  rw [if_neg (by rw [hd]; tauto)]

/-- The masked map should be empty here: no pixel is in the mask. -/
example : histBinsMask (UINT8.wrap 1) (im8 ⟨2, 1, 1⟩ [4, 6]) (im8 ⟨2, 1, 1⟩ [0, 0]) = [(4, 1), (6, 1)] := by
  decide +kernel

/-- One outlier on each side among 20 pixels, at 5 %: both are saturated. -/
example : histogramRange (im8 ⟨20, 1, 1⟩ [0, 100, 100, 100, 100, 110, 110, 110, 110, 110, 120, 120, 120, 120, 120, 130, 130, 130, 130,
      250]) 5 true = some (some (UINT8.wrap 99, UINT8.wrap 131)) ∧
    (enhanceContrast false (im8 ⟨20, 1, 1⟩ [0, 100, 100, 100, 100, 110, 110, 110, 110, 110, 120, 120, 120, 120, 120, 130, 130, 130,
      130, 250]) 5 (im8 ⟨20, 1, 1⟩ [])).map (fun r => r.toOption.map fun o => o.vals.map Px.val) =
      some (some [0, 8, 8, 8, 8, 88, 88, 88, 88, 88, 167, 167, 167, 167, 167, 247, 247, 247, 247, 255]) := by
  decide +kernel

end

end Smil
