import Verif.MeasureLemmas
import Verif.PropsLabel
import Mathlib.Order.Bounds.Basic
import Mathlib.Algebra.BigOperators.Group.List.Lemmas

/-!
# C17: global measures
-/

namespace Smil

section
variable {t : PT}

/-- The values a measure is about: those of all the pixels, or only those that are not zero. -/
def considered (onlyNZ : Bool) (im : Img (Px t)) : List (Px t) :=
  im.vals.filter fun v => !onlyNZ || decide (v.val ≠ 0)

theorem sel_nz (onlyNZ : Bool) (im : Img (Px t)) : im.sel nzPx onlyNZ = considered onlyNZ im := rfl

theorem considered_false (im : Img (Px t)) : considered false im = im.vals := by
  simp [considered]

theorem mem_considered (onlyNZ : Bool) (im : Img (Px t)) (v : Px t) :
    v ∈ considered onlyNZ im ↔ (∃ p, im.at? p = some v) ∧ (onlyNZ = true → v.val ≠ 0) := by
  unfold considered
  rw [List.mem_filter, im.mem_vals]
  cases onlyNZ <;> simp

/-- **C17**, area: the number of pixels that are not zero. -/
theorem C17_area (im : Img (Px t)) :
    areaOf im = (im.vals.filter fun v => decide (v.val ≠ 0)).length := by
  unfold areaOf
  by_cases h : im.dims.count = 0
  · have : im.vals = [] := List.length_eq_zero_iff.mp (by rw [im.vals_length, h])
    rw [this]
    simp [measRun, h]
  · rw [measRun_eq areaFn nzPx (fun n _ => n + 1) (fun s l _ => (foldl_length l s).symm) true im h,
      Option.getD_some, foldl_length, sel_nz]
    simp [areaFn, considered]

/-- **C17**, volume: the sum of the pixels. -/
theorem C17_vol (im : Img (Px t)) : volOf im = (im.vals.map Px.val).sum := by
  unfold volOf
  by_cases h : im.dims.count = 0
  · have : im.vals = [] := List.length_eq_zero_iff.mp (by rw [im.vals_length, h])
    rw [this]
    simp [measRun, h]
  · rw [measRun_eq volFn nzPx (fun s v => s + v.val) (fun s l _ => rfl) false im h,
      Option.getD_some, foldl_add, sel_nz, considered_false]
    simp [volFn]

/-- **C17**, extreme values: the least and the greatest of the values considered; with none, which
needs `onlyNonZero` or an image that is not allocated, the maximum and the minimum of the type.
`rangeVal` is the pair of the two, but has no value at all on an image that is not allocated. -/
theorem C17_extremes (onlyNZ : Bool) (im : Img (Px t)) :
    (considered onlyNZ im ≠ [] →
      IsLeast {v | v ∈ considered onlyNZ im} (minValOf onlyNZ im) ∧
      IsGreatest {v | v ∈ considered onlyNZ im} (maxValOf onlyNZ im)) ∧
    (considered onlyNZ im = [] → minValOf onlyNZ im = ⊤ ∧ maxValOf onlyNZ im = ⊥) ∧
    rangeValOf onlyNZ im =
      if im.dims.count = 0 then none else some (minValOf onlyNZ im, maxValOf onlyNZ im) := by
  by_cases h : im.dims.count = 0
  · have : im.vals = [] := List.length_eq_zero_iff.mp (by rw [im.vals_length, h])
    refine ⟨fun hn => absurd (by simp [considered, this]) hn, fun _ => ?_, ?_⟩
    · simp [minValOf, maxValOf, measRun, h]
    · simp [rangeValOf, measRun, h]
  · have hmin : minValOf onlyNZ im =
        (considered onlyNZ im).foldl (fun s v => if v < s then v else s) ⊤ := by
      unfold minValOf
      rw [measRun_eq minFn nzPx _ (fun s l _ => rfl) onlyNZ im h, Option.getD_some, sel_nz]
      rfl
    have hmax : maxValOf onlyNZ im =
        (considered onlyNZ im).foldl (fun s v => if v > s then v else s) ⊥ := by
      unfold maxValOf
      rw [measRun_eq maxFn nzPx _ (fun s l _ => rfl) onlyNZ im h, Option.getD_some, sel_nz]
      rfl
    have hr : rangeValOf onlyNZ im = some (minValOf onlyNZ im, maxValOf onlyNZ im) := by
      unfold rangeValOf
      rw [measRun_eq minMaxFn nzPx _ (fun s l _ => rfl) onlyNZ im h, foldl_minMax, hmin, hmax, sel_nz]
      rfl
    obtain ⟨a1, a2, a3⟩ := foldl_min (considered onlyNZ im) ⊤
    obtain ⟨b1, b2, b3⟩ := foldl_max (considered onlyNZ im) ⊥
    rw [← hmin] at a1 a2 a3
    rw [← hmax] at b1 b2 b3
    refine ⟨fun hn => ?_, fun hn => ?_, by rw [hr, if_neg h]⟩
    · obtain ⟨v, hv⟩ := List.exists_mem_of_ne_nil _ hn
      refine ⟨⟨?_, fun w hw => a2 w hw⟩, ⟨?_, fun w hw => b2 w hw⟩⟩
      · rcases a3 with a3 | a3
        · have := a2 v hv
          rw [a3, top_le_iff] at this
          subst this
          rw [a3]; exact hv
        · exact a3
      · rcases b3 with b3 | b3
        · have := b2 v hv
          rw [b3, le_bot_iff] at this
          subst this
          rw [b3]; exact hv
        · exact b3
    · rw [hmin, hmax, hn]
      exact ⟨rfl, rfl⟩

/-- **C17**, list of values: strictly increasing, with exactly the values present. -/
theorem C17_valueList (onlyNZ : Bool) (im : Img (Px t)) :
    (valueListOf onlyNZ im).Pairwise (· < ·) ∧
    ∀ v, v ∈ valueListOf onlyNZ im ↔ (∃ p, im.at? p = some v) ∧ (onlyNZ = true → v.val ≠ 0) := by
  by_cases h : im.dims.count = 0
  · have h1 : valueListOf onlyNZ im = [] := by simp [valueListOf, measRun, h]
    rw [h1]
    refine ⟨List.Pairwise.nil, fun v => ?_⟩
    constructor
    · intro hv; simp at hv
    · rintro ⟨⟨p, hp⟩, -⟩
      have : v ∈ im.vals := (im.mem_vals v).mpr ⟨p, hp⟩
      rw [show im.vals = [] from List.length_eq_zero_iff.mp (by rw [im.vals_length, h])] at this
      simp at this
  · have h1 : valueListOf onlyNZ im =
        (considered onlyNZ im).foldl (fun s v => setInsert v s) [] := by
      unfold valueListOf
      rw [measRun_eq valueListFn nzPx _ (fun s l _ => rfl) onlyNZ im h, Option.getD_some, sel_nz]
      rfl
    obtain ⟨h2, h3⟩ := foldl_set (considered onlyNZ im) [] List.Pairwise.nil
    rw [h1]
    refine ⟨h2, fun v => ?_⟩
    rw [h3, ← mem_considered]
    simp

/-- The positive values. -/
def positives (im : Img (Px t)) : List (Px t) := im.vals.filter fun v => decide (0 < v.val)

theorem filter_considered (onlyNZ : Bool) (im : Img (Px t)) :
    (considered onlyNZ im).filter (fun v => decide (v.val > 0)) = positives im := by
  unfold considered positives
  rw [List.filter_filter]
  apply List.filter_congr
  intro v _
  by_cases hv : 0 < v.val
  · simp [hv]; omega
  · simp [hv]

/-- **C17**, median. With or without `onlyNonZero` the median of the positive pixels is returned, a value present that
has more than half of them at or below it and at most half of them below it, as long as the values fit
an `int`; and zero if no pixel is positive. Missing for the full claim: zero and negative pixels
should count unless `onlyNonZero` is set (`C17_median_zero_bug`), and values of 2^31 or more should
keep their order (`C17_median_wide_bug`). -/
theorem C17_median_partial (onlyNZ : Bool) (im : Img (Px t)) (h : im.dims.count ≠ 0)
    (hr : ∀ p v, im.at? p = some v → v.val < 2 ^ 31) :
    ∃ m, medianValOf onlyNZ im = some m ∧
      (positives im = [] → m.val = 0) ∧
      (positives im ≠ [] → m ∈ positives im ∧
        (positives im).length < 2 * (positives im).countP (fun v => decide (v ≤ m)) ∧
        2 * (positives im).countP (fun v => decide (v < m)) ≤ (positives im).length) := by
  have hrun := measRun_eq (medianFn (t := t)) nzPx _ (fun s l _ => rfl) onlyNZ im h
  rw [sel_nz] at hrun
  obtain ⟨h1, h2⟩ := foldl_median (considered onlyNZ im)
  unfold medianValOf
  rw [hrun]
  change ∃ m, some (t.wrap (medianLoop
    ((considered onlyNZ im).foldl (fun (s : List (Int × Nat) × Nat) v =>
      if v.val > 0 then (mapIncr (keyOf v) s.1, s.2 + 1) else s) ([], 0)).2 0
    ((considered onlyNZ im).foldl (fun (s : List (Int × Nat) × Nat) v =>
      if v.val > 0 then (mapIncr (keyOf v) s.1, s.2 + 1) else s) ([], 0)).1)) = some m ∧ _
  rw [filter_considered] at h1 h2
  rw [h2]
  set m := ((considered onlyNZ im).foldl (fun (s : List (Int × Nat) × Nat) v =>
      if v.val > 0 then (mapIncr (keyOf v) s.1, s.2 + 1) else s) ([], 0)).1 with hm
  refine ⟨_, rfl, ?_, ?_⟩
  · intro hn
    rw [hn] at h1
    have : m = [] := by
      cases hm' : m with
      | nil => rfl
      | cons e m' =>
        obtain ⟨k, n⟩ := e
        rw [hm'] at h1
        have := (h1.2 k n).mp (by simp)
        simp at this
    rw [this]
    exact t.wrap_of_mem t.lo_nonpos t.hi_nonneg
  · intro hn
    have hkey : ∀ v ∈ positives im, keyOf v = v.val := by
      intro v hv
      have hv' := List.mem_filter.mp hv
      obtain ⟨p, hp⟩ := (im.mem_vals v).mp hv'.1
      have := hr p v hp
      have h0 : 0 < v.val := by simpa using hv'.2
      exact INT32.wrap_of_mem (by have : INT32.lo = -2^31 := by decide
                                  omega) (by have : INT32.hi = 2^31 - 1 := by decide
                                             omega)
    have hkm : (positives im).map keyOf = (positives im).map Px.val := List.map_congr_left hkey
    rw [hkm] at h1
    have := medianLoop_spec ((positives im).map Px.val) (by simpa using hn) [] m (by simpa using h1)
      (by simp)
    simp only [List.map_nil, List.sum_nil, List.length_map] at this
    obtain ⟨q1, q2, q3⟩ := this
    obtain ⟨w, hw, hwk⟩ := List.mem_map.mp q1
    have hwrap : t.wrap (medianLoop (positives im).length 0 m) = w := by
      rw [← hwk]; exact t.wrap_val w
    rw [hwrap]
    rw [← hwk, List.countP_map] at q2 q3
    exact ⟨hw, q2, q3⟩

/-- **C17**, mode. The most frequent of the positive values, and among those the first to reach its
count; zero if no pixel is positive. Missing: zero and negative pixels should count (`C17_mode_bug`). -/
theorem C17_mode_partial (onlyNZ : Bool) (im : Img (Px t)) (hb : t.hi < 2 ^ 32)
    (h : considered onlyNZ im ≠ []) :
    ∃ m, modeValOf onlyNZ im = some m ∧
      (positives im = [] → m.val = 0) ∧
      (positives im ≠ [] →
        (∀ v, (positives im).count v ≤ (positives im).count m) ∧
        ∃ pre post, positives im = pre ++ m :: post ∧
          (pre ++ [m]).count m = (positives im).count m ∧
          ∀ v, pre.count v < (positives im).count m) := by
  have hc : im.dims.count ≠ 0 := by
    intro hc
    apply h
    have : im.vals = [] := List.length_eq_zero_iff.mp (by rw [im.vals_length, hc])
    simp [considered, this]
  have hinv := foldl_mode hb (considered onlyNZ im)
  simp only at hinv
  rw [filter_considered] at hinv
  refine ⟨((considered onlyNZ im).foldl modeStep ⟨[], 0, Px.zero, none⟩).mode, ?_, ?_, ?_⟩
  · unfold modeValOf
    rw [measRun_eq modeFn nzPx modeStep' modeFn_seq onlyNZ im hc, sel_nz,
      ← modeFn_seq _ _ h]
    rfl
  · intro hn
    rw [(hinv.nil hn).2]
    rfl
  · intro hn
    obtain ⟨pre, post, h1, h2, h3, h4⟩ := hinv.first hn
    refine ⟨fun v => ?_, pre, post, h1, by rw [h2, h3], by rw [h3]; exact h4⟩
    rw [h3]
    by_cases hv : v ∈ positives im
    · exact hinv.max v hv
    · rw [List.count_eq_zero_of_not_mem hv]; omega

/-- **C17**, mean: the number of the values considered, their sum and the sum of their squares,
from which the mean and the standard deviation are computed. -/
theorem C17_mean (onlyNZ : Bool) (im : Img (Px t)) (h : im.dims.count ≠ 0) :
    meanSums onlyNZ im = some ((considered onlyNZ im).length, ((considered onlyNZ im).map Px.val).sum,
      ((considered onlyNZ im).map fun v => v.val * v.val).sum) := by
  unfold meanSums
  rw [measRun_eq meanFn nzPx _ (fun s l _ => rfl) onlyNZ im h, sel_nz]
  congr 1
  have : ∀ (l : List (Px t)) (s : Nat × Int × Int), l.foldl (fun s v =>
      (s.1 + 1, s.2.1 + v.val, s.2.2 + v.val * v.val)) s =
      (s.1 + l.length, s.2.1 + (l.map Px.val).sum, s.2.2 + (l.map fun v => v.val * v.val).sum) := by
    intro l
    induction l with
    | nil => simp
    | cons a l ih =>
      intro s
      rw [List.foldl_cons, ih]
      simp only [List.length_cons, List.map_cons, List.sum_cons, Prod.mk.injEq]
      refine ⟨by omega, by ring, by ring⟩
  rw [this]
  simp [meanFn]

/-- **C17**, offsets: the offsets of the non-zero pixels, in increasing order. -/
theorem C17_offsets (im : Img (Px t)) :
    (nonZeroOffsets im).Pairwise (· < ·) ∧
    ∀ i, i ∈ nonZeroOffsets im ↔ ∃ p v, im.at? p = some v ∧ v.val ≠ 0 ∧
      (i : Int) = p.x + p.y * im.dims.w + p.z * im.dims.w * im.dims.h := by
  have key : ∀ n, (List.range n).foldl (fun l i => if nzPx (im.buf i) then l ++ [i] else l) [] =
      (List.range n).filter fun i => nzPx (im.buf i) := by
    intro n
    induction n with
    | zero => rfl
    | succ n ih =>
      rw [List.range_succ, List.foldl_append, ih, List.filter_append]
      by_cases hn : nzPx (im.buf n) = true <;> simp [hn]
  have h1 : nonZeroOffsets im = (List.range im.dims.count).filter fun i => nzPx (im.buf i) := key _
  rw [h1]
  refine ⟨List.Pairwise.filter _ List.pairwise_lt_range, fun i => ?_⟩
  rw [List.mem_filter, List.mem_range]
  constructor
  · rintro ⟨hi, hv⟩
    refine ⟨coordPt im.dims i, im.buf i, ?_, by simpa [nzPx] using hv, ?_⟩
    · have := (im.mem_scan (coordPt im.dims i) (im.buf i)).mp (by
        rw [im.scan_eq]; exact List.mem_map.mpr ⟨i, List.mem_range.mpr hi, rfl⟩)
      exact this
    · obtain ⟨h3, h2⟩ := coordPt_in hi
      rw [← offOf_int h3, h2]
  · rintro ⟨p, v, hp, hv, hi⟩
    have hin := im.at?_eq_some_in p v hp
    have : i = offOf im.dims p := by
      have := offOf_int hin
      omega
    rw [this]
    have hb : im.buf (offOf im.dims p) = v := by
      have := Img.at?_some im p hin
      rw [hp] at this
      exact (Option.some.inj this).symm
    exact ⟨offOf_lt hin, by rw [hb]; simpa [nzPx] using hv⟩

/-! ### Measures with positions -/

/-- The points considered, with their values, slice by slice and line by line. -/
def consideredPts (onlyNZ : Bool) (im : Img (Px t)) : List (IntPoint × Px t) :=
  im.scan.filter fun e => !onlyNZ || decide (e.2.val ≠ 0)

theorem selPos_nz (onlyNZ : Bool) (im : Img (Px t)) :
    im.selPos nzPx onlyNZ = consideredPts onlyNZ im := rfl

theorem considered_pts (onlyNZ : Bool) (im : Img (Px t)) :
    considered onlyNZ im = (consideredPts onlyNZ im).map Prod.snd := by
  unfold considered consideredPts Img.vals
  rw [List.filter_map]
  rfl

theorem mem_consideredPts (onlyNZ : Bool) (im : Img (Px t)) (p : IntPoint) (v : Px t) :
    (p, v) ∈ consideredPts onlyNZ im ↔ im.at? p = some v ∧ (onlyNZ = true → v.val ≠ 0) := by
  unfold consideredPts
  rw [List.mem_filter, im.mem_scan]
  cases onlyNZ <;> simp

theorem foldl_minPos (l : List (IntPoint × Px t)) :
    let s := l.foldl (fun (s : Px t × IntPoint) e => if e.2 < s.1 then (e.2, e.1) else s)
      (⊤, ⟨0, 0, 0⟩)
    (s = (⊤, ⟨0, 0, 0⟩) ∧ ∀ e ∈ l, e.2 = ⊤) ∨
    ∃ pre post, l = pre ++ (s.2, s.1) :: post ∧ s.1 < ⊤ ∧ (∀ e ∈ pre, s.1 < e.2) ∧
      ∀ e ∈ post, s.1 ≤ e.2 := by
  simp only
  induction l using List.reverseRecOn with
  | nil => left; simp
  | append_singleton l e ih =>
    rw [List.foldl_append, List.foldl_cons, List.foldl_nil]
    set s := l.foldl (fun (s : Px t × IntPoint) e => if e.2 < s.1 then (e.2, e.1) else s)
      (⊤, ⟨0, 0, 0⟩)
    by_cases he : e.2 < s.1
    · right
      rw [if_pos he]
      refine ⟨l, [], by simp, lt_of_lt_of_le he le_top, ?_, by simp⟩
      intro f hf
      rcases ih with ⟨h1, h2⟩ | ⟨pre, post, h1, h2, h3, h4⟩
      · rw [h2 f hf]
        exact lt_of_lt_of_le he le_top
      · rw [h1] at hf
        rcases List.mem_append.mp hf with hf | hf
        · exact lt_trans he (h3 f hf)
        · rcases List.mem_cons.mp hf with hf | hf
          · rw [hf]; exact he
          · exact lt_of_lt_of_le he (h4 f hf)
    · rw [if_neg he]
      rcases ih with ⟨h1, h2⟩ | ⟨pre, post, h1, h2, h3, h4⟩
      · left
        refine ⟨h1, ?_⟩
        intro f hf
        rcases List.mem_append.mp hf with hf | hf
        · exact h2 f hf
        · rw [List.mem_singleton.mp hf]
          rw [h1] at he
          exact not_lt_top_iff.mp he
      · right
        refine ⟨pre, post ++ [e], by rw [h1]; simp, h2, h3, ?_⟩
        intro f hf
        rcases List.mem_append.mp hf with hf | hf
        · exact h4 f hf
        · rw [List.mem_singleton.mp hf]; exact not_lt.mp he

theorem foldl_maxPos (l : List (IntPoint × Px t)) :
    let s := l.foldl (fun (s : Px t × IntPoint) e => if e.2 > s.1 then (e.2, e.1) else s)
      (⊥, ⟨0, 0, 0⟩)
    (s = (⊥, ⟨0, 0, 0⟩) ∧ ∀ e ∈ l, e.2 = ⊥) ∨
    ∃ pre post, l = pre ++ (s.2, s.1) :: post ∧ ⊥ < s.1 ∧ (∀ e ∈ pre, e.2 < s.1) ∧
      ∀ e ∈ post, e.2 ≤ s.1 := by
  simp only
  induction l using List.reverseRecOn with
  | nil => left; simp
  | append_singleton l e ih =>
    rw [List.foldl_append, List.foldl_cons, List.foldl_nil]
    set s := l.foldl (fun (s : Px t × IntPoint) e => if e.2 > s.1 then (e.2, e.1) else s)
      (⊥, ⟨0, 0, 0⟩)
    by_cases he : e.2 > s.1
    · right
      rw [if_pos he]
      refine ⟨l, [], by simp, lt_of_le_of_lt bot_le he, ?_, by simp⟩
      intro f hf
      rcases ih with ⟨h1, h2⟩ | ⟨pre, post, h1, h2, h3, h4⟩
      · rw [h2 f hf]
        exact lt_of_le_of_lt bot_le he
      · rw [h1] at hf
        rcases List.mem_append.mp hf with hf | hf
        · exact lt_trans (h3 f hf) he
        · rcases List.mem_cons.mp hf with hf | hf
          · rw [hf]; exact he
          · exact lt_of_le_of_lt (h4 f hf) he
    · rw [if_neg he]
      rcases ih with ⟨h1, h2⟩ | ⟨pre, post, h1, h2, h3, h4⟩
      · left
        refine ⟨h1, ?_⟩
        intro f hf
        rcases List.mem_append.mp hf with hf | hf
        · exact h2 f hf
        · rw [List.mem_singleton.mp hf]
          rw [h1] at he
          exact not_bot_lt_iff.mp he
      · right
        refine ⟨pre, post ++ [e], by rw [h1]; simp, h2, h3, ?_⟩
        intro f hf
        rcases List.mem_append.mp hf with hf | hf
        · exact h4 f hf
        · rw [List.mem_singleton.mp hf]; exact not_lt.mp he

/-- **C17**, position of the minimum: the value is the minimum, and unless it is the maximum of the type,
the point is the first one considered, in raster order, that has it. Missing: the same for images whose
non-zero pixels are all at the maximum of the type (`C17_minpos_bug`). -/
theorem C17_minPos_partial (onlyNZ : Bool) (im : Img (Px t)) (h : im.dims.count ≠ 0) :
    ∃ m p, minValPos onlyNZ im = some (m, p) ∧
      (∀ v ∈ considered onlyNZ im, m ≤ v) ∧
      (m < ⊤ → ∃ pre post, consideredPts onlyNZ im = pre ++ (p, m) :: post ∧ ∀ e ∈ pre, m < e.2) ∧
      (m = ⊤ → p = ⟨0, 0, 0⟩) := by
  unfold minValPos
  rw [posRun_eq minPosFn nzPx _ (fun s l x y z _ => rfl) onlyNZ im h, selPos_nz]
  have := foldl_minPos (consideredPts onlyNZ im)
  simp only at this
  refine ⟨_, _, rfl, ?_⟩
  change (∀ v ∈ considered onlyNZ im, ((consideredPts onlyNZ im).foldl
    (fun (s : Px t × IntPoint) e => if e.2 < s.1 then (e.2, e.1) else s) (⊤, ⟨0, 0, 0⟩)).1 ≤ v) ∧ _
  rw [considered_pts]
  rcases this with ⟨h1, h2⟩ | ⟨pre, post, h1, h2, h3, h4⟩
  · refine ⟨?_, ?_, ?_⟩
    · intro v hv
      obtain ⟨e, he, rfl⟩ := List.mem_map.mp hv
      rw [h2 e he]
      exact le_top
    · intro hlt
      exact absurd (show ((consideredPts onlyNZ im).foldl (fun (s : Px t × IntPoint) e =>
        if e.2 < s.1 then (e.2, e.1) else s) (⊤, ⟨0, 0, 0⟩)).1 = ⊤ by rw [h1]) hlt.ne
    · intro _
      exact congrArg Prod.snd h1
  · refine ⟨?_, fun _ => ⟨pre, post, h1, h3⟩, fun he => absurd he h2.ne⟩
    intro v hv
    obtain ⟨e, he, rfl⟩ := List.mem_map.mp hv
    rw [h1] at he
    rcases List.mem_append.mp he with he | he
    · exact (h3 e he).le
    · rcases List.mem_cons.mp he with he | he
      · rw [he]
      · exact h4 e he

/-- **C17**, position of the maximum, with the same exception for images whose pixels considered are all at the
minimum of the type. -/
theorem C17_maxPos_partial (onlyNZ : Bool) (im : Img (Px t)) (h : im.dims.count ≠ 0) :
    ∃ m p, maxValPos onlyNZ im = some (m, p) ∧
      (∀ v ∈ considered onlyNZ im, v ≤ m) ∧
      (⊥ < m → ∃ pre post, consideredPts onlyNZ im = pre ++ (p, m) :: post ∧ ∀ e ∈ pre, e.2 < m) ∧
      (m = ⊥ → p = ⟨0, 0, 0⟩) := by
  unfold maxValPos
  rw [posRun_eq maxPosFn nzPx _ (fun s l x y z _ => rfl) onlyNZ im h, selPos_nz]
  have := foldl_maxPos (consideredPts onlyNZ im)
  simp only at this
  refine ⟨_, _, rfl, ?_⟩
  change (∀ v ∈ considered onlyNZ im, v ≤ ((consideredPts onlyNZ im).foldl
    (fun (s : Px t × IntPoint) e => if e.2 > s.1 then (e.2, e.1) else s) (⊥, ⟨0, 0, 0⟩)).1) ∧ _
  rw [considered_pts]
  rcases this with ⟨h1, h2⟩ | ⟨pre, post, h1, h2, h3, h4⟩
  · refine ⟨?_, ?_, ?_⟩
    · intro v hv
      obtain ⟨e, he, rfl⟩ := List.mem_map.mp hv
      rw [h2 e he]
      exact bot_le
    · intro hlt
      exact absurd (show ((consideredPts onlyNZ im).foldl (fun (s : Px t × IntPoint) e =>
        if e.2 > s.1 then (e.2, e.1) else s) (⊥, ⟨0, 0, 0⟩)).1 = ⊥ by rw [h1]) hlt.ne'
    · intro _
      exact congrArg Prod.snd h1
  · refine ⟨?_, fun _ => ⟨pre, post, h1, h3⟩, fun he => absurd he h2.ne'⟩
    intro v hv
    obtain ⟨e, he, rfl⟩ := List.mem_map.mp hv
    rw [h1] at he
    rcases List.mem_append.mp he with he | he
    · exact (h3 e he).le
    · rcases List.mem_cons.mp he with he | he
      · rw [he]
      · exact h4 e he

/-- The points of the non-zero pixels. -/
def support (im : Img (Px t)) : List IntPoint := (consideredPts true im).map Prod.fst

theorem mem_support (im : Img (Px t)) (p : IntPoint) :
    p ∈ support im ↔ ∃ v, im.at? p = some v ∧ v.val ≠ 0 := by
  unfold support
  simp only [List.mem_map, Prod.exists, mem_consideredPts]
  constructor
  · rintro ⟨q, v, ⟨h1, h2⟩, rfl⟩
    exact ⟨v, h1, h2 trivial⟩
  · rintro ⟨v, h1, h2⟩
    exact ⟨p, v, ⟨h1, fun _ => h2⟩, rfl⟩

/-- One point of the bounding box. -/
def boxPt (D : Dims) (s : BoxSt) (p : IntPoint) : BoxSt :=
  ⟨if p.x.toNat < s.x0 then p.x.toNat else s.x0, if p.y.toNat < s.y0 then p.y.toNat else s.y0,
   if D.d > 1 then (if p.z.toNat < s.z0 then p.z.toNat else s.z0) else s.z0,
   if p.x.toNat > s.x1 then p.x.toNat else s.x1, if p.y.toNat > s.y1 then p.y.toNat else s.y1,
   if D.d > 1 then (if p.z.toNat > s.z1 then p.z.toNat else s.z1) else s.z1⟩

theorem boxFn_seq (D : Dims) (s : BoxSt) (l : List (Px t)) (x y z : Nat) (hl : l ≠ []) :
    (boxFn D).seq s l x y z = (seqPos l x y z).foldl (fun s e => boxPt D s e.1) s := by
  induction l generalizing s x with
  | nil => exact absurd rfl hl
  | cons a l ih =>
    by_cases hn : l = []
    · subst hn
      simp [seqPos, boxFn, boxPt]
    · simp only [seqPos, List.foldl_cons]
      rw [← ih _ _ hn]
      have hlen : 0 < l.length := List.length_pos_of_ne_nil hn
      simp only [boxFn, boxPt, List.length_cons, Int.toNat_natCast, BoxSt.mk.injEq]
      refine ⟨?_, ?_, ?_, ?_, ?_, ?_⟩ <;> (repeat' split) <;> omega

theorem foldl_box (D : Dims) (l : List IntPoint) (s : BoxSt) :
    let r := l.foldl (boxPt D) s
    (∀ k, r.x0 ≤ k ↔ s.x0 ≤ k ∨ ∃ p ∈ l, p.x.toNat ≤ k) ∧
    (∀ k, r.y0 ≤ k ↔ s.y0 ≤ k ∨ ∃ p ∈ l, p.y.toNat ≤ k) ∧
    (∀ k, k ≤ r.x1 ↔ k ≤ s.x1 ∨ ∃ p ∈ l, k ≤ p.x.toNat) ∧
    (∀ k, k ≤ r.y1 ↔ k ≤ s.y1 ∨ ∃ p ∈ l, k ≤ p.y.toNat) ∧
    (D.d > 1 → (∀ k, r.z0 ≤ k ↔ s.z0 ≤ k ∨ ∃ p ∈ l, p.z.toNat ≤ k) ∧
      ∀ k, k ≤ r.z1 ↔ k ≤ s.z1 ∨ ∃ p ∈ l, k ≤ p.z.toNat) := by
  induction l generalizing s with
  | nil => simp
  | cons a l ih =>
    obtain ⟨h1, h2, h3, h4, h5⟩ := ih (boxPt D s a)
    simp only [List.foldl_cons]
    refine ⟨fun k => ?_, fun k => ?_, fun k => ?_, fun k => ?_, fun hd => ⟨fun k => ?_, fun k => ?_⟩⟩
    · rw [h1]
      simp only [boxPt, List.mem_cons, exists_eq_or_imp, ← or_assoc]
      refine or_congr ?_ Iff.rfl
      split <;> omega
    · rw [h2]
      simp only [boxPt, List.mem_cons, exists_eq_or_imp, ← or_assoc]
      refine or_congr ?_ Iff.rfl
      split <;> omega
    · rw [h3]
      simp only [boxPt, List.mem_cons, exists_eq_or_imp, ← or_assoc]
      refine or_congr ?_ Iff.rfl
      split <;> omega
    · rw [h4]
      simp only [boxPt, List.mem_cons, exists_eq_or_imp, ← or_assoc]
      refine or_congr ?_ Iff.rfl
      split <;> omega
    · rw [(h5 hd).1]
      simp only [boxPt, hd, if_true, List.mem_cons, exists_eq_or_imp, ← or_assoc]
      refine or_congr ?_ Iff.rfl
      split <;> omega
    · rw [(h5 hd).2]
      simp only [boxPt, hd, if_true, List.mem_cons, exists_eq_or_imp, ← or_assoc]
      refine or_congr ?_ Iff.rfl
      split <;> omega

/-- `a` is the least and `b` the greatest of the coordinates of the points. -/
def IsSpan (f : IntPoint → Int) (l : List IntPoint) (a b : Nat) : Prop :=
  IsLeast {c | ∃ p ∈ l, f p = c} (a : Int) ∧ IsGreatest {c | ∃ p ∈ l, f p = c} (b : Int)

theorem isSpan_of (f : IntPoint → Int) (l : List IntPoint) (hl : l ≠ []) (a b w : Nat)
    (hf : ∀ p ∈ l, 0 ≤ f p ∧ f p < w)
    (h1 : ∀ k, a ≤ k ↔ w ≤ k ∨ ∃ p ∈ l, (f p).toNat ≤ k)
    (h2 : ∀ k, k ≤ b ↔ k ≤ 0 ∨ ∃ p ∈ l, k ≤ (f p).toNat) : IsSpan f l a b := by
  obtain ⟨q, hq⟩ := List.exists_mem_of_ne_nil _ hl
  have haw : ∀ p ∈ l, (a : Int) ≤ f p := by
    intro p hp
    have := (h1 (f p).toNat).mpr (Or.inr ⟨p, hp, le_rfl⟩)
    have := hf p hp
    omega
  have hbw : ∀ p ∈ l, f p ≤ (b : Int) := by
    intro p hp
    have := (h2 (f p).toNat).mpr (Or.inr ⟨p, hp, le_rfl⟩)
    have := hf p hp
    omega
  refine ⟨⟨?_, ?_⟩, ⟨?_, ?_⟩⟩
  · rcases (h1 a).mp le_rfl with h | ⟨p, hp, h⟩
    · have := haw q hq
      have := hf q hq
      omega
    · have := haw p hp
      have := hf p hp
      exact ⟨p, hp, by omega⟩
  · rintro c ⟨p, hp, rfl⟩; exact haw p hp
  · rcases (h2 b).mp le_rfl with h | ⟨p, hp, h⟩
    · have := hbw q hq
      have := hf q hq
      exact ⟨q, hq, by omega⟩
    · have := hbw p hp
      have := hf p hp
      exact ⟨p, hp, by omega⟩
  · rintro c ⟨p, hp, rfl⟩; exact hbw p hp

/-- **C17**, bounding box. When some pixel is not zero, each coordinate of the box is the least, or the greatest, of
those of the non-zero pixels; the third ones are only given for an image of several slices. -/
theorem C17_boundBox (im : Img (Px t)) (hne : ∃ p v, im.at? p = some v ∧ v.val ≠ 0) :
    ∃ x0 y0 z0 x1 y1 z1, measBoundBox im =
        (if im.dims.d > 1 then [x0, y0, z0, x1, y1, z1] else [x0, y0, x1, y1]) ∧
      IsSpan IntPoint.x (support im) x0 x1 ∧ IsSpan IntPoint.y (support im) y0 y1 ∧
      (im.dims.d > 1 → IsSpan IntPoint.z (support im) z0 z1) := by
  obtain ⟨q, v, hq, hv⟩ := hne
  have hqs : q ∈ support im := (mem_support im q).mpr ⟨v, hq, hv⟩
  have hin := im.at?_eq_some_in q v hq
  have hc : im.dims.count ≠ 0 := by have := offOf_lt hin; omega
  have hsup : support im ≠ [] := List.ne_nil_of_mem hqs
  have hpin : ∀ p ∈ support im, Img.In im.dims p := by
    intro p hp
    obtain ⟨w, hw, -⟩ := (mem_support im p).mp hp
    exact im.at?_eq_some_in p w hw
  have hrun := posRun_eq (boxFn (t := t) im.dims) nzPx _
    (fun s l x y z hl => boxFn_seq im.dims s l x y z hl) true im hc
  have hfold : (im.selPos nzPx true).foldl (fun s e => boxPt im.dims s e.1)
      (boxFn (t := t) im.dims).init =
      (support im).foldl (boxPt im.dims) ⟨im.dims.w, im.dims.h, im.dims.d, 0, 0, 0⟩ := by
    unfold support
    rw [List.foldl_map, selPos_nz]
    rfl
  rw [hfold] at hrun
  obtain ⟨h1, h2, h3, h4, h5⟩ := foldl_box im.dims (support im)
    ⟨im.dims.w, im.dims.h, im.dims.d, 0, 0, 0⟩
  simp only at h1 h2 h3 h4 h5
  set r := (support im).foldl (boxPt im.dims) ⟨im.dims.w, im.dims.h, im.dims.d, 0, 0, 0⟩
  refine ⟨r.x0, r.y0, r.z0, r.x1, r.y1, r.z1, ?_, ?_, ?_, ?_⟩
  · unfold measBoundBox
    rw [hrun]
  · refine isSpan_of _ _ hsup _ _ im.dims.w ?_ h1 h3
    intro p hp
    have := hpin p hp
    unfold Img.In at this
    omega
  · refine isSpan_of _ _ hsup _ _ im.dims.h ?_ h2 h4
    intro p hp
    have := hpin p hp
    unfold Img.In at this
    omega
  · intro hd
    refine isSpan_of _ _ hsup _ _ im.dims.d ?_ (h5 hd).1 (h5 hd).2
    intro p hp
    have := hpin p hp
    unfold Img.In at this
    omega

/-- The moment of order `a`, `b`, `c`: the sum over all the pixels of `v x^a y^b z^c`. -/
def momentOf (im : Img (Px t)) (a b c : Nat) : Int :=
  (im.scan.map fun e => e.2.val * e.1.x ^ a * e.1.y ^ b * e.1.z ^ c).sum

theorem foldl_mom (im3d : Bool) (l : List (IntPoint × Px t)) (s : MomSt) :
    let M := fun (a b c : Nat) => (l.map fun e => e.2.val * e.1.x ^ a * e.1.y ^ b * e.1.z ^ c).sum
    l.foldl (momStep im3d) s = ⟨s.m000 + M 0 0 0, s.m100 + M 1 0 0, s.m010 + M 0 1 0,
      s.m110 + M 1 1 0, s.m200 + M 2 0 0, s.m020 + M 0 2 0,
      if im3d then s.m001 + M 0 0 1 else s.m001, if im3d then s.m101 + M 1 0 1 else s.m101,
      if im3d then s.m011 + M 0 1 1 else s.m011, if im3d then s.m002 + M 0 0 2 else s.m002⟩ := by
  induction l generalizing s with
  | nil => simp
  | cons a l ih =>
    simp only at ih ⊢
    rw [List.foldl_cons, ih]
    simp only [List.map_cons, List.sum_cons, momStep, MomSt.mk.injEq, pow_zero, pow_one, mul_one]
    cases im3d
    · simp only [Bool.false_eq_true, if_false]
      refine ⟨by ring, by ring, by ring, by ring, by ring, by ring, trivial, trivial, trivial, trivial⟩
    · simp only [if_true]
      refine ⟨by ring, by ring, by ring, by ring, by ring, by ring, by ring, by ring, by ring, by ring⟩

/-- **C17**, moments, with or without `onlyNonZero`. -/
theorem C17_moments (onlyNZ : Bool) (im : Img (Px t)) (h : im.dims.count ≠ 0) :
    measMoments onlyNZ im =
      let M := momentOf im
      if im.dims.d > 1 then
        [M 0 0 0, M 1 0 0, M 0 1 0, M 0 0 1, M 1 1 0, M 1 0 1, M 0 1 1, M 2 0 0, M 0 2 0, M 0 0 2]
      else [M 0 0 0, M 1 0 0, M 0 1 0, M 1 1 0, M 2 0 0, M 0 2 0] := by
  have hM : ∀ a b c, ((consideredPts onlyNZ im).map
      fun e => e.2.val * e.1.x ^ a * e.1.y ^ b * e.1.z ^ c).sum = momentOf im a b c := by
    intro a b c
    unfold consideredPts momentOf
    induction im.scan with
    | nil => rfl
    | cons e l ih =>
      rw [List.filter_cons, List.map_cons, List.sum_cons, ← ih]
      split
      · rw [List.map_cons, List.sum_cons]
      · rename_i hf
        have : e.2.val = 0 := by
          by_contra hc
          apply hf
          simp [hc]
        rw [this]
        simp
  unfold measMoments
  rw [posRun_eq (momFn (decide (im.dims.d > 1))) nzPx _ (fun s l x y z _ => rfl) onlyNZ im h,
    foldl_mom, selPos_nz]
  simp only [hM]
  by_cases hd : im.dims.d > 1
  · simp [hd, momFn]
  · simp [hd, momFn]

/-! ### What the code gets wrong -/

/-- The median of an image where 7 pixels of 8 are zero is 9, although zeros are not excluded. -/
theorem C17_median_zero_bug :
    let im : Img (Px UINT8) := im8 ⟨4, 2, 1⟩ [0, 0, 0, 0, 0, 9, 0, 0]
    medianValOf false im = some (UINT8.wrap 9) ∧
      ¬ (considered false im).length ≤ 2 * (considered false im).countP
        (fun v => decide ((UINT8.wrap 9) ≤ v)) := by
  decide +kernel

/-- So is the mode; and with `onlyNonZero` the mode of an all-zero image is not initialised. -/
theorem C17_mode_bug :
    modeValOf false (im8 ⟨4, 2, 1⟩ [0, 0, 0, 0, 0, 9, 0, 0]) = some (UINT8.wrap 9) ∧
    modeValOf true (im8 ⟨2, 1, 1⟩ [0, 0]) = none := by
  decide +kernel

/-- Values of 2^31 or more come first: the median of 1, 2^31 and 2^31 + 1 is the largest. -/
theorem C17_median_wide_bug :
    let im : Img (Px UINT32) := ⟨⟨3, 1, 1⟩, fun i => [UINT32.wrap 1, UINT32.wrap (2 ^ 31),
      UINT32.wrap (2 ^ 31 + 1)].getD i ⊥⟩
    medianValOf false im = some (UINT32.wrap (2 ^ 31 + 1)) ∧ maxValOf false im = UINT32.wrap (2 ^ 31 + 1) := by
  decide +kernel

/-- The position reported for the least non-zero pixel is a pixel of value zero. -/
theorem C17_minpos_bug :
    let im : Img (Px UINT8) := im8 ⟨2, 2, 1⟩ [0, 0, 0, 255]
    minValPos true im = some (⊤, ⟨0, 0, 0⟩) ∧ im.at? ⟨0, 0, 0⟩ = some (UINT8.wrap 0) := by
  decide +kernel

/-- The bounding box of an all-zero image is inside out. -/
theorem C17_emptybox_bug : measBoundBox (im8 ⟨3, 2, 1⟩ [0, 0, 0, 0, 0, 0]) = [3, 2, 0, 0] := by
  decide +kernel

/-! ### Examples -/

example :
    let im : Img (Px UINT8) := im8 ⟨4, 2, 1⟩ [0, 3, 3, 0, 7, 0, 9, 7]
    areaOf im = 5 ∧ volOf im = 29 ∧ minValOf true im = UINT8.wrap 3 ∧ minValOf false im = ⊥ ∧
      valueListOf true im = [UINT8.wrap 3, UINT8.wrap 7, UINT8.wrap 9] ∧
      modeValOf true im = some (UINT8.wrap 3) ∧ medianValOf true im = some (UINT8.wrap 7) ∧
      minValPos true im = some (UINT8.wrap 3, ⟨1, 0, 0⟩) ∧ nonZeroOffsets im = [1, 2, 4, 6, 7] ∧
      measBoundBox im = [0, 0, 3, 1] ∧ measMoments true im = [29, 48, 23, 39, 114, 23] := by
  decide +kernel

example : considered true (im8 ⟨4, 2, 1⟩ [0, 3, 3, 0, 7, 0, 9, 7]) ≠ [] := by decide +kernel

end

end Smil
