import Verif.GranCdf
import Verif.PropsMorphoAlgebra
import Mathlib.Algebra.Order.Ring.Rat
import Mathlib.Algebra.Order.Field.Basic
import Mathlib.Tactic.FieldSimp
import Mathlib.Tactic.Linarith

/-!
# C33, continued: the curve of the granulometry and its cumulated form
-/

namespace Smil
variable {t : PT}

/-! ### Every step -/

theorem granStep_res {E : Env (Px t)} {se : StrElt} {step : Nat} {s s' : GranState t} (h : granStep E se step s = some s') : ∃ x, s'.res = s.res ++ [x] := by
  unfold granStep at h
  obtain ⟨_, -, h⟩ := Option.bind_eq_some_iff.mp h
  obtain ⟨_, -, h⟩ := Option.bind_eq_some_iff.mp h
  obtain ⟨_, -, h⟩ := Option.bind_eq_some_iff.mp h
  obtain ⟨_, -, h⟩ := Option.bind_eq_some_iff.mp h
  rw [← Option.some.inj h]
  exact ⟨_, rfl⟩

/-- The first `i` volumes add up to what the opening of size `i * step` removes. -/
def GranPre (se : StrElt) (step : Nat) (f : Img (Px t)) (res : List Int) : Prop :=
  ∀ i ≤ res.length, ∃ g, IsOpenBy (seRel se) (i * step) f g ∧ (res.take i).sum = f.vol - g.vol

/-- **C33** (partial: `SEOk`, exact integers): when the granulometry ends, the first `i` volumes add up, for each `i`, to the volume that the opening of size `i * step` removes. So the `i`-th volume is
the difference between the volumes of two successive openings. -/
theorem C33_steps_partial (E : Env (Px t)) (se : StrElt) (step maxSe fuel : Nat) (f : Img (Px t)) (ha : f.alloc = true) (hse : SEOk f.dims se) (res : List Int)
    (h : measGranulometry E se step maxSe fuel f = some res) : ∀ i ≤ res.length, ∃ g, IsOpenBy (seRel se) (i * step) f g ∧ (res.take i).sum = f.vol - g.vol := by
  have hinit : GranInv se step f 0 ⟨f, ⟨f.dims, E.raw⟩, step, f.vol, []⟩ :=
    ⟨by simp only [Nat.zero_mul]; exact Img.Same.refl f, by simp, ⟨f, by
      simp only [Nat.zero_mul]; exact ⟨f, Img.Same.refl f, Img.Same.refl f⟩, rfl⟩, rfl, rfl, by simp,
      by simp⟩
  have main : ∀ fuel k s s', GranInv se step f k s → GranPre se step f s.res →
      granLoop E se step maxSe f.minVal fuel s = some s' → GranPre se step f s'.res := by
    intro fuel
    induction fuel with
    | zero => intro k s s' _ _ h; cases h
    | succ fuel ih =>
      intro k s s' hi hp h
      obtain ⟨s1, h1, h2⟩ := granStep_inv E se step f ha hse k s hi
      have hp1 : GranPre se step f s1.res := by
        obtain ⟨x, hx⟩ := granStep_res h1
        intro i hi'
        by_cases hlt : i ≤ s.res.length
        · rw [hx, List.take_append_of_le_length hlt]
          exact hp i hlt
        · have hl : s1.res.length = k + 1 := h2.len
          have hl0 : s.res.length = k := hi.len
          have : i = k + 1 := by omega
          obtain ⟨g, hg, hv⟩ := h2.opn
          refine ⟨g, by rw [this]; exact hg, ?_⟩
          rw [List.take_of_length_le (by omega), h2.sum, hv]
      simp only [granLoop, h1, Option.bind_some] at h
      split at h
      · exact ih (k + 1) s1 s' h2 hp1 h
      · cases h; exact hp1
  unfold measGranulometry at h
  rw [Option.map_eq_some_iff] at h
  obtain ⟨s', h1, rfl⟩ := h
  refine main fuel 0 _ s' hinit ?_ h1
  intro i hi
  have hi : i = 0 := by simpa using hi
  subst hi
  exact ⟨f, by simp only [Nat.zero_mul]; exact ⟨f, Img.Same.refl f, Img.Same.refl f⟩, by simp⟩

/-! ### The cumulated form -/

theorem foldl_sum_rat : ∀ (l : List Int) (s : ℚ), l.foldl (fun (s : ℚ) (x : Int) => s + (x : ℚ)) s = s + (l.sum : ℚ)
  | [], s => by simp
  | x :: l, s => by
    rw [List.foldl_cons, foldl_sum_rat l]
    simp only [List.sum_cons]
    push_cast
    ring

theorem cdfFrom_length (a : ℚ) : ∀ (l : List Int) (p : ℚ), (cdfFrom a p l).length = l.length
  | [], _ => rfl
  | x :: l, p => by
    show (cdfFrom a _ l).length + 1 = l.length + 1
    rw [cdfFrom_length a l]

theorem cdfFrom_get (a : ℚ) : ∀ (l : List Int) (p : ℚ) (i : Nat), i < l.length → (cdfFrom a p l)[i]? = some (p + ((l.take (i + 1)).sum : ℚ) / a)
  | [], _, _, h => by simp at h
  | x :: l, p, 0, _ => by
    show some _ = _
    congr 1
    simp
    ring
  | x :: l, p, i + 1, h => by
    show (cdfFrom a _ l)[i]? = _
    rw [cdfFrom_get a l _ i (by simpa using h)]
    congr 1
    rw [List.take_succ_cons, List.sum_cons]
    push_cast
    ring

theorem granCDF_some {res : List Int} {r : List ℚ} (h : granCDF res = some r) :
    (res.sum : ℚ) ≠ 0 ∧ r.length = res.length ∧ ∀ i < res.length, r[i]? = some (((res.take (i + 1)).sum : ℚ) / (res.sum : ℚ)) := by
  unfold granCDF at h
  rw [foldl_sum_rat, zero_add] at h
  cases res with
  | nil => cases h
  | cons x l =>
    simp only at h
    split at h
    · cases h
    · rename_i h0
      refine ⟨h0, ?_⟩
      rw [← Option.some.inj h]
      refine ⟨by rw [List.length_cons, cdfFrom_length, List.length_cons], fun i hi => ?_⟩
      cases i with
      | zero => simp
      | succ i =>
        show (cdfFrom _ _ l)[i]? = _
        rw [cdfFrom_get _ l _ i (by simpa using hi)]
        rw [List.take_succ_cons, List.sum_cons (l := l.take (i + 1))]
        congr 1
        push_cast
        ring

theorem take_sum_mono {l : List Int} (h : ∀ x ∈ l, 0 ≤ x) {i j : Nat} (hij : i ≤ j) : (l.take i).sum ≤ (l.take j).sum := by
  have e : l.take j = l.take i ++ (l.take j).drop i := by
    conv_lhs => rw [← List.take_append_drop i (l.take j)]
    rw [List.take_take, Nat.min_eq_left hij]
  rw [e, List.sum_append]
  have : 0 ≤ ((l.take j).drop i).sum := List.sum_nonneg fun x hx => h x (List.mem_of_mem_take (List.mem_of_mem_drop hx))
  omega

/-- **C33, the cumulated form** (partial: `SEOk`, unsigned types, exact arithmetic). When the result is made of numbers, it is a distribution function: its values lie between 0 and 1, never decrease, and the
last one is 1; the `i`-th is the part that the opening of size `(i + 1) * step` removes of what the last opening removes. -/
theorem C33_cdf_partial (hs : t.signed = false) (E : Env (Px t)) (se : StrElt) (step maxSe fuel : Nat) (f : Img (Px t)) (ha : f.alloc = true) (hse : SEOk f.dims se) (r : List ℚ)
    (h : measGranulometryCDF E se step maxSe fuel f = some (some r)) :
    r ≠ [] ∧ (∀ x ∈ r, 0 ≤ x ∧ x ≤ 1) ∧ (∀ (i j : Nat) x y, i ≤ j → r[i]? = some x → r[j]? = some y → x ≤ y) ∧ r[r.length - 1]? = some 1 ∧
    ∃ gl, IsOpenBy (seRel se) (r.length * step) f gl ∧ gl.vol < f.vol ∧
      ∀ i < r.length, ∃ g, IsOpenBy (seRel se) ((i + 1) * step) f g ∧ r[i]? = some (((f.vol - g.vol : Int) : ℚ) / ((f.vol - gl.vol : Int) : ℚ)) := by
  obtain ⟨res, h1, h2⟩ := Option.map_eq_some_iff.mp h
  obtain ⟨k1, k2, k3, -⟩ := C33_granulometry_partial hs E se step maxSe fuel f ha hse res h1
  have hst := C33_steps_partial E se step maxSe fuel f ha hse res h1
  obtain ⟨c1, c2, c3⟩ := granCDF_some h2
  have hpos : (0 : ℚ) < (res.sum : ℚ) := lt_of_le_of_ne (by exact_mod_cast List.sum_nonneg k1) (Ne.symm c1)
  have hlen : 0 < res.length := List.length_pos_iff.mpr k3
  have hget : ∀ i x, r[i]? = some x → i < res.length ∧ x = ((res.take (i + 1)).sum : ℚ) / (res.sum : ℚ) := by
    intro i x hx
    have hi : i < res.length := by rw [← c2]; exact (List.getElem?_eq_some_iff.mp hx).1
    rw [c3 i hi] at hx
    exact ⟨hi, (Option.some.inj hx).symm⟩
  have hfull : ∀ i, (res.take i).sum ≤ res.sum := by
    intro i
    by_cases hi : i ≤ res.length
    · have := take_sum_mono k1 hi
      rwa [List.take_length] at this
    · rw [List.take_of_length_le (by omega)]
  refine ⟨?_, ?_, ?_, ?_, ?_⟩
  · intro e
    rw [e] at c2
    simp at c2
    omega
  · intro x hx
    obtain ⟨i, hi⟩ := List.mem_iff_getElem?.mp hx
    obtain ⟨-, rfl⟩ := hget i x hi
    have n0 : (0 : ℚ) ≤ ((res.take (i + 1)).sum : ℚ) := by
      exact_mod_cast List.sum_nonneg fun x hx => k1 x (List.mem_of_mem_take hx)
    have n1 : ((res.take (i + 1)).sum : ℚ) ≤ (res.sum : ℚ) := by exact_mod_cast hfull (i + 1)
    exact ⟨div_nonneg n0 hpos.le, (div_le_one hpos).mpr n1⟩
  · intro i j x y hij hx hy
    obtain ⟨-, rfl⟩ := hget i x hx
    obtain ⟨-, rfl⟩ := hget j y hy
    have : ((res.take (i + 1)).sum : ℚ) ≤ ((res.take (j + 1)).sum : ℚ) := by
      exact_mod_cast take_sum_mono k1 (by omega)
    exact div_le_div_of_nonneg_right this hpos.le
  · rw [c2, c3 _ (by omega), show res.length - 1 + 1 = res.length by omega, List.take_length, div_self c1]
  · obtain ⟨gl, hg, hv⟩ := hst res.length le_rfl
    rw [List.take_length] at hv
    refine ⟨gl, by rw [c2]; exact hg, ?_, fun i hi => ?_⟩
    · have : (0 : Int) < res.sum := by exact_mod_cast hpos
      omega
    · rw [c2] at hi
      obtain ⟨g, hg', hv'⟩ := hst (i + 1) (by omega)
      refine ⟨g, hg', ?_⟩
      rw [c3 i hi, hv, hv']

/-- **C33, the cumulated form fails** exactly when the last opening removes nothing: the values are then quotients of zeros. -/
theorem C33_nan_bug (hs : t.signed = false) (E : Env (Px t)) (se : StrElt) (step maxSe fuel : Nat) (f : Img (Px t)) (ha : f.alloc = true) (hse : SEOk f.dims se) (res : List Int)
    (h : measGranulometry E se step maxSe fuel f = some res) :
    measGranulometryCDF E se step maxSe fuel f = some none ↔ ∃ g, IsOpenBy (seRel se) (res.length * step) f g ∧ g.vol = f.vol := by
  obtain ⟨-, -, k3, g, hg, hv⟩ := C33_granulometry_partial hs E se step maxSe fuel f ha hse res h
  have hc : granCDF res = none ↔ res.sum = 0 := by
    unfold granCDF
    rw [foldl_sum_rat, zero_add]
    cases res with
    | nil => exact absurd rfl k3
    | cons x l =>
      simp only
      split
      · rename_i h0
        exact ⟨fun _ => by exact_mod_cast h0, fun _ => rfl⟩
      · rename_i h0
        refine ⟨fun h => ?_, fun h => absurd ?_ h0⟩
        · cases h
        · rw [h]; rfl
  unfold measGranulometryCDF
  rw [h]
  show some (granCDF res) = some none ↔ _
  rw [Option.some.injEq, hc]
  constructor
  · intro h0
    exact ⟨g, hg, by omega⟩
  · rintro ⟨g', hg', hv'⟩
    have h1 := vol_le (open_decreasing (k := 0) hg hg')
    have h2 := vol_le (open_decreasing (k := 0) hg' hg)
    omega

/-- The granulometry of the example of C33, cumulated, and its hypotheses. -/
example : measGranulometryCDF exEnv8 exSe 1 2 5 exIm8 = some (some [243 / 251, 1]) ∧ exIm8.alloc = true ∧ SEOk exIm8.dims exSe :=
  ⟨by decide +kernel, by decide, seOk_iff _ _ (by decide)⟩

/-- A constant image: no number in the result. -/
theorem C33_constant_bug : measGranulometryCDF exEnv8 exSe 1 2 5 ⟨⟨2, 2, 1⟩, fun _ => UINT8.wrap 7⟩ = some none := by decide +kernel

/-! ### The loop may run for ever -/

theorem iterEro_keeps {N : IntPoint → IntPoint → Prop} {v : Px t} {p : IntPoint} : ∀ (n : Nat) (f e : Img (Px t)), IterRel (IsEroBy N) n f e →
    (∀ q u, Relation.ReflTransGen N p q → f.at? q = some u → v ≤ u) → ∀ w, e.at? p = some w → v ≤ w
  | 0, f, e, h, hf, w, hw => hf p w .refl (by rw [← hw]; exact (h.2 p))
  | n + 1, f, e, h, hf, w, hw => by
    obtain ⟨m, h1, h2⟩ := h
    refine iterEro_keeps n m e h2 (fun q u hq hu => ?_) w hw
    have hin : Img.In f.dims q := by rw [← h1.1]; exact Img.at?_eq_some_in _ _ _ hu
    obtain ⟨x, hx, hg⟩ := h1.2 q hin
    rw [hx] at hu
    rw [← Option.some.inj hu]
    refine hg.2 ?_
    rintro y ⟨r, hr, hy⟩
    exact hf r y (hq.tail hr) hy

theorem le_foldl_max {α : Type} [LinearOrder α] : ∀ (l : List α) (b : α), b ≤ l.foldl max b ∧ ∀ x ∈ l, x ≤ l.foldl max b
  | [], b => ⟨le_rfl, fun x hx => by cases hx⟩
  | y :: l, b => by
    obtain ⟨h1, h2⟩ := le_foldl_max l (max b y)
    refine ⟨(le_max_left b y).trans h1, fun x hx => ?_⟩
    rcases List.mem_cons.mp hx with rfl | hx
    · exact (le_max_right b x).trans h1
    · exact h2 x hx

theorem at?_le_maxVal (e : Img (Px t)) {p : IntPoint} {w : Px t} (h : e.at? p = some w) : w ≤ e.maxVal := by
  obtain ⟨i, hi, h1, -⟩ := Img.at?_buf e p w h
  exact (le_foldl_max _ _).2 _ (List.mem_map.mpr ⟨i, List.mem_range.mpr hi, h1⟩)

/-- **C33 fails: the loop may run for ever.** Without a maximal size, let `p` be a pixel such that all the pixels that steps of the element reach from it have at least a value `v` greater than the least value
of the image. Then the erosions never become as low as the least value, and no number of turns ends the loop. -/
theorem C33_endless_bug (E : Env (Px t)) (se : StrElt) (step fuel : Nat) (f : Img (Px t)) (ha : f.alloc = true) (hse : SEOk f.dims se) (p : IntPoint) (v : Px t) (hp : Img.In f.dims p)
    (hv : f.minVal < v) (hf : ∀ q u, Relation.ReflTransGen (seRel se) p q → f.at? q = some u → v ≤ u) : measGranulometry E se step 0 fuel f = none := by
  have hinit : GranInv se step f 0 ⟨f, ⟨f.dims, E.raw⟩, step, f.vol, []⟩ :=
    ⟨by simp only [Nat.zero_mul]; exact Img.Same.refl f, by simp, ⟨f, by
      simp only [Nat.zero_mul]; exact ⟨f, Img.Same.refl f, Img.Same.refl f⟩, rfl⟩, rfl, rfl, by simp,
      by simp⟩
  have main : ∀ fuel k s, GranInv se step f k s → granLoop E se step 0 f.minVal fuel s = none := by
    intro fuel
    induction fuel with
    | zero => intro k s _; rfl
    | succ fuel ih =>
      intro k s hi
      obtain ⟨s1, h1, h2⟩ := granStep_inv E se step f ha hse k s hi
      simp only [granLoop, h1, Option.bind_some]
      have hin : Img.In s1.imEro.dims p := by rw [iterEro_dims h2.ero]; exact hp
      have hw := Img.at?_some s1.imEro p hin
      have hle := iterEro_keeps _ _ _ h2.ero hf _ hw
      rw [if_pos ⟨lt_of_lt_of_le hv (hle.trans (at?_le_maxVal _ hw)), .inl trivial⟩]
      exact ih (k + 1) s1 h2
  unfold measGranulometry
  rw [main fuel 0 _ hinit]
  rfl

/-- Such an image for the horizontal element of two points: two lines with different values. -/
example (fuel : Nat) : measGranulometry exEnv8 exSe 1 0 fuel (Img.ofRows ⊥ ⟨1, 2, 1⟩ [[[UINT8.wrap 0], [UINT8.wrap 5]]]) = none := by
  refine C33_endless_bug _ _ _ _ _ (by decide) (seOk_iff _ _ (by decide)) ⟨0, 1, 0⟩ (UINT8.wrap 5) (by decide) (by decide +kernel) ?_
  intro q u hq hu
  have hy : ∀ q, Relation.ReflTransGen (seRel exSe) ⟨0, 1, 0⟩ q → q.y = 1 := by
    intro q hq
    induction hq with
    | refl => rfl
    | @tail c d _ h ih =>
      obtain ⟨b, hb, e⟩ := h
      have e2 : c.y + b.y = d.y := congrArg (fun x : Int × Int × Int => x.2.1) e
      have hb0 : b.y = 0 := by
        rcases List.mem_cons.mp hb with rfl | hb
        · rfl
        · rw [List.mem_singleton.mp hb]
      omega
  obtain ⟨x, y, z⟩ := q
  obtain rfl : y = 1 := hy _ hq
  have hin : Img.In ⟨1, 2, 1⟩ ⟨x, 1, z⟩ := Img.at?_eq_some_in _ _ _ hu
  obtain ⟨a1, a2, -, -, a3, a4⟩ := hin
  have a2 : x < 1 := a2
  have a4 : z < 1 := a4
  have a1 : 0 ≤ x := a1
  have a3 : 0 ≤ z := a3
  obtain rfl : x = 0 := by omega
  obtain rfl : z = 0 := by omega
  have h5 : (Img.ofRows ⊥ ⟨1, 2, 1⟩ [[[UINT8.wrap 0], [UINT8.wrap 5]]] : Img (Px UINT8)).at? ⟨0, 1, 0⟩ = some (UINT8.wrap 5) := by decide +kernel
  rw [h5] at hu
  rw [← Option.some.inj hu]

/-! ### The loop ends -/

theorem iterEro_below {N : IntPoint → IntPoint → Prop} (hN : ∀ p, N p p) : ∀ (n : Nat) (f e : Img (Px t)), IterRel (IsEroBy N) n f e →
    ∀ p w u, e.at? p = some w → f.at? p = some u → w ≤ u
  | 0, f, e, h, p, w, u, hw, hu => by
    have h2 := h.2 p
    rw [hw, hu] at h2
    exact (Option.some.inj h2).symm.le
  | n + 1, f, e, h, p, w, u, hw, hu => by
    obtain ⟨m, h1, h2⟩ := h
    obtain ⟨x, hx, hg⟩ := h1.2 p (Img.at?_eq_some_in _ _ _ hu)
    exact (iterEro_below hN n m e h2 p w x hw hx).trans (hg.1 ⟨p, hN p, hu⟩)

theorem iterEro_reach {N : IntPoint → IntPoint → Prop} (hN : ∀ p, N p p) (f : Img (Px t)) {p q : IntPoint} {u : Px t}
    (h : Relation.ReflTransGen (fun a b => N a b ∧ Img.In f.dims b) p q) (hu : f.at? q = some u) :
    ∃ M, ∀ n ≥ M, ∀ e, IterRel (IsEroBy N) n f e → ∀ w, e.at? p = some w → w ≤ u := by
  induction h using Relation.ReflTransGen.head_induction_on with
  | refl => exact ⟨0, fun n _ e he w hw => iterEro_below hN n f e he q w u hw hu⟩
  | @head a c hac _ ih =>
    obtain ⟨M, hM⟩ := ih
    refine ⟨M + 1, fun n hn e he w hw => ?_⟩
    obtain ⟨n, rfl⟩ : ∃ k, n = k + 1 := ⟨n - 1, by omega⟩
    obtain ⟨m, h1, m', h2, h3⟩ := iterEro_split.mp he
    have hd := iterEro_dims h1
    have hx := Img.at?_some m c (by rw [hd]; exact hac.2)
    have hle := hM n (by omega) m h1 _ hx
    have hw' : m'.at? a = some w := by rw [h3.2 a, hw]
    obtain ⟨y, hy, hg⟩ := h2.2 a (by rw [← h2.1]; exact Img.at?_eq_some_in _ _ _ hw')
    rw [hy] at hw'
    rw [← Option.some.inj hw']
    exact (hg.1 ⟨c, hac.1, hx⟩).trans hle

theorem foldl_max_le {α : Type} [LinearOrder α] : ∀ (l : List α) (b c : α), b ≤ c → (∀ x ∈ l, x ≤ c) → l.foldl max b ≤ c
  | [], _, _, h, _ => h
  | y :: l, b, c, h, hl => foldl_max_le l (max b y) c (max_le h (hl y (by simp))) fun x hx => hl x (by simp [hx])

/-- **C33: the loop ends** (partial: `SEOk`). If the element contains the origin, the step is not zero, and from each pixel steps of the element inside of the image lead to a pixel of least value, some number of turns is
enough, whatever the maximal size. -/
theorem C33_ends_partial (E : Env (Px t)) (se : StrElt) (step maxSe : Nat) (f : Img (Px t)) (ha : f.alloc = true) (hse : SEOk f.dims se) (h0 : (⟨0, 0, 0⟩ : IntPoint) ∈ se.points) (hst : step ≠ 0)
    (hf : ∀ p, Img.In f.dims p → ∃ q, Relation.ReflTransGen (fun a b => seRel se a b ∧ Img.In f.dims b) p q ∧ f.at? q = some f.minVal) :
    ∃ M, ∀ fuel ≥ M, ∃ res, measGranulometry E se step maxSe fuel f = some res := by
  have hN : ∀ p, seRel se p p := fun p => ⟨_, h0, by unfold phys; simp⟩
  have hall : ∀ c ≤ f.dims.count, ∃ M, ∀ n ≥ M, ∀ e, IterRel (IsEroBy (seRel se)) n f e → ∀ i < c, e.buf i ≤ f.minVal := by
    intro c
    induction c with
    | zero => exact fun _ => ⟨0, fun n _ e _ i hi => by omega⟩
    | succ c ih =>
      intro hc
      obtain ⟨M, hM⟩ := ih (by omega)
      obtain ⟨p, hp, hidx⟩ := Img.buf_at? f c (by omega)
      have hin := Img.at?_eq_some_in _ _ _ hp
      obtain ⟨q, hq, hu⟩ := hf p hin
      obtain ⟨M', hM'⟩ := iterEro_reach hN f hq hu
      refine ⟨max M M', fun n hn e he i hi => ?_⟩
      by_cases hic : i < c
      · exact hM n (le_trans (le_max_left _ _) hn) e he i hic
      · obtain rfl : i = c := by omega
        refine hM' n (le_trans (le_max_right _ _) hn) e he _ ?_
        have hd := iterEro_dims he
        rw [Img.at?_some e p (by rw [hd]; exact hin)]
        show some (e.buf (rasterIndex e.dims.w e.dims.h p.x.toNat p.y.toNat p.z.toNat)) = _
        rw [hd, hidx]
  obtain ⟨M, hM⟩ := hall _ le_rfl
  have hinit : GranInv se step f 0 ⟨f, ⟨f.dims, E.raw⟩, step, f.vol, []⟩ :=
    ⟨by simp only [Nat.zero_mul]; exact Img.Same.refl f, by simp, ⟨f, by
      simp only [Nat.zero_mul]; exact ⟨f, Img.Same.refl f, Img.Same.refl f⟩, rfl⟩, rfl, rfl, by simp,
      by simp⟩
  have main : ∀ fuel k s, GranInv se step f k s → 0 < fuel → M ≤ k + fuel → ∃ s', granLoop E se step maxSe f.minVal fuel s = some s' := by
    intro fuel
    induction fuel with
    | zero => intro k s _ h; omega
    | succ fuel ih =>
      intro k s hi _ hk
      obtain ⟨s1, h1, h2⟩ := granStep_inv E se step f ha hse k s hi
      simp only [granLoop, h1, Option.bind_some]
      split
      · rename_i hc
        by_cases hz : fuel = 0
        · exfalso
          have hge : M ≤ (k + 1) * step := le_trans (by omega) (Nat.le_mul_of_pos_right (k + 1) (Nat.pos_of_ne_zero hst))
          have hle : s1.imEro.maxVal ≤ f.minVal := by
            refine foldl_max_le _ _ _ bot_le fun x hx => ?_
            obtain ⟨i, hi', rfl⟩ := List.mem_map.mp hx
            refine hM _ hge _ h2.ero i ?_
            rw [← iterEro_dims h2.ero]
            exact List.mem_range.mp hi'
          exact absurd hc.1 (not_lt.mpr hle)
        · exact ih (k + 1) s1 h2 (by omega) (by omega)
      · exact ⟨_, rfl⟩
  refine ⟨M + 1, fun fuel hfu => ?_⟩
  obtain ⟨s', h⟩ := main fuel 0 _ hinit (by omega) (by omega)
  unfold measGranulometry
  rw [h]
  exact ⟨_, rfl⟩

example : ∃ M, ∀ fuel ≥ M, ∃ res, measGranulometry exEnv8 exSe 1 0 fuel (Img.ofRows ⊥ ⟨2, 1, 1⟩ [[[UINT8.wrap 5, UINT8.wrap 0]]]) = some res := by
  refine C33_ends_partial _ _ _ _ _ (by decide) (seOk_iff _ _ (by decide)) (by decide) (by decide) fun p hp => ⟨⟨1, 0, 0⟩, ?_, by decide +kernel⟩
  obtain ⟨x, y, z⟩ := p
  obtain ⟨a1, a2, a3, a4, a5, a6⟩ := hp
  have a1 : 0 ≤ x := a1
  have a2 : x < 2 := a2
  have a3 : 0 ≤ y := a3
  have a4 : y < 1 := a4
  have a5 : 0 ≤ z := a5
  have a6 : z < 1 := a6
  obtain rfl : y = 0 := by omega
  obtain rfl : z = 0 := by omega
  obtain rfl | rfl : x = 1 ∨ x = 0 := by omega
  · exact Relation.ReflTransGen.refl
  · exact Relation.ReflTransGen.single ⟨⟨⟨1, 0, 0⟩, by decide, by decide⟩, by decide⟩

end Smil
