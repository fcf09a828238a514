import Verif.Distance
import Mathlib.Order.Bounds.Basic

/-!
# Lemmas on the distance functions
-/

namespace Smil

section
variable {α β : Type}

/-! ### Lines -/

theorem col_length (im : Img α) (x z : Nat) : (im.col x z).length = im.dims.h := by simp [Img.col]
theorem row_length (im : Img α) (y z : Nat) : (im.row y z).length = im.dims.w := by simp [Img.row]
theorem dep_length (im : Img α) (x y : Nat) : (im.dep x y).length = im.dims.d := by simp [Img.dep]

theorem col_get (im : Img α) (x z : Nat) {y : Nat} (h : y < im.dims.h) :
    (im.col x z)[y]? = some (im.px x y z) := by simp [Img.col, h]
theorem row_get (im : Img α) (y z : Nat) {x : Nat} (h : x < im.dims.w) :
    (im.row y z)[x]? = some (im.px x y z) := by simp [Img.row, h]
theorem dep_get (im : Img α) (x y : Nat) {z : Nat} (h : z < im.dims.d) :
    (im.dep x y)[z]? = some (im.px x y z) := by simp [Img.dep, h]

theorem onCols_px [Inhabited β] (F : List α → List β) (im : Img α) (hF : ∀ l, (F l).length = l.length)
    {x y z : Nat} (hx : x < im.dims.w) (hy : y < im.dims.h) :
    (F (im.col x z))[y]? = some ((im.onCols F).px x y z) := by
  unfold Img.onCols
  rw [Img.ofFn_px _ _ _ _ _ hx hy]
  have : y < (F (im.col x z)).length := by rw [hF, col_length]; exact hy
  rw [List.getElem?_eq_getElem this]; rfl

theorem onRows_px [Inhabited β] (F : List α → List β) (im : Img α) {x y z : Nat}
    (hF : (F (im.row y z)).length = im.dims.w) (hx : x < im.dims.w) (hy : y < im.dims.h) :
    (F (im.row y z))[x]? = some ((im.onRows F).px x y z) := by
  unfold Img.onRows
  rw [Img.ofFn_px _ _ _ _ _ hx hy]
  have : x < (F (im.row y z)).length := by rw [hF]; exact hx
  rw [List.getElem?_eq_getElem this]; rfl

theorem onDepth_px [Inhabited β] (F : List α → List β) (im : Img α) {x y z : Nat}
    (hF : (F (im.dep x y)).length = im.dims.d) (hx : x < im.dims.w) (hy : y < im.dims.h)
    (hz : z < im.dims.d) :
    (F (im.dep x y))[z]? = some ((im.onDepth F).px x y z) := by
  unfold Img.onDepth
  rw [Img.ofFn_px _ _ _ _ _ hx hy]
  have : z < (F (im.dep x y)).length := by rw [hF]; exact hz
  rw [List.getElem?_eq_getElem this]; rfl

theorem scanFrom_length (f : α → α → α) (p : α) (l : List α) : (scanFrom f p l).length = l.length := by
  induction l generalizing p with
  | nil => rfl
  | cons c l ih => simp [scanFrom, ih]

theorem scan_length (f : α → α → α) (l : List α) : (scan f l).length = l.length := by
  cases l with
  | nil => rfl
  | cons c l => simp [scan, scanFrom_length]

theorem scanBack_length (f : α → α → α) (l : List α) : (scanBack f l).length = l.length := by
  induction l with
  | nil => rfl
  | cons c l ih =>
    unfold scanBack
    cases h : scanBack f l with
    | nil => rw [h] at ih; simp at ih; simp [ih]
    | cons n r => rw [h] at ih; simpa using ih

/-- The loops act on values only. -/
theorem scanFrom_map (f : α → α → α) (g : β → β → β) (v : α → β) (P : α → Prop)
    (h : ∀ p c, P p → P c → P (f p c) ∧ v (f p c) = g (v p) (v c)) (p : α) (hp : P p) (l : List α)
    (hl : ∀ c ∈ l, P c) :
    (scanFrom f p l).map v = scanFrom g (v p) (l.map v) ∧ ∀ c ∈ scanFrom f p l, P c := by
  induction l generalizing p with
  | nil => simp [scanFrom]
  | cons c l ih =>
    have hc := hl c List.mem_cons_self
    have h1 := h p c hp hc
    have := ih (f p c) h1.1 (fun d hd => hl d (List.mem_cons_of_mem _ hd))
    simp only [scanFrom, List.map_cons, this.1, h1.2, true_and]
    intro d hd
    rcases List.mem_cons.mp hd with rfl | hd
    · exact h1.1
    · exact this.2 d hd

theorem scan_map (f : α → α → α) (g : β → β → β) (v : α → β) (P : α → Prop)
    (h : ∀ p c, P p → P c → P (f p c) ∧ v (f p c) = g (v p) (v c)) (l : List α) (hl : ∀ c ∈ l, P c) :
    (scan f l).map v = scan g (l.map v) ∧ ∀ c ∈ scan f l, P c := by
  cases l with
  | nil => simp [scan]
  | cons c l =>
    have := scanFrom_map f g v P h c (hl c List.mem_cons_self) l
      (fun d hd => hl d (List.mem_cons_of_mem _ hd))
    simp only [scan, List.map_cons, this.1, true_and]
    intro d hd
    rcases List.mem_cons.mp hd with rfl | hd
    · exact hl _ List.mem_cons_self
    · exact this.2 d hd

theorem scanBack_map (f : α → α → α) (g : β → β → β) (v : α → β) (P : α → Prop)
    (h : ∀ p c, P p → P c → P (f p c) ∧ v (f p c) = g (v p) (v c)) (l : List α) (hl : ∀ c ∈ l, P c) :
    (scanBack f l).map v = scanBack g (l.map v) ∧ ∀ c ∈ scanBack f l, P c := by
  induction l with
  | nil => simp [scanBack]
  | cons c l ih =>
    have hc := hl c List.mem_cons_self
    have ih := ih (fun d hd => hl d (List.mem_cons_of_mem _ hd))
    cases hr : scanBack f l with
    | nil =>
      rw [hr] at ih
      simp only [List.map_nil] at ih
      simp only [scanBack, hr, List.map_cons, ← ih.1, List.map_nil, List.mem_singleton, true_and]
      rintro d rfl; exact hc
    | cons n r =>
      rw [hr] at ih
      simp only [List.map_cons] at ih
      have hn : P n := ih.2 n List.mem_cons_self
      have h1 := h n c hn hc
      simp only [scanBack, hr, List.map_cons, ← ih.1, h1.2, true_and]
      intro d hd
      rcases List.mem_cons.mp hd with rfl | hd
      · exact h1.1
      · exact ih.2 d hd

end

/-! ### Two loops with `min (p + 1) c` -/

/-- The step on values. -/
def mstep (p c : Int) : Int := min (p + 1) c

theorem scanFrom_least (p : Int) (l : List Int) (x : Nat) (r : Int) (h : (scanFrom mstep p l)[x]? = some r) :
    IsLeast (insert (p + x + 1) {n | ∃ i ≤ x, ∃ v, l[i]? = some v ∧ n = v + (x - i : Int)}) r := by
  induction l generalizing p x with
  | nil => simp [scanFrom] at h
  | cons c l ih =>
    cases x with
    | zero =>
      simp only [scanFrom, List.getElem?_cons_zero, Option.some.injEq] at h
      subst h
      constructor
      · unfold mstep
        rcases min_choice (p + 1) c with e | e
        · left; rw [e]; simp
        · right; exact ⟨0, le_refl _, c, by simp, by rw [e]; simp⟩
      · rintro n (rfl | ⟨i, hi, v, hv, rfl⟩)
        · unfold mstep; simp
        · obtain rfl : i = 0 := by omega
          simp only [List.getElem?_cons_zero, Option.some.injEq] at hv; subst hv
          unfold mstep; simp
    | succ x =>
      simp only [scanFrom, List.getElem?_cons_succ] at h
      obtain ⟨h1, h2⟩ := ih _ x h
      constructor
      · rcases h1 with h1 | ⟨i, hi, v, hv, hr⟩
        · unfold mstep at h1
          rcases min_choice (p + 1) c with e | e
          · left; rw [e] at h1; rw [h1]; push_cast; ring
          · right
            exact ⟨0, by omega, c, by simp, by rw [h1, e]; push_cast; ring⟩
        · right
          exact ⟨i + 1, by omega, v, by simpa using hv, by rw [hr]; push_cast; ring⟩
      · rintro n (rfl | ⟨i, hi, v, hv, rfl⟩)
        · have := h2 (Or.inl rfl)
          unfold mstep at this
          have h3 := min_le_left (p + 1) c
          push_cast; omega
        · cases i with
          | zero =>
            simp only [List.getElem?_cons_zero, Option.some.injEq] at hv; subst hv
            have := h2 (Or.inl rfl)
            unfold mstep at this
            have h3 := min_le_right (p + 1) c
            push_cast; omega
          | succ i =>
            have := h2 (Or.inr ⟨i, by omega, v, by simpa using hv, rfl⟩)
            push_cast; omega

theorem scan_least (l : List Int) (x : Nat) (r : Int) (h : (scan mstep l)[x]? = some r) :
    IsLeast {n | ∃ i ≤ x, ∃ v, l[i]? = some v ∧ n = v + (x - i : Int)} r := by
  cases l with
  | nil => simp [scan] at h
  | cons c l =>
    cases x with
    | zero =>
      simp only [scan, List.getElem?_cons_zero, Option.some.injEq] at h
      subst h
      constructor
      · exact ⟨0, le_refl _, c, by simp, by simp⟩
      · rintro n ⟨i, hi, v, hv, rfl⟩
        obtain rfl : i = 0 := by omega
        simp only [List.getElem?_cons_zero, Option.some.injEq] at hv; subst hv; simp
    | succ x =>
      simp only [scan, List.getElem?_cons_succ] at h
      obtain ⟨h1, h2⟩ := scanFrom_least _ _ x r h
      constructor
      · rcases h1 with h1 | ⟨i, hi, v, hv, hr⟩
        · exact ⟨0, by omega, c, by simp, by rw [h1]; push_cast; ring⟩
        · exact ⟨i + 1, by omega, v, by simpa using hv, by rw [hr]; push_cast; ring⟩
      · rintro n ⟨i, hi, v, hv, rfl⟩
        cases i with
        | zero =>
          simp only [List.getElem?_cons_zero, Option.some.injEq] at hv; subst hv
          have := h2 (Or.inl rfl)
          push_cast; omega
        | succ i =>
          have := h2 (Or.inr ⟨i, by omega, v, by simpa using hv, rfl⟩)
          push_cast; omega

theorem scanBack_least (l : List Int) (x : Nat) (r : Int) (h : (scanBack mstep l)[x]? = some r) :
    IsLeast {n | ∃ i, x ≤ i ∧ ∃ v, l[i]? = some v ∧ n = v + (i - x : Int)} r := by
  induction l generalizing x r with
  | nil => simp [scanBack] at h
  | cons c l ih =>
    have hlen := scanBack_length mstep l
    cases x with
    | succ x =>
      have h' : (scanBack mstep l)[x]? = some r := by
        cases hr : scanBack mstep l with
        | nil => simp [scanBack, hr] at h
        | cons n s => simpa [scanBack, hr] using h
      obtain ⟨⟨i, hi, v, hv, e⟩, h2⟩ := ih x r h'
      refine ⟨⟨i + 1, by omega, v, by simpa using hv, by rw [e]; push_cast; ring⟩, ?_⟩
      rintro n ⟨i, hi, v, hv, rfl⟩
      cases i with
      | zero => omega
      | succ i =>
        have := h2 ⟨i, by omega, v, by simpa using hv, rfl⟩
        push_cast; omega
    | zero =>
      cases hr : scanBack mstep l with
      | nil =>
        rw [hr] at hlen
        have hl : l = [] := List.eq_nil_of_length_eq_zero hlen.symm
        subst hl
        simp only [scanBack, List.getElem?_cons_zero, Option.some.injEq] at h
        subst h
        refine ⟨⟨0, le_refl _, c, by simp, by simp⟩, ?_⟩
        rintro n ⟨i, hi, v, hv, rfl⟩
        cases i with
        | zero => simp only [List.getElem?_cons_zero, Option.some.injEq] at hv; subst hv; simp
        | succ i => simp at hv
      | cons n s =>
        simp only [scanBack, hr, List.getElem?_cons_zero, Option.some.injEq] at h
        obtain ⟨⟨i, hi, v, hv, e⟩, h2⟩ := ih 0 n (by rw [hr]; rfl)
        subst h
        constructor
        · unfold mstep
          rcases min_choice (n + 1) c with e' | e'
          · exact ⟨i + 1, by omega, v, by simpa using hv, by rw [e', e]; push_cast; ring⟩
          · exact ⟨0, by omega, c, by simp, by rw [e']; simp⟩
        · rintro m ⟨i, hi, v, hv, rfl⟩
          unfold mstep
          cases i with
          | zero => simp only [List.getElem?_cons_zero, Option.some.injEq] at hv; subst hv; simp
          | succ i =>
            have := h2 ⟨i, by omega, v, by simpa using hv, rfl⟩
            have h3 := min_le_left (n + 1) c
            push_cast at this ⊢; omega

/-- Both loops: the value at `x` is the smallest of `l i + |x - i|`. -/
theorem both_least (l : List Int) (x : Nat) (r : Int) (h : (scanBack mstep (scan mstep l))[x]? = some r) :
    IsLeast {n | ∃ (i : Nat) (v : _), l[i]? = some v ∧ n = v + |(x : Int) - i|} r := by
  obtain ⟨⟨i, hi, v, hv, e⟩, h2⟩ := scanBack_least _ x r h
  have hlen := scan_length mstep l
  constructor
  · obtain ⟨⟨j, hj, w, hw, e'⟩, _⟩ := scan_least l i v hv
    -- the pixel itself is not better
    refine ⟨j, w, hw, ?_⟩
    have hjx : j < l.length := (List.getElem?_eq_some_iff.mp hw).1
    have hil : i < l.length := by rw [← hlen]; exact (List.getElem?_eq_some_iff.mp hv).1
    have hle : r ≤ w + |(x : Int) - j| := by
      by_cases hxj : x ≤ j
      · have hj' : j < (scan mstep l).length := by omega
        obtain ⟨_, h4⟩ := scan_least l j _ (List.getElem?_eq_getElem hj')
        have h5 := h4 ⟨j, le_refl _, w, hw, rfl⟩
        have h6 := h2 ⟨j, hxj, _, List.getElem?_eq_getElem hj', rfl⟩
        rw [abs_of_nonpos (by omega)]; omega
      · have hx' : x < (scan mstep l).length := by omega
        obtain ⟨_, h4⟩ := scan_least l x _ (List.getElem?_eq_getElem hx')
        have h5 := h4 ⟨j, by omega, w, hw, rfl⟩
        have h6 := h2 ⟨x, le_refl _, _, List.getElem?_eq_getElem hx', rfl⟩
        rw [abs_of_nonneg (by omega)]; omega
    have : w + |(x : Int) - j| ≤ r := by
      rw [e, e']
      have : |(x : Int) - j| ≤ |(x : Int) - i| + |(i : Int) - j| := by
        have := abs_add_le ((x : Int) - i) (i - j)
        simpa using this
      have h1 : |(x : Int) - i| = i - x := by rw [abs_of_nonpos (by omega)]; omega
      have h2 : |(i : Int) - j| = i - j := abs_of_nonneg (by omega)
      omega
    omega
  · rintro n ⟨j, w, hw, rfl⟩
    have hjx : j < l.length := (List.getElem?_eq_some_iff.mp hw).1
    have hxl : x < l.length := by
      rw [← hlen, ← scanBack_length mstep]; exact (List.getElem?_eq_some_iff.mp h).1
    by_cases hxj : x ≤ j
    · have hj' : j < (scan mstep l).length := by omega
      obtain ⟨_, h4⟩ := scan_least l j _ (List.getElem?_eq_getElem hj')
      have h5 := h4 ⟨j, le_refl _, w, hw, rfl⟩
      have h6 := h2 ⟨j, hxj, _, List.getElem?_eq_getElem hj', rfl⟩
      rw [abs_of_nonpos (by omega)]; omega
    · have hx' : x < (scan mstep l).length := by omega
      obtain ⟨_, h4⟩ := scan_least l x _ (List.getElem?_eq_getElem hx')
      have h5 := h4 ⟨j, by omega, w, hw, rfl⟩
      have h6 := h2 ⟨x, le_refl _, _, List.getElem?_eq_getElem hx', rfl⟩
      rw [abs_of_nonneg (by omega)]; omega

/-! ### The steps of the code are this step -/

section
variable {t1 t2 : PT}

theorem PT.lo_le_zero (t : PT) : t.lo ≤ 0 := by
  unfold PT.lo; split_ifs
  · have := Nat.zero_le (2 ^ (t.bits - 1)); omega
  · exact le_refl _

@[simp] theorem dZero_val : (dZero : Px t2).val = 0 :=
  t2.wrap_of_mem t2.lo_le_zero t2.hi_nonneg

/-- A nonnegative value. -/
def NonN (p : Px t2) : Prop := 0 ≤ p.val

theorem wrap_inc {p : Px t2} (hp : NonN p) (h : p.val < t2.hi) : (t2.wrap (p.val + 1)).val = p.val + 1 := by
  unfold NonN at hp
  exact t2.wrap_of_mem (by have := t2.lo_le_zero; omega) (by omega)

theorem sideStep_val (p c : Px t2) (hp : NonN p) (hc : NonN c) :
    NonN (sideStep p c) ∧ (sideStep p c).val = mstep p.val c.val := by
  unfold sideStep mstep
  have h1 := p.le_hi; have h2 := c.le_hi
  unfold NonN at *
  split_ifs with h
  · have : p.val < c.val := h.2
    rw [wrap_inc hp (by omega)]
    constructor
    · omega
    · rw [min_eq_left (by omega)]
  · refine ⟨hc, ?_⟩
    rw [min_eq_right]
    by_contra hlt
    apply h
    have : p.val < c.val := by omega
    exact ⟨by omega, this⟩

theorem upSat_val (n c : Px t2) (hn : NonN n) (hc : NonN c) :
    NonN (upSat n c) ∧ (upSat n c).val = mstep n.val c.val := by
  have h1 := n.le_hi; have h2 := c.le_hi
  have h3 : n < ⊤ ↔ n.val < t2.hi := Iff.rfl
  unfold upSat mstep
  unfold NonN at *
  simp only
  by_cases hlt : n < ⊤
  · rw [if_pos hlt]
    have hv := wrap_inc hn (h3.mp hlt)
    by_cases hc' : t2.wrap (n.val + 1) < c
    · rw [if_pos hc', hv]
      have : (t2.wrap (n.val + 1)).val < c.val := hc'
      exact ⟨by omega, by rw [min_eq_left (by omega)]⟩
    · rw [if_neg hc']
      have : ¬ (t2.wrap (n.val + 1)).val < c.val := hc'
      exact ⟨hc, by rw [min_eq_right (by omega)]⟩
  · rw [if_neg hlt]
    have : ¬ n.val < t2.hi := fun h => hlt (h3.mpr h)
    have hc' : ¬ n < c := by
      intro h
      have : n.val < c.val := h
      omega
    rw [if_neg hc']
    exact ⟨hc, by rw [min_eq_right (by omega)]⟩

/-- The types for which `1 + p` never wraps. -/
theorem cInc_val (ht : t2.bits ≤ 16) (p : Px t2) : cInc p = p.val + 1 := by
  unfold cInc PT.promoted
  rw [if_pos ht]
  have h1 := p.le_hi; have h2 := p.lo_le
  have hb : t2.hi < 2 ^ 16 ∧ -(2 ^ 16) ≤ t2.lo := by
    unfold PT.hi PT.lo
    have e1 : (2 ^ (t2.bits - 1) : Nat) ≤ 2 ^ 16 := Nat.pow_le_pow_right (by omega) (by omega)
    have e2 : (2 ^ t2.bits : Nat) ≤ 2 ^ 16 := Nat.pow_le_pow_right (by omega) (by omega)
    split_ifs <;> omega
  apply PT.wrap_of_mem
  · have : INT32.lo = -(2 ^ 31) := by decide
    omega
  · have : INT32.hi = 2 ^ 31 - 1 := by decide
    omega

theorem upCpp_val (ht : t2.bits ≤ 16) (n c : Px t2) (hn : NonN n) (hc : NonN c) :
    NonN (upCpp n c) ∧ (upCpp n c).val = mstep n.val c.val := by
  have h1 := n.le_hi; have h2 := c.le_hi
  unfold upCpp mstep
  rw [cInc_val ht]
  unfold NonN at *
  simp only
  split_ifs with h3 h4 h4
  · omega
  · exact ⟨hc, by rw [min_eq_right (by omega)]⟩
  · rw [wrap_inc hn (by omega)]; exact ⟨by omega, by rw [min_eq_left (by omega)]⟩
  · exact ⟨hc, by rw [min_eq_right (by omega)]⟩

theorem upEuc_val (n c : Px t2) (hi : n.val < t2.hi → cInc n = n.val + 1) (hn : NonN n) (hc : NonN c) :
    NonN (upEuc n c) ∧ (upEuc n c).val = mstep n.val c.val := by
  have h1 := n.le_hi; have h2 := c.le_hi
  have h3 : n < c ↔ n.val < c.val := Iff.rfl
  unfold upEuc mstep
  unfold NonN at *
  split_ifs with h4 h5
  · rw [h3] at h4
    rw [hi (by omega), wrap_inc hn (by omega)]
    exact ⟨by omega, by rw [min_eq_left (by omega)]⟩
  · rw [h3] at h4
    rw [hi (by omega)] at h5
    refine ⟨t2.hi_nonneg, ?_⟩
    rw [Px.top_val, min_eq_left (by omega)]; omega
  · rw [h3] at h4
    exact ⟨hc, by rw [min_eq_right (by omega)]⟩

theorem incSat_val (p : Px t2) (hp : NonN p) : (incSat p).val = min (p.val + 1) t2.hi := by
  unfold incSat
  have h3 : p < ⊤ ↔ p.val < t2.hi := Iff.rfl
  split_ifs with h
  · rw [wrap_inc hp (h3.mp h), min_eq_left (h3.mp h)]
  · rw [h3] at h; rw [Px.top_val, min_eq_right (by omega)]

theorem incCpp_val (p : Px t2) (hi : cInc p = p.val + 1) (hp : NonN p) :
    (incCpp p).val = min (p.val + 1) t2.hi := by
  unfold incCpp
  rw [hi]
  split_ifs with h
  · rw [Px.top_val, min_eq_right (by omega)]
  · rw [wrap_inc hp (by omega), min_eq_left (by omega)]

/-- The values of the input that matter. -/
def initVal (t2 : PT) (v : Px t1) : Int := if v.val = 0 then 0 else t2.hi

theorem downFrom_length (inc : Px t2 → Px t2) (p : Px t2) (l : List (Px t1)) :
    (downFrom inc p l).length = l.length := by
  induction l generalizing p with
  | nil => rfl
  | cons c l ih => simp [downFrom, ih]

theorem down_length (inc : Px t2 → Px t2) (l : List (Px t1)) : (down inc l).length = l.length := by
  cases l with
  | nil => rfl
  | cons c l => simp [down, downFrom_length]

theorem downFrom_val (inc : Px t2 → Px t2) (hinc : ∀ p : Px t2, NonN p → (inc p).val = min (p.val + 1) t2.hi)
    (p : Px t2) (hp : NonN p) (l : List (Px t1)) :
    (downFrom inc p l).map Px.val = scanFrom mstep p.val (l.map (initVal t2)) ∧
      ∀ c ∈ downFrom inc p l, NonN c := by
  induction l generalizing p with
  | nil => simp [downFrom, scanFrom]
  | cons v l ih =>
    have hc : NonN (if v.val = 0 then dZero else inc p) ∧
        (if v.val = 0 then dZero else inc p).val = mstep p.val (initVal t2 v) := by
      unfold initVal mstep NonN
      unfold NonN at hp
      split_ifs
      · simp; omega
      · rw [hinc p hp]
        have := t2.hi_nonneg
        exact ⟨by rw [le_min_iff]; omega, rfl⟩
    have := ih _ hc.1
    simp only [downFrom, List.map_cons, scanFrom]
    rw [this.1, hc.2]
    refine ⟨rfl, ?_⟩
    intro d hd
    rcases List.mem_cons.mp hd with rfl | hd
    · exact hc.1
    · exact this.2 d hd

theorem down_val (inc : Px t2 → Px t2) (hinc : ∀ p : Px t2, NonN p → (inc p).val = min (p.val + 1) t2.hi)
    (l : List (Px t1)) :
    (down inc l).map Px.val = scan mstep (l.map (initVal t2)) ∧ ∀ c ∈ down inc l, NonN c := by
  cases l with
  | nil => simp [down, scan]
  | cons v l =>
    have hc : NonN (if v.val = 0 then (dZero : Px t2) else ⊤) ∧
        (if v.val = 0 then (dZero : Px t2) else ⊤).val = initVal t2 v := by
      unfold initVal NonN
      have := t2.hi_nonneg
      split_ifs <;> simp [this]
    have := downFrom_val inc hinc _ hc.1 l
    simp only [down, List.map_cons, scan]
    rw [this.1, hc.2]
    refine ⟨rfl, ?_⟩
    intro d hd
    rcases List.mem_cons.mp hd with rfl | hd
    · exact hc.1
    · exact this.2 d hd

/-- A column after the two vertical loops. -/
theorem column_least (inc : Px t2 → Px t2) (up : Px t2 → Px t2 → Px t2)
    (hinc : ∀ p : Px t2, NonN p → (inc p).val = min (p.val + 1) t2.hi)
    (hup : ∀ n c : Px t2, NonN n → NonN c → NonN (up n c) ∧ (up n c).val = mstep n.val c.val)
    (l : List (Px t1)) (y : Nat) (r : Px t2) (h : (scanBack up (down inc l))[y]? = some r) :
    NonN r ∧ IsLeast {n | ∃ (i : Nat) (v : _), l[i]? = some v ∧ n = initVal t2 v + |(y : Int) - i|} r.val := by
  obtain ⟨h1, h2⟩ := down_val inc hinc l
  obtain ⟨h3, h4⟩ := scanBack_map up mstep Px.val NonN hup (down inc l) h2
  refine ⟨h4 r (List.mem_of_getElem? h), ?_⟩
  have h5 : (scanBack mstep (scan mstep (l.map (initVal t2))))[y]? = some r.val := by
    rw [← h1, ← h3]; simp [h]
  have := both_least _ y r.val h5
  convert this using 2
  ext n
  constructor
  · rintro ⟨i, v, hv, e⟩; exact ⟨i, _, by simp [hv], e⟩
  · rintro ⟨i, w, hw, e⟩
    simp only [List.getElem?_map, Option.map_eq_some_iff] at hw
    obtain ⟨v, hv, rfl⟩ := hw
    exact ⟨i, v, hv, e⟩

/-- A line after the two loops of `distCross`. -/
theorem side_least (l : List (Px t2)) (hl : ∀ c ∈ l, NonN c) (x : Nat) (r : Px t2)
    (h : (sideLine l)[x]? = some r) :
    NonN r ∧ IsLeast {n | ∃ (i : Nat) (v : _), l[i]? = some v ∧ n = v.val + |(x : Int) - i|} r.val := by
  obtain ⟨h1, h2⟩ := scan_map sideStep mstep Px.val NonN sideStep_val l hl
  obtain ⟨h3, h4⟩ := scanBack_map sideStep mstep Px.val NonN sideStep_val _ h2
  refine ⟨h4 r (List.mem_of_getElem? h), ?_⟩
  have h5 : (scanBack mstep (scan mstep (l.map Px.val)))[x]? = some r.val := by
    rw [← h1, ← h3]
    unfold sideLine at h
    simp [h]
  have := both_least _ x r.val h5
  convert this using 2
  ext n
  constructor
  · rintro ⟨i, v, hv, e⟩; exact ⟨i, _, by simp [hv], e⟩
  · rintro ⟨i, w, hw, e⟩
    simp only [List.getElem?_map, Option.map_eq_some_iff] at hw
    obtain ⟨v, hv, rfl⟩ := hw
    exact ⟨i, v, hv, e⟩

theorem sideLine_length (l : List (Px t2)) : (sideLine l).length = l.length := by
  unfold sideLine; rw [scanBack_length, scan_length]

/-- The image after the vertical loops: at each pixel the smallest of `init + |y - y'|` over its column. -/
theorem cols_least (inc : Px t2 → Px t2) (up : Px t2 → Px t2 → Px t2)
    (hinc : ∀ p : Px t2, NonN p → (inc p).val = min (p.val + 1) t2.hi)
    (hup : ∀ n c : Px t2, NonN n → NonN c → NonN (up n c) ∧ (up n c).val = mstep n.val c.val)
    (im : Img (Px t1)) {x y : Nat} (z : Nat) (hx : x < im.dims.w) (hy : y < im.dims.h) :
    NonN ((im.onCols fun l => scanBack up (down inc l)).px x y z) ∧
    IsLeast {n | ∃ j < im.dims.h, n = initVal t2 (im.px x j z) + |(y : Int) - j|}
      ((im.onCols fun l => scanBack up (down inc l)).px x y z).val := by
  have h := onCols_px (fun l => scanBack up (down inc l)) im
    (fun l => by rw [scanBack_length, down_length]) (z := z) hx hy
  obtain ⟨h1, h2⟩ := column_least inc up hinc hup _ _ _ h
  refine ⟨h1, ?_⟩
  convert h2 using 2
  ext n
  constructor
  · rintro ⟨j, hj, e⟩; exact ⟨j, _, col_get im x z hj, e⟩
  · rintro ⟨i, v, hv, e⟩
    have hi : i < im.dims.h := by
      have := (List.getElem?_eq_some_iff.mp hv).1; rwa [col_length] at this
    rw [col_get im x z hi] at hv
    simp only [Option.some.injEq] at hv
    exact ⟨i, hi, by rw [hv]; exact e⟩

theorem rows_least (im : Img (Px t2)) (hn : ∀ x y z, x < im.dims.w → y < im.dims.h → NonN (im.px x y z))
    {x y : Nat} (z : Nat) (hx : x < im.dims.w) (hy : y < im.dims.h) :
    NonN ((im.onRows sideLine).px x y z) ∧
    IsLeast {n | ∃ i < im.dims.w, n = (im.px i y z).val + |(x : Int) - i|}
      ((im.onRows sideLine).px x y z).val := by
  have h := onRows_px sideLine im (x := x) (y := y) (z := z)
    (by rw [sideLine_length, row_length]) hx hy
  have hl : ∀ c ∈ im.row y z, NonN c := by
    intro c hc
    unfold Img.row at hc
    simp only [List.mem_map, List.mem_range] at hc
    obtain ⟨i, hi, rfl⟩ := hc
    exact hn i y z hi hy
  obtain ⟨h1, h2⟩ := side_least _ hl _ _ h
  refine ⟨h1, ?_⟩
  convert h2 using 2
  ext n
  constructor
  · rintro ⟨j, hj, e⟩; exact ⟨j, _, row_get im y z hj, e⟩
  · rintro ⟨i, v, hv, e⟩
    have hi : i < im.dims.w := by
      have := (List.getElem?_eq_some_iff.mp hv).1; rwa [row_length] at this
    rw [row_get im y z hi] at hv
    simp only [Option.some.injEq] at hv
    exact ⟨i, hi, by rw [hv]; exact e⟩

theorem depth_least (im : Img (Px t2))
    (hn : ∀ x y z, x < im.dims.w → y < im.dims.h → NonN (im.px x y z))
    {x y z : Nat} (hx : x < im.dims.w) (hy : y < im.dims.h) (hz : z < im.dims.d) :
    IsLeast {n | ∃ i < im.dims.d, n = (im.px x y i).val + |(z : Int) - i|}
      ((im.onDepth sideLine).px x y z).val := by
  have h := onDepth_px sideLine im (x := x) (y := y) (z := z)
    (by rw [sideLine_length, dep_length]) hx hy hz
  have hl : ∀ c ∈ im.dep x y, NonN c := by
    intro c hc
    unfold Img.dep at hc
    simp only [List.mem_map, List.mem_range] at hc
    obtain ⟨i, hi, rfl⟩ := hc
    exact hn x y i hx hy
  obtain ⟨_, h2⟩ := side_least _ hl _ _ h
  convert h2 using 2
  ext n
  constructor
  · rintro ⟨j, hj, e⟩; exact ⟨j, _, dep_get im x y hj, e⟩
  · rintro ⟨i, v, hv, e⟩
    have hi : i < im.dims.d := by
      have := (List.getElem?_eq_some_iff.mp hv).1; rwa [dep_length] at this
    rw [dep_get im x y hi] at hv
    simp only [Option.some.injEq] at hv
    exact ⟨i, hi, by rw [hv]; exact e⟩

end

/-! ### The lower envelope -/

/-- What the proof needs about the candidates: `i < u` is better than `u` up to some point only, and `sep`
gives this point whenever it is reached. -/
structure Crosses1 (m : Nat) (f : Int → Nat → Int) (sep : Nat → Nat → Int) : Prop where
  mono : ∀ i u, i < u → u < m → ∀ x x' : Int, 0 ≤ x → x ≤ x' → f x i > f x u → f x' i > f x' u
  sep : ∀ i u, i < u → u < m → ∀ t : Int, 0 ≤ t → f t i ≤ f t u →
    ∀ x : Int, 0 ≤ x → (f x i ≤ f x u ↔ x ≤ sep i u)

/-- The stack after the candidates `0 .. u - 1`: `e` is the end of the region of the first element. -/
def MStack (f : Int → Nat → Int) (u : Nat) : Int → List (Nat × Int) → Prop
  | _, [] => False
  | e, [(s, t)] => t = 0 ∧ t < e ∧ s < u ∧ ∀ x : Int, 0 ≤ x → x < e → ∀ i < u, f x s ≤ f x i
  | e, (s, t) :: c :: st => t < e ∧ 0 < t ∧ s < u ∧ c.1 < s ∧
      (∀ x : Int, t ≤ x → x < e → ∀ i < u, f x s ≤ f x i) ∧ MStack f u t (c :: st)

theorem MStack.head {f : Int → Nat → Int} {u : Nat} {e : Int} {s : Nat} {t : Int} {st : List (Nat × Int)}
    (h : MStack f u e ((s, t) :: st)) :
    0 ≤ t ∧ t < e ∧ s < u ∧ ∀ x : Int, t ≤ x → x < e → ∀ i < u, f x s ≤ f x i := by
  cases st with
  | nil => obtain ⟨rfl, h1, h2, h3⟩ := h; exact ⟨le_refl _, h1, h2, h3⟩
  | cons c st => obtain ⟨h1, h2, h3, _, h4, _⟩ := h; exact ⟨h2.le, h1, h3, h4⟩

/-- The candidate `u` is the best one from `e` on; the loop finds where it starts to be. -/
theorem mPop_spec {m : Nat} {f : Int → Nat → Int} {sep : Nat → Nat → Int} (hc : Crosses1 m f sep) {u : Nat}
    (hu : u < m) : ∀ (st : List (Nat × Int)) (e : Int), MStack f u e st → e ≤ m →
    (∀ x : Int, e ≤ x → x < m → ∀ i < u, f x u < f x i) →
    (mPop f u st = [] ∧ ∀ x : Int, 0 ≤ x → x < m → ∀ i < u, f x u < f x i) ∨
    ∃ s t st' e', mPop f u st = (s, t) :: st' ∧ MStack f u e' ((s, t) :: st') ∧ e' ≤ m ∧ f t s ≤ f t u ∧
      (∀ x : Int, e' ≤ x → x < m → ∀ i < u, f x u < f x i) ∧ st'.length + 1 ≤ st.length := by
  intro st
  induction st with
  | nil => intro e h; exact absurd h (by simp [MStack])
  | cons c st ih =>
    obtain ⟨s, t⟩ := c
    intro e h he hb
    obtain ⟨h0, h1, h2, h3⟩ := h.head
    unfold mPop
    by_cases hgt : f t s > f t u
    · rw [if_pos hgt]
      have hb' : ∀ x : Int, t ≤ x → x < m → ∀ i < u, f x u < f x i := by
        intro x hx hxm i hi
        by_cases hxe : x < e
        · have := hc.mono s u h2 hu t x h0 hx hgt
          have := h3 x hx hxe i hi
          omega
        · exact hb x (by omega) hxm i hi
      cases st with
      | nil =>
        left
        obtain ⟨rfl, _, _, _⟩ := h
        exact ⟨rfl, hb'⟩
      | cons c st =>
        obtain ⟨_, _, _, _, _, h6⟩ := h
        rcases ih t h6 (by omega) hb' with h7 | ⟨s', t', st', e', h7, h8, h9, h10, h11, h12⟩
        · exact Or.inl h7
        · exact Or.inr ⟨s', t', st', e', h7, h8, h9, h10, h11, by simp at h12 ⊢; omega⟩
    · rw [if_neg hgt]
      exact Or.inr ⟨s, t, st, e, rfl, h, he, by omega, hb, by simp⟩

theorem MStack.grow {f : Int → Nat → Int} {u : Nat} {e : Int} {st : List (Nat × Int)} (h : MStack f u e st)
    (hb : ∀ x : Int, 0 ≤ x → x < e → ∀ s, (∀ i < u, f x s ≤ f x i) → f x s ≤ f x u) : MStack f (u + 1) e st := by
  induction st generalizing e with
  | nil => exact h
  | cons c st ih =>
    obtain ⟨s, t⟩ := c
    cases st with
    | nil =>
      obtain ⟨rfl, h1, h2, h3⟩ := h
      refine ⟨rfl, h1, by omega, ?_⟩
      intro x h0 hx i hi
      rcases Nat.lt_succ_iff_lt_or_eq.mp hi with hi | rfl
      · exact h3 x h0 hx i hi
      · exact hb x h0 hx s (h3 x h0 hx)
    | cons d st =>
      obtain ⟨h1, h2, h3, h4, h5, h6⟩ := h
      refine ⟨h1, h2, by omega, h4, ?_, ih h6 (fun x h0 hx => hb x h0 (by omega))⟩
      intro x h0 hx i hi
      rcases Nat.lt_succ_iff_lt_or_eq.mp hi with hi | rfl
      · exact h5 x h0 hx i hi
      · exact hb x (by omega) hx s (h5 x h0 hx)

/-- The end of the region of the first element can be lowered. -/
theorem MStack.lower {f : Int → Nat → Int} {u : Nat} {e e' : Int} {s : Nat} {t : Int} {st : List (Nat × Int)}
    (h : MStack f u e ((s, t) :: st)) (h1 : t < e') (h2 : e' ≤ e) : MStack f u e' ((s, t) :: st) := by
  cases st with
  | nil =>
    obtain ⟨rfl, _, h3, h4⟩ := h
    exact ⟨rfl, h1, h3, fun x h0 hx => h4 x h0 (by omega)⟩
  | cons c st =>
    obtain ⟨_, h3, h4, h5, h6, h7⟩ := h
    exact ⟨h1, h3, h4, h5, fun x h0 hx => h6 x h0 (by omega), h7⟩

/-- The best of the first candidates, where it is the first element of the stack. -/
theorem MStack.best {f : Int → Nat → Int} {u : Nat} {e : Int} {st : List (Nat × Int)} (h : MStack f u e st)
    (x : Int) (h0 : 0 ≤ x) (hx : x < e) : ∃ s < u, ∀ i < u, f x s ≤ f x i := by
  induction st generalizing e with
  | nil => exact absurd h (by simp [MStack])
  | cons c st ih =>
    obtain ⟨s, t⟩ := c
    cases st with
    | nil =>
      obtain ⟨rfl, h1, h2, h3⟩ := h
      exact ⟨s, h2, h3 x h0 hx⟩
    | cons d st =>
      obtain ⟨h1, h2, h3, h4, h5, h6⟩ := h
      by_cases hxt : t ≤ x
      · exact ⟨s, h3, h5 x hxt hx⟩
      · exact ih h6 (by omega)

theorem mStep_spec {m cap : Nat} {f : Int → Nat → Int} {sep : Nat → Nat → Int} (hc : Crosses1 m f sep) {u : Nat}
    (hu : u < m) (hcap : m ≤ cap) (st : List (Nat × Int)) (h : MStack f u m st) (hl : st.length ≤ u) :
    ∃ st', mStep f sep m cap st u = some st' ∧ MStack f (u + 1) m st' ∧ st'.length ≤ u + 1 := by
  unfold mStep
  rcases mPop_spec hc hu st m h (le_refl _) (fun x h1 h2 => by omega) with ⟨h1, h2⟩ |
    ⟨s, t, st', e', h1, h2, h3, h4, h5, h6⟩
  · rw [h1]
    refine ⟨_, rfl, ⟨rfl, by omega, by omega, ?_⟩, by simp⟩
    intro x h0 hx i hi
    rcases Nat.lt_succ_iff_lt_or_eq.mp hi with hi | rfl
    · exact (h2 x h0 hx i hi).le
    · exact le_refl _
  · rw [h1]
    simp only
    obtain ⟨g0, g1, g2, g3⟩ := h2.head
    have hsep := hc.sep s u g2 hu t g0 h4
    have hts : t ≤ sep s u := (hsep t g0).mp h4
    -- the point where `u` becomes better is in the region of `s`
    have hse : e' < m → sep s u < e' := by
      intro hem
      by_contra hge
      have h7 := (hsep e' (by omega)).mpr (by omega)
      have := h5 e' (le_refl _) hem s g2
      omega
    -- below it, what was best still is
    have hbelow : ∀ x : Int, 0 ≤ x → x < e' → x ≤ sep s u → ∀ a, (∀ i < u, f x a ≤ f x i) → f x a ≤ f x u := by
      intro x h0 hx hxs a ha
      exact (ha s g2).trans ((hsep x h0).mpr hxs)
    by_cases hw : 1 + sep s u < m
    · rw [if_pos hw, if_pos (by omega)]
      refine ⟨_, rfl, ⟨by omega, by omega, by omega, g2, ?_, ?_⟩, by simp; omega⟩
      · intro x hx hxm i hi
        rcases Nat.lt_succ_iff_lt_or_eq.mp hi with hi | rfl
        · by_cases hxe : x < e'
          · have h7 : ¬ f x s ≤ f x u := fun hh => by
              have := (hsep x (by omega)).mp hh
              omega
            have := g3 x (by omega) hxe i hi
            omega
          · exact (h5 x (by omega) hxm i hi).le
        · exact le_refl _
      · have : 1 + sep s u ≤ e' := by
          by_cases hem : e' < m
          · have := hse hem; omega
          · omega
        exact (h2.lower (by omega) this).grow fun x h0 hx => hbelow x h0 (by omega) (by omega)
    · rw [if_neg hw]
      have hem : e' = m := by
        by_contra hne
        have := hse (by omega)
        omega
      subst hem
      refine ⟨_, rfl, h2.grow fun x h0 hx => hbelow x h0 hx (by omega), by simp; omega⟩

/-- SCAN 4. -/
theorem mBack_spec {f : Int → Nat → Int} {u : Nat} : ∀ (n : Nat) (st : List (Nat × Int)) (acc : List Nat),
    (n ≠ 0 → MStack f u n st) → ∃ c, mBack n st acc = some (c ++ acc) ∧ c.length = n ∧
      ∀ (x s : Nat), c[x]? = some s → s < u ∧ ∀ i < u, f x s ≤ f x i := by
  intro n
  induction n with
  | zero => intro st acc _; exact ⟨[], rfl, rfl, by simp⟩
  | succ n ih =>
    intro st acc h
    have h := h (by omega)
    cases st with
    | nil => exact absurd h (by simp [MStack])
    | cons c st =>
      obtain ⟨s, t⟩ := c
      obtain ⟨g0, g1, g2, g3⟩ := h.head
      unfold mBack
      obtain ⟨c, h1, h2, h3⟩ := ih (if (n : Int) = t then st else (s, t) :: st) (s :: acc) (by
        intro hn
        by_cases hnt : (n : Int) = t
        · rw [if_pos hnt]
          cases st with
          | nil => obtain ⟨rfl, _⟩ := h; omega
          | cons d st => obtain ⟨_, _, _, _, _, h6⟩ := h; rw [hnt]; exact h6
        · rw [if_neg hnt]
          exact h.lower (by push_cast at g1; omega) (by push_cast; omega))
      refine ⟨c ++ [s], by rw [h1]; simp, by simp [h2], ?_⟩
      intro x s' hx
      rw [List.getElem?_append] at hx
      split_ifs at hx with hlt
      · exact h3 x s' hx
      · have hxn : x = n := by
          have := (List.getElem?_eq_some_iff.mp hx).1
          simp at this; omega
        subst hxn
        rw [h2] at hx
        simp only [Nat.sub_self, List.getElem?_cons_zero, Option.some.injEq] at hx
        subst hx
        exact ⟨g2, g3 x (by push_cast at g1; omega) (by push_cast; omega)⟩

/-- The lower envelope: each pixel of the line gets a best candidate. -/
theorem meijster_spec {m cap : Nat} {f : Int → Nat → Int} {sep : Nat → Nat → Int} (hc : Crosses1 m f sep)
    (hm : 0 < m) (hcap : m ≤ cap) : ∃ c, meijster f sep m cap = some c ∧ c.length = m ∧
      ∀ x < m, ∃ s < m, c[x]? = some s ∧ ∀ i < m, f x s ≤ f x i := by
  have key : ∀ n, n < m → ∃ st, (List.range' 1 n).foldlM (mStep f sep m cap) [(0, 0)] = some st ∧
      MStack f (n + 1) m st ∧ st.length ≤ n + 1 := by
    intro n
    induction n with
    | zero =>
      intro _
      refine ⟨[(0, 0)], rfl, ⟨rfl, by omega, by omega, ?_⟩, by simp⟩
      intro x _ _ i hi
      obtain rfl : i = 0 := by omega
      exact le_refl _
    | succ n ih =>
      intro hn
      obtain ⟨st, h1, h2, h3⟩ := ih (by omega)
      obtain ⟨st', h4, h5, h6⟩ := mStep_spec hc hn hcap st h2 h3
      refine ⟨st', ?_, h5, h6⟩
      rw [List.range'_1_concat, List.foldlM_append, h1]
      simp only [Option.bind_eq_bind, Option.bind_some, List.foldlM_cons, List.foldlM_nil]
      rw [show 1 + n = n + 1 by omega, h4]; rfl
  obtain ⟨st, h1, h2, _⟩ := key (m - 1) (by omega)
  rw [show m - 1 + 1 = m by omega] at h2
  obtain ⟨c, h3, h4, h5⟩ := mBack_spec (f := f) (u := m) m st [] (fun _ => h2)
  refine ⟨c, ?_, h4, ?_⟩
  · unfold meijster; rw [h1]; simpa using h3
  · intro x hx
    have : c[x]? = some c[x] := List.getElem?_eq_getElem (by omega)
    obtain ⟨h6, h7⟩ := h5 x _ this
    exact ⟨_, h6, this, h7⟩

theorem chess_crosses (m : Nat) (g : Nat → Int) : Crosses1 m (fChess g) (sepChess g) := by
  have key : ∀ i u : Nat, i < u → ∀ x : Int, (fChess g x i ≤ fChess g x u ↔ x ≤ sepChess g i u) := by
    intro i u hiu x
    have hd : (i + u : Int).tdiv 2 = (i + u) / 2 := by
      rw [Int.tdiv_eq_ediv_of_nonneg (by omega)]
    unfold fChess sepChess
    rw [hd]
    simp only
    rcases abs_cases (x - i) with ⟨e1, _⟩ | ⟨e1, _⟩ <;> rcases abs_cases (x - u) with ⟨e2, _⟩ | ⟨e2, _⟩ <;>
      rw [e1, e2] <;> split_ifs <;> constructor <;> intro h <;> omega
  refine ⟨?_, ?_⟩
  · intro i u hiu hu x x' _ hx hgt
    have h1 := key i u hiu x
    have h2 := key i u hiu x'
    by_contra hle
    have := h2.mp (by omega)
    have := h1.mpr (by omega)
    omega
  · intro i u hiu hu t _ _ x _
    exact key i u hiu x

theorem euc_crosses (m : Nat) (g : Nat → Int) : Crosses1 m (fEuc g) (sepEuc g) := by
  have key : ∀ i u : Nat, i < u → ∀ x : Int, (fEuc g x i ≤ fEuc g x u ↔
      x * (2 * (u - i)) ≤ (u * u - i * i + g u - g i : Int)) := by
    intro i u hiu x
    unfold fEuc
    constructor <;> intro h <;> nlinarith
  refine ⟨?_, ?_⟩
  · intro i u hiu hu x x' _ hx hgt
    have h1 := key i u hiu x
    have h2 := key i u hiu x'
    by_contra hle
    have h3 := h2.mp (by omega)
    have h4 : x * (2 * (u - i)) ≤ x' * (2 * (u - i)) := by
      apply mul_le_mul_of_nonneg_right hx; omega
    have := h1.mpr (by omega)
    omega
  · intro i u hiu hu t ht hle x _
    rw [key i u hiu x]
    unfold sepEuc
    have h0 : 0 ≤ (u * u - i * i + g u - g i : Int) := by
      have := (key i u hiu t).mp hle
      have h5 : 0 ≤ t * (2 * ((u : Int) - i)) := by
        apply mul_nonneg ht; omega
      omega
    rw [Int.tdiv_eq_ediv_of_nonneg h0, Int.le_ediv_iff_mul_le (by omega)]

end Smil
