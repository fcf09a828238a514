import Verif.StretchLemmas
import Verif.PropsBuild

/-!
# C80: stretching of the histogram. C81: range of the histogram, contrast
-/

namespace Smil

section
variable {t t2 : PT}

/-! ### Specification -/

/-- `n` is the number `q` brought into `[lo, hi]` and rounded to the nearest integer, halves away from zero. -/
def RoundedTo (lo hi : Int) (q : ℚ) (n : Int) : Prop :=
  ((hi : ℚ) ≤ q → n = hi) ∧ (q ≤ (lo : ℚ) → n = lo) ∧
  ((lo : ℚ) ≤ q → q ≤ (hi : ℚ) → |(n : ℚ) - q| ≤ 1 / 2 ∧ (|(n : ℚ) - q| = 1 / 2 → |q| < |(n : ℚ)|))

/-- The linear map that sends `a` to `c` and `b` to `d` is applied to every pixel. -/
def IsStretch (a b : Px t) (c d : Px t2) (im : Img (Px t)) (out : Img (Px t2)) : Prop :=
  out.dims = im.dims ∧ ∀ p v, im.at? p = some v → ∃ n, out.at? p = some n ∧
    RoundedTo t2.lo t2.hi ((c.val : ℚ) + ((v.val : ℚ) - a.val) * (((d.val : ℚ) - c.val) / ((b.val : ℚ) - a.val))) n.val

/-- The difference `b - a` is computed without overflow. -/
def DiffOk (a b : Px t) : Prop :=
  t.bits ≤ 16 ∨ (t.signed = false ∧ a ≤ b) ∨ (t.signed = true ∧ t.lo ≤ b.val - a.val ∧ b.val - a.val ≤ t.hi)

/-- What `stretchHist` accepts. -/
def AcceptsS (auto : Bool) (di dout : Dims) : Prop := di.count ≠ 0 ∧ (dout = di ∨ auto = true)

theorem DiffOk.cpp {a b : Px t} (h : DiffOk a b) : t.cpp (b.val - a.val) = some (b.val - a.val) := by
  have a1 := a.lo_le
  have a2 := a.le_hi
  have b1 := b.lo_le
  have b2 := b.le_hi
  by_cases hb : t.bits ≤ 16
  · have := range_small hb
    exact cpp_small hb (by omega) (by omega)
  · unfold PT.cpp PT.promoted
    rw [if_neg hb]
    rcases h with h | ⟨hs, hab⟩ | ⟨hs, h1, h2⟩
    · exact absurd h hb
    · rw [if_neg (by simp [hs])]
      have h0 := lo_unsigned hs
      have := Px.le_iff.mp hab
      rw [t.wrap_of_mem (by omega) (by omega)]
    · rw [if_pos hs, if_pos ⟨h1, h2⟩]

theorem stretchCheck_ok {auto : Bool} {di dout : Dims} (h : AcceptsS auto di dout) :
    stretchCheck auto di dout = .ok () := by
  unfold stretchCheck
  rw [if_neg h.1]
  rcases h.2 with h | h
  · rw [if_pos h]
  · by_cases hd : dout = di
    · rw [if_pos hd]
    · rw [if_neg hd, if_pos h]

theorem rounded_clamp (q : ℚ) : RoundedTo t2.lo t2.hi q (roundQ (stretchClamp t2 q)) := by
  have hl : (t2.lo : ℚ) ≤ (t2.hi : ℚ) := by exact_mod_cast t2.lo_le_hi
  refine ⟨fun h => ?_, fun h => ?_, fun h1 h2 => ?_⟩
  · have : stretchClamp t2 q = (t2.hi : ℚ) := by
      unfold stretchClamp
      split
      · rfl
      · split <;> linarith
    rw [this, roundQ_int]
  · have : stretchClamp t2 q = (t2.lo : ℚ) := by
      unfold stretchClamp
      split
      · linarith
      · split <;> linarith
    rw [this, roundQ_int]
  · rw [clamp_of_mem t2 h1 h2]
    exact roundQ_half q

theorem RoundedTo.unique {q : ℚ} {m n : Int} (hm : RoundedTo t2.lo t2.hi q m) (hn : RoundedTo t2.lo t2.hi q n) :
    m = n := by
  by_cases h1 : (t2.hi : ℚ) ≤ q
  · rw [hm.1 h1, hn.1 h1]
  by_cases h2 : q ≤ (t2.lo : ℚ)
  · rw [hm.2.1 h2, hn.2.1 h2]
  push Not at h1 h2
  obtain ⟨a1, a2⟩ := hm.2.2 h2.le h1.le
  obtain ⟨b1, b2⟩ := hn.2.2 h2.le h1.le
  have c1 := abs_le.mp a1
  have c2 := abs_le.mp b1
  -- the two differ by at most one; by one only if both are halves
  have d : |m - n| ≤ 1 := by
    have : |(m : ℚ) - n| ≤ 1 := abs_le.mpr ⟨by linarith, by linarith⟩
    exact_mod_cast this
  rw [abs_le] at d
  by_contra hne
  have hcase : m = n + 1 ∨ n = m + 1 := by omega
  rcases hcase with e | e
  · have e' : (m : ℚ) = n + 1 := by exact_mod_cast e
    have f1 : (m : ℚ) - q = 1 / 2 := by linarith
    have f2 : (n : ℚ) - q = -(1 / 2) := by linarith
    have g1 := a2 (by rw [f1]; norm_num)
    have g2 := b2 (by rw [f2]; norm_num)
    rw [show (m : ℚ) = q + 1 / 2 by linarith] at g1
    rw [show (n : ℚ) = q - 1 / 2 by linarith] at g2
    rcases le_total 0 q with hq | hq
    · rw [abs_of_nonneg hq] at g2
      rcases abs_cases (q - 1 / 2) with ⟨h, _⟩ | ⟨h, _⟩ <;> rw [h] at g2
      · linarith
      · have : (0 : ℚ) ≤ m := by linarith
        have hmm : 0 ≤ m := by exact_mod_cast this
        have : (n : ℚ) < 0 := by linarith
        have hnn : n < 0 := by exact_mod_cast this
        have : n = -1 := by omega
        have : (n : ℚ) = -1 := by exact_mod_cast this
        linarith
    · rw [abs_of_nonpos hq] at g1
      rcases abs_cases (q + 1 / 2) with ⟨h, _⟩ | ⟨h, _⟩ <;> rw [h] at g1
      · have : (0 : ℚ) ≤ m := by linarith
        have hmm : 0 ≤ m := by exact_mod_cast this
        have : (n : ℚ) < 0 := by linarith
        have hnn : n < 0 := by exact_mod_cast this
        have : m = 0 := by omega
        have : (m : ℚ) = 0 := by exact_mod_cast this
        linarith
      · linarith
  · have e' : (n : ℚ) = m + 1 := by exact_mod_cast e
    have f1 : (n : ℚ) - q = 1 / 2 := by linarith
    have f2 : (m : ℚ) - q = -(1 / 2) := by linarith
    have g1 := b2 (by rw [f1]; norm_num)
    have g2 := a2 (by rw [f2]; norm_num)
    rw [show (n : ℚ) = q + 1 / 2 by linarith] at g1
    rw [show (m : ℚ) = q - 1 / 2 by linarith] at g2
    rcases le_total 0 q with hq | hq
    · rw [abs_of_nonneg hq] at g2
      rcases abs_cases (q - 1 / 2) with ⟨h, _⟩ | ⟨h, _⟩ <;> rw [h] at g2
      · linarith
      · have : (0 : ℚ) ≤ n := by linarith
        have hmm : 0 ≤ n := by exact_mod_cast this
        have : (m : ℚ) < 0 := by linarith
        have hnn : m < 0 := by exact_mod_cast this
        have : m = -1 := by omega
        have : (m : ℚ) = -1 := by exact_mod_cast this
        linarith
    · rw [abs_of_nonpos hq] at g1
      rcases abs_cases (q + 1 / 2) with ⟨h, _⟩ | ⟨h, _⟩ <;> rw [h] at g1
      · have : (0 : ℚ) ≤ n := by linarith
        have hmm : 0 ≤ n := by exact_mod_cast this
        have : (m : ℚ) < 0 := by linarith
        have hnn : m < 0 := by exact_mod_cast this
        have : n = 0 := by omega
        have : (n : ℚ) = 0 := by exact_mod_cast this
        linarith
      · linarith

theorem RoundedTo.mono {q r : ℚ} {m n : Int} (hm : RoundedTo t2.lo t2.hi q m) (hn : RoundedTo t2.lo t2.hi r n)
    (h : q ≤ r) : m ≤ n := by
  rw [hm.unique (rounded_clamp q), hn.unique (rounded_clamp r)]
  exact roundQ_mono (clamp_mono t2 h)

theorem RoundedTo.of_px {q : ℚ} {n : Int} (h : RoundedTo t2.lo t2.hi q n) (c : Px t2) (hq : q = c.val) : n = c.val := by
  have h1 : (t2.lo : ℚ) ≤ (c.val : ℚ) := by exact_mod_cast c.lo_le
  have h2 : (c.val : ℚ) ≤ (t2.hi : ℚ) := by exact_mod_cast c.le_hi
  rw [h.unique (rounded_clamp q), hq, clamp_of_mem t2 h1 h2, roundQ_int]

/-! ### C80 -/

theorem mapK_stretch (im : Img (Px t)) (a b : Px t) (c d : Px t2) (hab : a.val ≠ b.val) :
    ∃ out, im.mapK (stretchPx a c (d.val - c.val) (b.val - a.val)) = some out ∧ IsStretch a b c d im out := by
  have hd : b.val - a.val ≠ 0 := by omega
  obtain ⟨out, ho⟩ := Img.mapK_total (stretchPx a c (d.val - c.val) (b.val - a.val)) im (by
    intro p u _
    obtain ⟨r, hr, _⟩ := stretchPx_eq (t2 := t2) a c (num := d.val - c.val) hd u
    rw [hr]; rfl)
  obtain ⟨h1, h2⟩ := Img.mapK_some _ _ _ ho
  refine ⟨out, ho, h1, fun p v hv => ?_⟩
  obtain ⟨n, hn, hn2⟩ := h2 p v hv
  refine ⟨n, hn2, ?_⟩
  obtain ⟨r, hr, hr2⟩ := stretchPx_eq (t2 := t2) a c (num := d.val - c.val) hd v
  rw [hr] at hn
  cases hn
  rw [hr2]
  have := rounded_clamp (t2 := t2) (linQ a c (d.val - c.val) (b.val - a.val) v)
  unfold linQ at this ⊢
  push_cast at this ⊢
  exact this

/-- **C80**: with two distinct bounds of the input, `stretchHist` applies to every pixel the linear map that sends the first bound to
the first bound of the output and the second to the second, brings the result into the range of the type and rounds it to the
nearest integer. Partial: the code computes with `double`, the model exactly. -/
theorem C80_stretch_partial (auto : Bool) (im : Img (Px t)) (a b : Px t) (c d : Px t2) (dout : Dims)
    (h : AcceptsS auto im.dims dout) (hab : a ≠ b) (hi : DiffOk a b) (ho : DiffOk c d) :
    ∃ out, stretchHist auto im a b c d dout = some (.ok out) ∧ IsStretch a b c d im out := by
  obtain ⟨out, h1, h2⟩ := mapK_stretch im a b c d (fun e => hab (Px.ext e))
  refine ⟨out, ?_, h2⟩
  unfold stretchHist
  rw [stretchCheck_ok h]
  simp only [ho.cpp, hi.cpp, Option.bind_eq_bind, Option.bind_some, h1]
  rfl

/-- **C80**, order: when the bounds are in order, the result is increasing in the value of the pixel, it sends the bounds of the input to
those of the output and stays between them for the pixels between the bounds of the input. -/
theorem C80_order_partial (auto : Bool) (im : Img (Px t)) (a b : Px t) (c d : Px t2) (dout : Dims)
    (h : AcceptsS auto im.dims dout) (hab : a < b) (hcd : c ≤ d) (hi : DiffOk a b) (ho : DiffOk c d) :
    ∃ out, stretchHist auto im a b c d dout = some (.ok out) ∧ out.dims = im.dims ∧
      (∀ p q u v m n, im.at? p = some u → im.at? q = some v → out.at? p = some m → out.at? q = some n →
        u ≤ v → m ≤ n) ∧
      (∀ p, im.at? p = some a → out.at? p = some c) ∧
      (∀ p, im.at? p = some b → out.at? p = some d) ∧
      (∀ p v, im.at? p = some v → a ≤ v → v ≤ b → ∃ n, out.at? p = some n ∧ c ≤ n ∧ n ≤ d) := by
  obtain ⟨out, h1, hd, hs⟩ := C80_stretch_partial auto im a b c d dout h (ne_of_lt hab) hi ho
  have hden : (0 : ℚ) < (b.val : ℚ) - a.val := by
    have : (a.val : ℚ) < b.val := by exact_mod_cast Px.lt_iff.mp hab
    linarith
  have hnum : (0 : ℚ) ≤ (d.val : ℚ) - c.val := by
    have : (c.val : ℚ) ≤ d.val := by exact_mod_cast Px.le_iff.mp hcd
    linarith
  have hco : (0 : ℚ) ≤ ((d.val : ℚ) - c.val) / ((b.val : ℚ) - a.val) := by positivity
  have hmono : ∀ {u v : Px t}, u ≤ v →
      (c.val : ℚ) + ((u.val : ℚ) - a.val) * (((d.val : ℚ) - c.val) / ((b.val : ℚ) - a.val)) ≤
      (c.val : ℚ) + ((v.val : ℚ) - a.val) * (((d.val : ℚ) - c.val) / ((b.val : ℚ) - a.val)) := by
    intro u v huv
    have : (u.val : ℚ) ≤ v.val := by exact_mod_cast Px.le_iff.mp huv
    have := mul_le_mul_of_nonneg_right (show (u.val : ℚ) - a.val ≤ v.val - a.val by linarith) hco
    linarith
  have ea : (c.val : ℚ) + ((a.val : ℚ) - a.val) * (((d.val : ℚ) - c.val) / ((b.val : ℚ) - a.val)) = c.val := by
    rw [sub_self, zero_mul, add_zero]
  have eb : (c.val : ℚ) + ((b.val : ℚ) - a.val) * (((d.val : ℚ) - c.val) / ((b.val : ℚ) - a.val)) = d.val := by
    rw [mul_div_cancel₀ _ hden.ne']; ring
  refine ⟨out, h1, hd, ?_, ?_, ?_, ?_⟩
  · intro p q u v m n hu hv hm hn huv
    obtain ⟨m', e1, f1⟩ := hs p u hu
    obtain ⟨n', e2, f2⟩ := hs q v hv
    rw [hm] at e1; cases e1
    rw [hn] at e2; cases e2
    exact Px.le_iff.mpr (f1.mono f2 (hmono huv))
  · intro p hp
    obtain ⟨m, e1, f1⟩ := hs p a hp
    rw [e1, Px.ext (f1.of_px c ea)]
  · intro p hp
    obtain ⟨m, e1, f1⟩ := hs p b hp
    rw [e1, Px.ext (f1.of_px d eb)]
  · intro p v hv hav hvb
    obtain ⟨n, e1, f1⟩ := hs p v hv
    refine ⟨n, e1, ?_, ?_⟩
    · have r := rounded_clamp (t2 := t2) ((c.val : ℚ) + ((a.val : ℚ) - a.val) * (((d.val : ℚ) - c.val) / ((b.val : ℚ) - a.val)))
      have := r.mono f1 (hmono hav)
      rw [r.of_px c ea] at this
      exact Px.le_iff.mpr this
    · have r := rounded_clamp (t2 := t2) ((c.val : ℚ) + ((b.val : ℚ) - a.val) * (((d.val : ℚ) - c.val) / ((b.val : ℚ) - a.val)))
      have := f1.mono r (hmono hvb)
      rw [r.of_px d eb] at this
      exact Px.le_iff.mpr this

/-- The least and the greatest value of an image. -/
def IsRange (im : Img (Px t)) (a b : Px t) : Prop :=
  (∃ p, im.at? p = some a) ∧ (∃ p, im.at? p = some b) ∧ ∀ p v, im.at? p = some v → a ≤ v ∧ v ≤ b

theorem rangeVal_isRange (im : Img (Px t)) (h : im.dims.count ≠ 0) :
    rangeValOf false im = some (minValOf false im, maxValOf false im) ∧
    IsRange im (minValOf false im) (maxValOf false im) := by
  have hv : im.vals ≠ [] := by
    intro he
    have := im.vals_length
    rw [he] at this
    exact h this.symm
  obtain ⟨h1, -, h3⟩ := C17_extremes false im
  obtain ⟨h1, h2⟩ := h1 (by rw [considered_false]; exact hv)
  rw [if_neg h] at h3
  rw [considered_false] at h1 h2
  exact ⟨h3, (im.mem_vals _).mp h1.1, (im.mem_vals _).mp h2.1,
    fun p v hp => ⟨h1.2 ((im.mem_vals v).mpr ⟨p, hp⟩), h2.2 ((im.mem_vals v).mpr ⟨p, hp⟩)⟩⟩

theorem IsRange.unique {im : Img (Px t)} {a b a' b' : Px t} (h : IsRange im a b) (h' : IsRange im a' b') :
    a = a' ∧ b = b' := by
  obtain ⟨⟨p, hp⟩, ⟨q, hq⟩, hr⟩ := h
  obtain ⟨⟨p', hp'⟩, ⟨q', hq'⟩, hr'⟩ := h'
  exact ⟨le_antisymm (hr _ _ hp').1 (hr' _ _ hp).1, le_antisymm (hr' _ _ hq).2 (hr _ _ hq').2⟩

theorem range_of_isRange {im : Img (Px t)} {a b : Px t} (h : IsRange im a b) :
    im.dims.count ≠ 0 ∧ rangeValOf false im = some (a, b) := by
  have hc : im.dims.count ≠ 0 := by
    obtain ⟨p, hp⟩ := h.1
    obtain ⟨i, hi, _⟩ := Img.at?_buf im p a hp
    omega
  obtain ⟨h1, h2⟩ := rangeVal_isRange im hc
  obtain ⟨e1, e2⟩ := h.unique h2
  exact ⟨hc, by rw [h1, e1, e2]⟩

theorem stretchHistRange_eq (auto : Bool) (im : Img (Px t)) {a b : Px t} (h : IsRange im a b) (c d : Px t2)
    (dout : Dims) : stretchHistRange auto im c d dout = stretchHist auto im a b c d dout := by
  unfold stretchHistRange stretchHist
  rw [(range_of_isRange h).2]
  rfl

/-- **C80**, range of the image: on an image that is not constant the overload without input bounds is the stretching of the range of
the image. The pixels of least value get `outMin`, those of greatest value `outMax`, and all are between the two. -/
theorem C80_auto_partial (auto : Bool) (im : Img (Px t)) (a b : Px t) (c d : Px t2) (dout : Dims)
    (h : AcceptsS auto im.dims dout) (hr : IsRange im a b) (hab : a ≠ b) (hcd : c ≤ d) (hi : DiffOk a b)
    (ho : DiffOk c d) :
    ∃ out, stretchHistRange auto im c d dout = some (.ok out) ∧ IsStretch a b c d im out ∧ IsRange out c d ∧
      (∀ p, im.at? p = some a → out.at? p = some c) ∧ (∀ p, im.at? p = some b → out.at? p = some d) := by
  have hlt : a < b := by
    obtain ⟨p, hp⟩ := hr.1
    exact lt_of_le_of_ne (hr.2.2 p a hp).2 hab
  obtain ⟨out, h1, h2⟩ := C80_stretch_partial auto im a b c d dout h hab hi ho
  obtain ⟨out', h1', hd, -, ha, hb, hin⟩ := C80_order_partial auto im a b c d dout h hlt hcd hi ho
  rw [h1] at h1'
  cases h1'
  rw [stretchHistRange_eq auto im hr]
  refine ⟨out, h1, h2, ⟨?_, ?_, ?_⟩, ha, hb⟩
  · obtain ⟨p, hp⟩ := hr.1
    exact ⟨p, ha p hp⟩
  · obtain ⟨p, hp⟩ := hr.2.1
    exact ⟨p, hb p hp⟩
  · intro p n hn
    have hp0 := Img.at?_eq_some_in _ _ _ hn
    have hp : Img.In im.dims p := by rw [← hd]; exact hp0
    have hv := Img.buf_offOf im p hp
    obtain ⟨n', e, f⟩ := hin p _ hv (hr.2.2 p _ hv).1 (hr.2.2 p _ hv).2
    rw [hn] at e
    cases e
    exact f

/-- **C80**, type: the overload with two images uses the whole range of the output type (8 and 16 bit types, and unsigned ones). -/
theorem C80_full_partial (auto : Bool) (im : Img (Px t)) (a b : Px t) (dout : Dims)
    (h : AcceptsS auto im.dims dout) (hr : IsRange im a b) (hab : a ≠ b) (hi : DiffOk a b)
    (ho : t2.bits ≤ 16 ∨ t2.signed = false) :
    ∃ out : Img (Px t2), stretchHistFull auto im dout = some (.ok out) ∧ IsStretch a b ⊥ ⊤ im out ∧ IsRange out ⊥ ⊤ := by
  obtain ⟨out, h1, h2, h3, -⟩ := C80_auto_partial (t2 := t2) auto im a b ⊥ ⊤ dout h hr hab bot_le hi
    (ho.elim Or.inl fun h => Or.inr (Or.inl ⟨h, bot_le⟩))
  exact ⟨out, h1, h2, h3⟩

/-- **C80**, refusals: an input that is not allocated, an output of another size that may not be resized. -/
theorem C80_refused (auto : Bool) (im : Img (Px t)) (a b : Px t) (c d : Px t2) (dout : Dims) :
    (im.dims.count = 0 → stretchHist auto im a b c d dout = some (.error errBadAllocation) ∧
      stretchHistRange auto im c d dout = some (.error errBadAllocation)) ∧
    (im.dims.count ≠ 0 → dout ≠ im.dims → auto = false → stretchHist auto im a b c d dout = some (.error errBadSize) ∧
      stretchHistRange auto im c d dout = some (.error errBadSize)) := by
  refine ⟨fun h => ?_, fun h hd ha => ?_⟩
  · have : stretchCheck auto im.dims dout = .error errBadAllocation := if_pos h
    unfold stretchHist stretchHistRange
    rw [this]
    exact ⟨rfl, rfl⟩
  · have : stretchCheck auto im.dims dout = .error errBadSize := by
      unfold stretchCheck
      rw [if_neg h, if_neg hd, if_neg (by simp [ha])]
    unfold stretchHist stretchHistRange
    rw [this]
    exact ⟨rfl, rfl⟩

theorem mapK_none_of (im : Img (Px t)) (k : Px t → Option (Px t2)) {p : IntPoint} {v : Px t} (hp : im.at? p = some v)
    (hk : k v = none) : im.mapK k = none := by
  cases h : im.mapK k with
  | none => rfl
  | some r =>
    obtain ⟨n, hn, _⟩ := (Img.mapK_some _ _ _ h).2 p v hp
    rw [hk] at hn
    cases hn

/-- **C80** does not hold with two equal bounds: the coefficient is a division by zero and any pixel at the bound makes a NaN, whose
conversion is undefined. -/
theorem C80_point_bug (auto : Bool) (im : Img (Px t)) (a : Px t) (c d : Px t2) (dout : Dims)
    (h : AcceptsS auto im.dims dout) (p : IntPoint) (hp : im.at? p = some a) :
    stretchHist auto im a a c d dout = none := by
  unfold stretchHist
  rw [stretchCheck_ok h]
  cases hn : t2.cpp (d.val - c.val) with
  | none => rfl
  | some num =>
    have hden : t.cpp (a.val - a.val) = some (a.val - a.val) := by
      unfold PT.cpp
      have h1 := t.promoted.lo_nonpos
      have h2 := t.promoted.hi_nonneg
      split
      · rw [if_pos (by omega)]
      · rw [t.promoted.wrap_of_mem (by omega) (by omega)]
    simp only [hden, Option.bind_eq_bind, Option.bind_some]
    rw [mapK_none_of im _ hp]
    · rfl
    · unfold stretchPx
      rw [if_pos (sub_self _), if_pos (Or.inr rfl)]

/-- **C80** does not hold on any constant image: the overloads that take the range of the image are undefined. -/
theorem C80_constant_bug (auto : Bool) (im : Img (Px t)) (a : Px t) (c d : Px t2) (dout : Dims)
    (h : AcceptsS auto im.dims dout) (hr : IsRange im a a) :
    stretchHistRange auto im c d dout = none ∧ stretchHistFull (t2 := t2) auto im dout = none := by
  obtain ⟨p, hp⟩ := hr.1
  unfold stretchHistFull
  rw [stretchHistRange_eq auto im hr, stretchHistRange_eq auto im hr]
  exact ⟨C80_point_bug auto im a c d dout h p hp, C80_point_bug auto im a ⊥ ⊤ dout h p hp⟩

/-- With equal input bounds and no pixel there, the stretching is a threshold. -/
theorem C80_point_partial (auto : Bool) (im : Img (Px t)) (a : Px t) (c d : Px t2) (dout : Dims)
    (h : AcceptsS auto im.dims dout) (hcd : c < d) (ho : DiffOk c d) (hn : ∀ p, im.at? p ≠ some a) :
    ∃ out, stretchHist auto im a a c d dout = some (.ok out) ∧ out.dims = im.dims ∧
      ∀ p v, im.at? p = some v → out.at? p = some (if a < v then ⊤ else ⊥) := by
  have hk : ∀ v : Px t, v ≠ a → stretchPx a c (d.val - c.val) (a.val - a.val) v = some (if a < v then ⊤ else ⊥) := by
    intro v hv
    have hlt := Px.lt_iff.mp hcd
    unfold stretchPx
    rw [if_pos (sub_self _), if_neg (by
      rintro (h | h)
      · omega
      · exact hv (Px.ext h))]
    have e : (0 < d.val - c.val ↔ a.val < v.val) ↔ a < v := by
      rw [Px.lt_iff]
      constructor
      · intro h; exact h.mp (by omega)
      · intro h; exact ⟨fun _ => h, fun _ => by omega⟩
    by_cases hav : a < v
    · rw [if_pos (e.mpr hav), if_pos hav]
    · rw [if_neg (fun h => hav (e.mp h)), if_neg hav]
  obtain ⟨out, hout⟩ := Img.mapK_total (stretchPx a c (d.val - c.val) (a.val - a.val)) im (by
    intro p u hu
    rw [hk u (fun e => hn p (e ▸ hu))]; rfl)
  obtain ⟨h1, h2⟩ := Img.mapK_some _ _ _ hout
  refine ⟨out, ?_, h1, fun p v hv => ?_⟩
  · have hden : t.cpp (a.val - a.val) = some (a.val - a.val) := by
      unfold PT.cpp
      have h1 := t.promoted.lo_nonpos
      have h2 := t.promoted.hi_nonneg
      split
      · rw [if_pos (by omega)]
      · rw [t.promoted.wrap_of_mem (by omega) (by omega)]
    unfold stretchHist
    rw [stretchCheck_ok h]
    simp only [ho.cpp, hden, Option.bind_eq_bind, Option.bind_some, hout]
    rfl
  · obtain ⟨n, e1, e2⟩ := h2 p v hv
    rw [hk v (fun e => hn p (e ▸ hv))] at e1
    cases e1
    exact e2

/-- The default range of a 32 bit signed output overflows: the call is undefined whatever the image. -/
theorem C80_int32_bug (auto : Bool) (im : Img (Px t)) (a b : Px t) (dout : Dims) (h : AcceptsS auto im.dims dout) :
    stretchHist (t2 := INT32) auto im a b ⊥ ⊤ dout = none ∧ stretchHistFull (t2 := INT32) auto im dout = none := by
  have e : INT32.cpp ((⊤ : Px INT32).val - (⊥ : Px INT32).val) = none := by decide
  unfold stretchHistFull stretchHist stretchHistRange
  rw [stretchCheck_ok h, (rangeVal_isRange im h.1).1, e]
  exact ⟨rfl, rfl⟩

/-- Bounds in decreasing order are fine on 8 bits but wrap on a 32 bit unsigned type: `[10, 0]` to `[0, 10]` should send
`10` to `0` and `5` to `5`. -/
theorem C80_wrap_bug :
    (stretchHist false (im8 ⟨3, 1, 1⟩ [0, 5, 10]) (UINT8.wrap 10) (UINT8.wrap 0) (UINT8.wrap 0) (UINT8.wrap 10) ⟨3, 1, 1⟩).map
      (fun r => r.toOption.map fun o => o.vals.map Px.val) = some (some [10, 5, 0]) ∧
    (stretchHist false (⟨⟨3, 1, 1⟩, fun i => UINT32.wrap (5 * i)⟩ : Img (Px UINT32)) (UINT32.wrap 10) (UINT32.wrap 0)
      (UINT32.wrap 0) (UINT32.wrap 10) ⟨3, 1, 1⟩).map
      (fun r => r.toOption.map fun o => o.vals.map Px.val) = some (some [0, 0, 0]) := by
  decide +kernel

example : IsRange (im8 ⟨4, 1, 1⟩ [10, 12, 13, 20]) (UINT8.wrap 10) (UINT8.wrap 20) ∧
    (stretchHistFull false (im8 ⟨4, 1, 1⟩ [10, 12, 13, 20]) ⟨4, 1, 1⟩ : Option (Except Int (Img (Px UINT8)))).map
      (fun r => r.toOption.map fun o => o.vals.map Px.val) = some (some [0, 51, 77, 255]) := by
  refine ⟨?_, by decide +kernel⟩
  have h := (rangeVal_isRange (im8 ⟨4, 1, 1⟩ [10, 12, 13, 20]) (by decide)).2
  have e : minValOf false (im8 ⟨4, 1, 1⟩ [10, 12, 13, 20]) = UINT8.wrap 10 ∧
    maxValOf false (im8 ⟨4, 1, 1⟩ [10, 12, 13, 20]) = UINT8.wrap 20 := by decide +kernel
  rw [e.1, e.2] at h
  exact h

example : (stretchHist false (im8 ⟨4, 1, 1⟩ [0, 10, 20, 30]) (UINT8.wrap 10) (UINT8.wrap 20) (UINT8.wrap 100) (UINT8.wrap 200)
      ⟨4, 1, 1⟩ : Option (Except Int (Img (Px UINT8)))).map
      (fun r => r.toOption.map fun o => o.vals.map Px.val) = some (some [0, 100, 200, 255]) := by
  decide +kernel

end

end Smil
