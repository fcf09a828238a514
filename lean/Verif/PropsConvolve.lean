import Verif.ConvolveLemmas
import Verif.PropsBuild

/-!
# C76, C77: convolutions

The arithmetic is exact here: the theorems are partial in that they say nothing of the rounding errors of `double`.
-/

namespace Smil
variable {t : PT}

/-! ### Lemmas -/

theorem convOut_dims {E : Env (Px t)} {im out : Img (Px t)} (h : out.dims = im.dims ∨ E.auto = true) :
    (convOut E im out).dims = im.dims := by
  unfold convOut
  split
  · rfl
  · rename_i hc
    rcases h with h | h
    · exact h
    · by_contra hd
      exact hc ⟨h, hd⟩

theorem axisConvolve_spec {a : Axis} {E : Env (Px t)} {ker : List ℚ} (hk : KerOk ker) {im out : Img (Px t)}
    (ha : im.alloc = true) (ho : out.dims = im.dims ∨ E.auto = true) (hN : ker.length ≤ a.len im.dims + 1) :
    ∃ o, axisConvolve a false E ker im out = some (.ok o) ∧
      IsConv a (weightAt ker) ((ker.length - 1) / 2) im o := by
  have hl := hk.len
  obtain ⟨o, h1, h2⟩ := axisPass_conv a (convRun ker (a.len im.dims) false) im (weightAt ker) (kerRadius ker)
    (fun l => convRun_spec hk (by omega) l)
  refine ⟨o, ?_, h2⟩
  unfold axisConvolve
  have hne : ker ≠ [] := by
    intro h
    rw [h] at hl
    simp at hl
  have hc : im.dims.count ≠ 0 := by
    unfold Img.alloc at ha
    simpa using ha
  simp only
  rw [if_neg hc, if_neg (by rw [convOut_dims ho]; simp), if_neg hne, h1]
  rfl

/-- A loop with a step that has no result. -/
theorem foldlM_none_conv {β γ : Type} (f : β → γ → Option β) (L : List γ) {x : γ} (hx : x ∈ L) (h : ∀ b, f b x = none) (b : β) :
    L.foldlM f b = none := by
  induction L generalizing b with
  | nil => cases hx
  | cons a L ih =>
    rw [List.foldlM_cons]
    rcases List.mem_cons.mp hx with rfl | hx'
    · rw [h]; rfl
    · cases f b a with
      | none => rfl
      | some c => exact ih hx' c

theorem tapSum_none (ker : List ℚ) (N : Nat) (l : Nat → Px t) (x lo : Int) (n : Nat) {i : Int} (h1 : lo ≤ i)
    (h2 : i < lo + n) (h3 : ¬ (0 ≤ x + i ∧ x + i < N)) : tapSum ker N l x lo n = none := by
  unfold tapSum
  exact foldlM_none_conv _ _ (mem_intRange'.mpr ⟨h1, h2⟩) (fun _ => if_neg h3) _

theorem convRun_none {ker : List ℚ} {N : Nat} (inPl : Bool) (h1 : N < 2 * kerRadius ker) (h0 : 0 < N) (l : Nat → Px t) :
    convRun ker N inPl l = none := by
  unfold convRun
  simp only
  rw [foldlM_none_conv _ (intRange 0 (kerRadius ker)) (x := ((N - kerRadius ker : Nat) : Int))
    (mem_intRange'.mpr (by omega))]
  · rfl
  · intro cur
    unfold convStep
    rw [tapSum_none ker N _ _ _ _ (i := (N : Int) - (N - kerRadius ker : Nat)) (by omega) (by omega) (by omega)]
    rfl

theorem axisPass_none {a : Axis} {f : (Nat → Px t) → Option (Nat → Px t)} {im : Img (Px t)} (ha : im.alloc = true)
    (h : ∀ l, f l = none) : axisPass a f im = none := by
  unfold axisPass
  refine if_neg fun hc => ?_
  have hi : 0 < im.dims.count := by
    unfold Img.alloc at ha
    have : im.dims.count ≠ 0 := by simpa using ha
    omega
  have := hc 0 hi
  rw [h] at this
  cases this

theorem Axis.len_pos {a : Axis} {im : Img (Px t)} (ha : im.alloc = true) : 0 < a.len im.dims := by
  unfold Img.alloc Dims.count at ha
  have h : im.dims.d * im.dims.h * im.dims.w ≠ 0 := by simpa using ha
  have h1 : im.dims.w ≠ 0 := fun e => h (by rw [e]; simp)
  have h2 : im.dims.h ≠ 0 := fun e => h (by rw [e]; simp)
  have h3 : im.dims.d ≠ 0 := fun e => h (by rw [e]; simp)
  cases a <;> simp only [Axis.len] <;> omega

theorem axisConvolve_none {a : Axis} {inPl : Bool} {E : Env (Px t)} {ker : List ℚ} {im out : Img (Px t)}
    (ha : im.alloc = true) (h : a.len im.dims + 1 < 2 * ((ker.length - 1) / 2) + 1) :
    axisConvolve a inPl E ker im out = none := by
  have hc : im.dims.count ≠ 0 := by
    unfold Img.alloc at ha
    simpa using ha
  unfold axisConvolve
  simp only
  rw [if_neg hc]
  split
  · rfl
  · split
    · rfl
    · rw [axisPass_none ha fun l => convRun_none inPl (by unfold kerRadius; omega) (Axis.len_pos ha) l]
      rfl

theorem foldlM_congr_conv {β γ : Type} {f g : β → γ → Option β} (L : List γ) (h : ∀ x ∈ L, ∀ b, f b x = g b x) (b : β) :
    L.foldlM f b = L.foldlM g b := by
  induction L generalizing b with
  | nil => rfl
  | cons a L ih =>
    rw [List.foldlM_cons, List.foldlM_cons, h a (by simp)]
    cases g b a with
    | none => rfl
    | some c => exact ih (fun x hx => h x (List.mem_cons_of_mem _ hx)) c

theorem convRun_even {ker : List ℚ} (hodd : ker.length % 2 = 1) (c : ℚ) (N : Nat) (inPl : Bool) (l : Nat → Px t) :
    convRun (ker ++ [c]) N inPl l = convRun ker N inPl l := by
  have hr : kerRadius (ker ++ [c]) = kerRadius ker := by
    unfold kerRadius
    rw [List.length_append, List.length_singleton]
    omega
  have hl : ker.length = 2 * kerRadius ker + 1 := by unfold kerRadius; omega
  have hp : ∀ i, i < kerRadius ker → partialWeight (ker ++ [c]) i = partialWeight ker i := by
    intro i hi
    unfold partialWeight
    rw [hr, List.take_append_of_le_length (by omega), List.drop_append_of_le_length (by omega),
      List.take_append_of_le_length (by rw [List.length_drop]; omega)]
  have hstep : ∀ cur (x lo : Int) (n : Nat) (w : ℚ), -(kerRadius ker : Int) ≤ lo → lo + n ≤ kerRadius ker + 1 →
      convStep (ker ++ [c]) N inPl l cur x lo n w = convStep ker N inPl l cur x lo n w := by
    intro cur x lo n w h1 h2
    unfold convStep
    congr 1
    unfold tapSum
    refine foldlM_congr_conv _ (fun i hi s => ?_) _
    rw [mem_intRange'] at hi
    rw [hr]
    have : (ker ++ [c]).getD (i + kerRadius ker).toNat 0 = ker.getD (i + kerRadius ker).toNat 0 := by
      rw [List.getD_eq_getElem?_getD, List.getD_eq_getElem?_getD, List.getElem?_append_left (by omega)]
    rw [this]
  unfold convRun
  simp only [hr]
  congr 1
  · refine foldlM_congr_conv _ (fun x hx cur => ?_) _
    rw [mem_intRange'] at hx
    rw [hp _ (by omega)]
    exact hstep _ _ _ _ _ (by omega) (by omega)
  · funext c1
    congr 1
    · refine foldlM_congr_conv _ (fun x hx cur => ?_) _
      exact hstep _ _ _ _ _ (by omega) (by omega)
    · funext c2
      refine foldlM_congr_conv _ (fun x hx cur => ?_) _
      rw [mem_intRange'] at hx
      rw [hp _ (by omega)]
      exact hstep _ _ _ _ _ (by omega) (by omega)

/-! ### C76 -/

/-- **C76, one direction.** For a symmetric kernel of odd length with weights that are not negative and of sum 1, not
longer than the lines by more than one, `horizConvolve` (and `vertConvolve` into another image) gives the integer part
of the weighted mean of the pixels around each pixel; near the borders the mean is that of the pixels in the image. -/
theorem C76_horiz_partial (E : Env (Px t)) (ker : List ℚ) (hk : KerOk ker) (im out : Img (Px t)) (ha : im.alloc = true)
    (ho : out.dims = im.dims ∨ E.auto = true) (hN : ker.length ≤ im.dims.w + 1) :
    ∃ o, horizConvolve E ker im out = some (.ok o) ∧ IsConv .x (weightAt ker) ((ker.length - 1) / 2) im o :=
  axisConvolve_spec (a := .x) hk ha ho hN

theorem C76_vert_partial (E : Env (Px t)) (ker : List ℚ) (hk : KerOk ker) (im out : Img (Px t)) (ha : im.alloc = true)
    (ho : out.dims = im.dims ∨ E.auto = true) (hN : ker.length ≤ im.dims.h + 1) :
    ∃ o, vertConvolve E false ker im out = some (.ok o) ∧ IsConv .y (weightAt ker) ((ker.length - 1) / 2) im o :=
  axisConvolve_spec (a := .y) hk ha ho hN

/-- **C76, both directions.** `convolve` is the vertical mean followed by the horizontal one. -/
theorem C76_convolve_partial (E : Env (Px t)) (ker : List ℚ) (hk : KerOk ker) (im out : Img (Px t))
    (ha : im.alloc = true) (ho : out.dims = im.dims ∨ E.auto = true) (hN : ker.length ≤ im.dims.w + 1)
    (hN' : ker.length ≤ im.dims.h + 1) :
    ∃ m o, convolve E ker im out = some (.ok o) ∧ IsConv .y (weightAt ker) ((ker.length - 1) / 2) im m ∧
      IsConv .x (weightAt ker) ((ker.length - 1) / 2) m o := by
  obtain ⟨m, h1, h2⟩ := C76_vert_partial E ker hk im out ha ho hN'
  obtain ⟨o, h3, h4⟩ := C76_horiz_partial E ker hk m m (by unfold Img.alloc at *; rw [h2.1]; exact ha) (Or.inl rfl)
    (by rw [h2.1]; exact hN)
  refine ⟨m, o, ?_, h2, h4⟩
  unfold convolve
  rw [h1]
  exact h3

/-- **C76, range.** The values of the result are between the bounds of the image: no conversion overflows. -/
theorem C76_range_partial (E : Env (Px t)) (ker : List ℚ) (hk : KerOk ker) (im out : Img (Px t)) (ha : im.alloc = true)
    (ho : out.dims = im.dims ∨ E.auto = true) (hN : ker.length ≤ im.dims.w + 1) (hN' : ker.length ≤ im.dims.h + 1)
    (lo hi : Int) (hb : ∀ p v, im.at? p = some v → lo ≤ v.val ∧ v.val ≤ hi) :
    ∃ o, convolve E ker im out = some (.ok o) ∧ ∀ p v, o.at? p = some v → lo ≤ v.val ∧ v.val ≤ hi := by
  obtain ⟨m, o, h1, h2, h3⟩ := C76_convolve_partial E ker hk im out ha ho hN hN'
  refine ⟨o, h1, fun p v hv => ?_⟩
  exact h3.bounds (fun i _ _ => hk.nn i) (fun q u hu => h2.bounds (fun i _ _ => hk.nn i) hb hu) hv

/-- **C76, constant images** are unchanged. -/
theorem C76_constant_partial (E : Env (Px t)) (ker : List ℚ) (hk : KerOk ker) (im out : Img (Px t))
    (ha : im.alloc = true) (ho : out.dims = im.dims ∨ E.auto = true) (hN : ker.length ≤ im.dims.w + 1)
    (hN' : ker.length ≤ im.dims.h + 1) (c : Px t) (hb : ∀ p v, im.at? p = some v → v = c) :
    ∃ o, convolve E ker im out = some (.ok o) ∧ ∀ p v, o.at? p = some v → v = c := by
  obtain ⟨o, h1, h2⟩ := C76_range_partial E ker hk im out ha ho hN hN' c.val c.val
    (fun p v hv => by rw [hb p v hv]; exact ⟨le_refl _, le_refl _⟩)
  refine ⟨o, h1, fun p v hv => Px.ext ?_⟩
  have := h2 p v hv
  omega

/-- **C76, order.** Convolutions are increasing. -/
theorem C76_increasing_partial (E E' : Env (Px t)) (ker : List ℚ) (hk : KerOk ker) (im im' out out' : Img (Px t))
    (ha : im.alloc = true) (ho : out.dims = im.dims ∨ E.auto = true) (ho' : out'.dims = im'.dims ∨ E'.auto = true)
    (hN : ker.length ≤ im.dims.w + 1) (hN' : ker.length ≤ im.dims.h + 1) (hle : im.Le im') :
    ∃ o o', convolve E ker im out = some (.ok o) ∧ convolve E' ker im' out' = some (.ok o') ∧ o.Le o' := by
  have hd := hle.1
  obtain ⟨m, o, h1, h2, h3⟩ := C76_convolve_partial E ker hk im out ha ho hN hN'
  obtain ⟨m', o', h1', h2', h3'⟩ := C76_convolve_partial E' ker hk im' out'
    (by unfold Img.alloc at *; rw [← hd]; exact ha) ho' (by rw [← hd]; exact hN) (by rw [← hd]; exact hN')
  exact ⟨o, o', h1, h1', h3.mono (fun i _ _ => hk.nn i) h3' (h2.mono (fun i _ _ => hk.nn i) h2' hle)⟩

/-- **C76 fails** when the lines are shorter than twice the radius of the kernel: the loops on the borders leave the
line, for every image and every kernel. -/
theorem C76_narrow_bug (E : Env (Px t)) (ker : List ℚ) (im out : Img (Px t)) (ha : im.alloc = true) (inPl : Bool) :
    (im.dims.w < 2 * ((ker.length - 1) / 2) → horizConvolve E ker im out = none) ∧
    (im.dims.h < 2 * ((ker.length - 1) / 2) → vertConvolve E inPl ker im out = none) :=
  ⟨fun h => axisConvolve_none (a := .x) ha (by simp only [Axis.len]; omega),
    fun h => axisConvolve_none (a := .y) ha (by simp only [Axis.len]; omega)⟩

/-- **C76 fails**: an even kernel loses its last weight. -/
theorem C76_even_kernel_bug (E : Env (Px t)) (ker : List ℚ) (c : ℚ) (hodd : ker.length % 2 = 1) (im out : Img (Px t)) :
    horizConvolve E (ker ++ [c]) im out = horizConvolve E ker im out := by
  have hne : ker ≠ [] := by
    intro h
    rw [h] at hodd
    simp at hodd
  unfold horizConvolve axisConvolve
  have : convRun (t := t) (ker ++ [c]) (Axis.x.len im.dims) false = convRun ker (Axis.x.len im.dims) false :=
    funext fun l => convRun_even hodd c _ _ l
  simp only [this]
  rw [if_neg (c := ker ++ [c] = []) (by simp), if_neg (c := ker = []) hne]

/-- **C76 fails**: sizes are not checked. Images without pixels are accepted, no error is ever reported, and an output
of another size that is not resized has no defined result. -/
theorem C76_sizes_bug (E : Env (Px t)) (ker : List ℚ) (inPl : Bool) (im out : Img (Px t)) :
    (∀ c, horizConvolve E ker im out ≠ some (.error c) ∧ vertConvolve E inPl ker im out ≠ some (.error c) ∧
      convolve E ker im out ≠ some (.error c)) ∧
    (im.alloc = false → ∃ o, horizConvolve E ker im out = some (.ok o)) ∧
    (im.alloc = true → E.auto = false → out.dims ≠ im.dims →
      horizConvolve E ker im out = none ∧ vertConvolve E inPl ker im out = none ∧ convolve E ker im out = none) := by
  have key : ∀ (a : Axis) (inPl : Bool) (im out : Img (Px t)) (c : Int),
      axisConvolve a inPl E ker im out ≠ some (.error c) := by
    intro a inPl im out c
    unfold axisConvolve
    simp only
    split
    · simp
    · split
      · simp
      · split
        · simp
        · cases axisPass a (convRun ker (a.len im.dims) inPl) im <;> simp
  have key2 : ∀ (a : Axis) (inPl : Bool), im.alloc = true → E.auto = false → out.dims ≠ im.dims →
      axisConvolve a inPl E ker im out = none := by
    intro a inPl ha he hd
    have hc : im.dims.count ≠ 0 := by
      unfold Img.alloc at ha
      simpa using ha
    unfold axisConvolve
    simp only
    rw [if_neg hc, if_pos]
    unfold convOut
    rw [if_neg (by rw [he]; simp)]
    exact hd
  refine ⟨fun c => ⟨key .x false im out c, key .y inPl im out c, ?_⟩, fun ha => ?_, fun ha he hd =>
    ⟨key2 .x false ha he hd, key2 .y inPl ha he hd, ?_⟩⟩
  · unfold convolve
    have h1 := key .y false im out c
    unfold vertConvolve
    cases hv : axisConvolve .y false E ker im out with
    | none => simp [andThen]
    | some m =>
      cases m with
      | error c' =>
        intro h
        exact key .y false im out c' hv
      | ok m => exact key .x false m m c
  · unfold horizConvolve axisConvolve
    have hc : im.dims.count = 0 := by
      unfold Img.alloc at ha
      simpa using ha
    simp only
    rw [if_pos hc]
    exact ⟨_, rfl⟩
  · unfold convolve vertConvolve
    rw [key2 .y false ha he hd]
    rfl

/-- **C76 fails** for kernels that are not symmetric: the left border is divided by the weights of the right one. A
constant image is changed, and may even have no result. -/
theorem C76_left_border_bug :
    vals8 (horizConvolve exEnv8 [0, 1/2, 1/2] (im8 ⟨3, 1, 1⟩ [10, 10, 10]) (im8 ⟨3, 1, 1⟩ [])) = [20, 10, 10] ∧
    (horizConvolve exEnv8 [0, 1/2, 1/2] (im8 ⟨3, 1, 1⟩ [200, 200, 200]) (im8 ⟨3, 1, 1⟩ [])).isNone = true := by
  constructor <;> decide +kernel

/-- **C76 fails** for kernels whose sum is not 1: only the borders are divided by the weights. -/
theorem C76_centre_bug :
    vals8 (horizConvolve exEnv8 [1/2, 1, 1/2] (im8 ⟨3, 1, 1⟩ [100, 100, 100]) (im8 ⟨3, 1, 1⟩ [])) = [100, 200, 100] := by
  decide +kernel

/-- **C76 fails** for `vertConvolve` into its own input: pixels already written are read again. -/
theorem C76_inplace_bug :
    KerOk [1/4, 1/2, 1/4] ∧
    vals8 (vertConvolve exEnv8 false [1/4, 1/2, 1/4] (im8 ⟨1, 3, 1⟩ [120, 0, 0]) (im8 ⟨1, 3, 1⟩ [])) = [80, 30, 0] ∧
    vals8 (vertConvolve exEnv8 true [1/4, 1/2, 1/4] (im8 ⟨1, 3, 1⟩ [120, 0, 0]) (im8 ⟨1, 3, 1⟩ [])) = [80, 20, 6] := by
  refine ⟨⟨rfl, rfl, by decide +kernel, by decide +kernel⟩, by decide +kernel, by decide +kernel⟩

/-- C76: the hypotheses are met and the result is not trivial. -/
example : KerOk [1/4, 1/2, 1/4] ∧ (im8 ⟨3, 2, 1⟩ [120, 0, 0, 60, 0, 90]).alloc = true ∧
    vals8 (convolve exEnv8 [1/4, 1/2, 1/4] (im8 ⟨3, 2, 1⟩ [120, 0, 0, 60, 0, 90]) (im8 ⟨3, 2, 1⟩ [])) =
      [66, 32, 20, 53, 35, 40] := by
  refine ⟨⟨rfl, rfl, by decide +kernel, by decide +kernel⟩, by decide, by decide +kernel⟩

/-! ### C77 -/

/-- **C77.** The Gaussian filter of a positive radius is the mean along x, then y, then z, for any positive weights. -/
theorem C77_gauss_partial (E : Env (Px t)) (w : Int → ℚ) (radius : Int) (im out : Img (Px t)) (hr : 0 < radius)
    (hw : ∀ i, -radius ≤ i → i ≤ radius → 0 < w i) (h : Accepts E im out) :
    ∃ m m' o, gaussianFilter E w radius im out = some (.ok o) ∧ IsConv .x w radius.toNat im m ∧
      IsConv .y w radius.toNat m m' ∧ IsConv .z w radius.toNat m' o := by
  have hw' : ∀ i, -(radius.toNat : Int) ≤ i → i ≤ radius.toNat → 0 < w i := fun i h1 h2 => hw i (by omega) (by omega)
  obtain ⟨m, a1, a2⟩ := axisPass_conv .x (gaussLine w radius.toNat im.dims.w) im w radius.toNat
    (fun l => gaussLine_spec hw' im.dims.w l)
  obtain ⟨m', b1, b2⟩ := axisPass_conv .y (gaussLine w radius.toNat im.dims.h) m w radius.toNat
    (fun l => by simp only [Axis.len, a2.1]; exact gaussLine_spec hw' im.dims.h l)
  obtain ⟨o, c1, c2⟩ := axisPass_conv .z (gaussLine w radius.toNat im.dims.d) m' w radius.toNat
    (fun l => by simp only [Axis.len, b2.1, a2.1]; exact gaussLine_spec hw' im.dims.d l)
  refine ⟨m, m', o, ?_, a2, b2, c2⟩
  obtain ⟨s, hs, _⟩ := checkSize_ok E im out h
  unfold gaussianFilter
  rw [hs]
  simp only
  rw [if_neg (by omega), a1]
  simp only [Option.bind_some]
  rw [b1]
  simp only [Option.bind_some]
  rw [c1]
  rfl

/-- **C77, range.** -/
theorem C77_range_partial (E : Env (Px t)) (w : Int → ℚ) (radius : Int) (im out : Img (Px t)) (hr : 0 < radius)
    (hw : ∀ i, -radius ≤ i → i ≤ radius → 0 < w i) (h : Accepts E im out) (lo hi : Int)
    (hb : ∀ p v, im.at? p = some v → lo ≤ v.val ∧ v.val ≤ hi) :
    ∃ o, gaussianFilter E w radius im out = some (.ok o) ∧ ∀ p v, o.at? p = some v → lo ≤ v.val ∧ v.val ≤ hi := by
  obtain ⟨m, m', o, h1, h2, h3, h4⟩ := C77_gauss_partial E w radius im out hr hw h
  have hw' : ∀ i, -(radius.toNat : Int) ≤ i → i ≤ radius.toNat → 0 ≤ w i :=
    fun i h1 h2 => le_of_lt (hw i (by omega) (by omega))
  exact ⟨o, h1, fun p v hv => h4.bounds hw' (fun q u hu => h3.bounds hw' (fun q u hu => h2.bounds hw' hb hu) hu) hv⟩

/-- **C77, constant images** are unchanged. -/
theorem C77_constant_partial (E : Env (Px t)) (w : Int → ℚ) (radius : Int) (im out : Img (Px t)) (hr : 0 < radius)
    (hw : ∀ i, -radius ≤ i → i ≤ radius → 0 < w i) (h : Accepts E im out) (c : Px t)
    (hb : ∀ p v, im.at? p = some v → v = c) :
    ∃ o, gaussianFilter E w radius im out = some (.ok o) ∧ ∀ p v, o.at? p = some v → v = c := by
  obtain ⟨o, h1, h2⟩ := C77_range_partial E w radius im out hr hw h c.val c.val
    (fun p v hv => by rw [hb p v hv]; exact ⟨le_refl _, le_refl _⟩)
  refine ⟨o, h1, fun p v hv => Px.ext ?_⟩
  have := h2 p v hv
  omega

/-- **C77, order.** -/
theorem C77_increasing_partial (E E' : Env (Px t)) (w : Int → ℚ) (radius : Int) (im im' out out' : Img (Px t))
    (hr : 0 < radius) (hw : ∀ i, -radius ≤ i → i ≤ radius → 0 < w i) (h : Accepts E im out) (h' : Accepts E' im' out')
    (hle : im.Le im') :
    ∃ o o', gaussianFilter E w radius im out = some (.ok o) ∧ gaussianFilter E' w radius im' out' = some (.ok o') ∧
      o.Le o' := by
  obtain ⟨m, m', o, h1, h2, h3, h4⟩ := C77_gauss_partial E w radius im out hr hw h
  obtain ⟨n, n', o', g1, g2, g3, g4⟩ := C77_gauss_partial E' w radius im' out' hr hw h'
  have hw' : ∀ i, -(radius.toNat : Int) ≤ i → i ≤ radius.toNat → 0 ≤ w i :=
    fun i h1 h2 => le_of_lt (hw i (by omega) (by omega))
  exact ⟨o, o', h1, g1, h4.mono hw' g4 (h3.mono hw' g3 (h2.mono hw' g2 hle))⟩

/-- **C77, flat images.** The mean along an axis where the image has one pixel changes nothing: a 2D image is filtered
along x and y only. -/
theorem C77_flat_partial (w : Int → ℚ) (r : Nat) (im out : Img (Px t)) (h : IsConv .z w r im out) (hd : im.dims.d = 1)
    (p : IntPoint) (v : Px t) (hv : out.at? p = some v) : im.at? p = some v := by
  have hp := Img.at?_eq_some_in _ _ _ hv
  rw [h.1] at hp
  obtain ⟨h1, h2⟩ := h.2 p v hv
  have e0 : im.at? p = some (im.buf (offOf im.dims p)) := Img.buf_offOf im p hp
  have hz : ∀ i, i ≠ 0 → im.at? (alongPt .z p i) = none := by
    intro i hi
    refine Img.at?_none im _ fun hc => ?_
    unfold Img.In at hp hc
    simp only [alongPt] at hc
    omega
  have hz0 : im.at? (alongPt .z p 0) = im.at? p := by
    simp only [alongPt, add_zero]
  have s1 : wTotal w r (fun i => im.at? (alongPt .z p i)) = w 0 := by
    unfold wTotal
    rw [Finset.sum_eq_single (0 : Int)]
    · simp only [hz0, e0, Option.elim_some]
    · intro i _ hi; simp only [hz i hi, Option.elim_none]
    · intro hc; exact absurd (Finset.mem_Icc.mpr (by omega)) hc
  have s2 : wSum w r (fun i => im.at? (alongPt .z p i)) = w 0 * ((im.buf (offOf im.dims p)).val : ℚ) := by
    unfold wSum
    rw [Finset.sum_eq_single (0 : Int)]
    · simp only [hz0, e0, Option.elim_some]
    · intro i _ hi; simp only [hz i hi, Option.elim_none]
    · intro hc; exact absurd (Finset.mem_Icc.mpr (by omega)) hc
  rw [s1] at h1 h2
  rw [s2, mul_div_cancel_left₀ _ (ne_of_gt h1)] at h2
  rw [e0]
  congr 1
  refine Px.ext ?_
  have a1 := h2.mono (isTrunc_int _) (le_refl _)
  have a2 := (isTrunc_int (im.buf (offOf im.dims p)).val).mono h2 (le_refl _)
  omega

/-- **C77, errors.** Unallocated images and images of different sizes are refused; a radius that is not positive has
no result. -/
theorem C77_errors (E : Env (Px t)) (w : Int → ℚ) (radius : Int) (im out : Img (Px t)) :
    (im.alloc = false ∨ out.alloc = false → gaussianFilter E w radius im out = some (.error errBadAllocation)) ∧
    (im.alloc = true → out.alloc = true → out.dims ≠ im.dims → E.auto = false →
      gaussianFilter E w radius im out = some (.error errBadSize)) ∧
    (Accepts E im out → radius ≤ 0 → gaussianFilter E w radius im out = none) := by
  refine ⟨fun h => ?_, fun h1 h2 h3 h4 => ?_, fun h hr => ?_⟩
  · unfold gaussianFilter checkSize
    rw [if_pos h]
  · unfold gaussianFilter checkSize
    rw [if_neg (by rw [h1, h2]; simp), if_neg h3, if_neg (by rw [h4]; simp)]
  · obtain ⟨s, hs, _⟩ := checkSize_ok E im out h
    unfold gaussianFilter
    rw [hs]
    simp only
    rw [if_pos hr]

/-- C77: the hypotheses are met and the result is not trivial. -/
example : Accepts exEnv8 (im8 ⟨3, 2, 1⟩ [120, 0, 0, 60, 0, 90]) (im8 ⟨3, 2, 1⟩ []) ∧
    (∀ i : Int, -1 ≤ i → i ≤ 1 → 0 < (fun i : Int => if i = 0 then (2 : ℚ) else 1) i) ∧
    vals8 (gaussianFilter exEnv8 (fun i => if i = 0 then 2 else 1) 1 (im8 ⟨3, 2, 1⟩ [120, 0, 0, 60, 0, 90])
      (im8 ⟨3, 2, 1⟩ [])) = [66, 32, 20, 53, 34, 40] := by
  refine ⟨accepts_of_dims _ (by decide) rfl, fun i _ _ => ?_, by decide +kernel⟩
  simp only
  split <;> norm_num

end Smil
