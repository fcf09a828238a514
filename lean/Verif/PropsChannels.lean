import Verif.Channels

/-!
# C13, C14, C61: multichannel images, comparisons and line pointers
-/

namespace Smil

/-! ### C14 -/

section
variable {t : PT} {N : Nat}

/-- **C14**: what each comparison of the code decides. `<=` and `>=` are the channelwise order and
its converse, `==` is equality; `<`, `>` and `!=` ask their relation of *every* channel. -/
theorem C14_relations (a b : MCPx t N) :
    (mcEq a b = true ↔ a = b) ∧
    (mcLe a b = true ↔ ∀ i, (a i).val ≤ (b i).val) ∧
    (mcGe a b = true ↔ ∀ i, (b i).val ≤ (a i).val) ∧
    (mcLt a b = true ↔ ∀ i, (a i).val < (b i).val) ∧
    (mcGt a b = true ↔ ∀ i, (b i).val < (a i).val) ∧
    (mcNe a b = true ↔ ∀ i, (a i).val ≠ (b i).val) := by
  refine ⟨?_, ?_, ?_, ?_, ?_, ?_⟩
  · unfold mcEq; rw [mcAll_iff]
    simp only [decide_eq_false_iff_not, ne_eq, not_not]
    exact ⟨fun h => funext fun i => Px.ext (h i), fun h i => by rw [h]⟩
  · unfold mcLe; rw [mcAll_iff]; simp
  · unfold mcGe; rw [mcAll_iff]; simp
  · unfold mcLt; rw [mcAll_iff]; simp
  · unfold mcGt; rw [mcAll_iff]; simp
  · unfold mcNe; rw [mcAll_iff]; simp

/-- **C14**: `<=` is a partial order whose equality is `==`, and `>=` is its converse. -/
theorem C14_order (a b c : MCPx t N) :
    mcLe a a = true ∧ (mcLe a b = true → mcLe b c = true → mcLe a c = true) ∧
    (mcLe a b = true ∧ mcLe b a = true ↔ mcEq a b = true) ∧ mcGe a b = mcLe b a := by
  refine ⟨?_, ?_, ?_, ?_⟩
  · rw [(C14_relations a a).2.1]; intro i; exact le_rfl
  · rw [(C14_relations a b).2.1, (C14_relations b c).2.1, (C14_relations a c).2.1]
    exact fun h1 h2 i => le_trans (h1 i) (h2 i)
  · rw [(C14_relations a b).2.1, (C14_relations b a).2.1, (C14_relations a b).1]
    constructor
    · rintro ⟨h1, h2⟩
      exact funext fun i => Px.ext (le_antisymm (h1 i) (h2 i))
    · rintro rfl; exact ⟨fun _ => le_rfl, fun _ => le_rfl⟩
  · rw [Bool.eq_iff_iff, (C14_relations a b).2.2.1, (C14_relations b a).2.1]

/-- **C14**: on `RGB` images `sup` and `inf` are the join and the meet of `<=`. -/
theorem C14_rgb_lattice (a b c : MCPx t N) :
    (mcLe (rgbSup a b) c = true ↔ mcLe a c = true ∧ mcLe b c = true) ∧
    (mcLe c (rgbInf a b) = true ↔ mcLe c a = true ∧ mcLe c b = true) := by
  constructor
  · rw [(C14_relations _ _).2.1, (C14_relations _ _).2.1, (C14_relations _ _).2.1, ← forall_and]
    refine forall_congr' fun i => ?_
    unfold rgbSup
    split <;> omega
  · rw [(C14_relations _ _).2.1, (C14_relations _ _).2.1, (C14_relations _ _).2.1, ← forall_and]
    refine forall_congr' fun i => ?_
    unfold rgbInf
    split <;> omega

/-- **C14**, part that holds for the other multichannel types: if one pixel is below the other in every
channel, or they are equal, `sup` and `inf` are the join and the meet. Missing: the other pairs
(`C14_sup_bug`). -/
theorem C14_generic_lattice_partial (a b c : MCPx t N)
    (h : a = b ∨ (∀ i, (a i).val < (b i).val) ∨ ∀ i, (b i).val < (a i).val) :
    (mcLe (mcSup a b) c = true ↔ mcLe a c = true ∧ mcLe b c = true) ∧
    (mcLe c (mcInf a b) = true ↔ mcLe c a = true ∧ mcLe c b = true) := by
  have hg := (C14_relations a b).2.2.2.2.1
  have hl := (C14_relations a b).2.2.2.1
  simp only [(C14_relations _ _).2.1]
  rcases h with h | h | h
  · subst h
    unfold mcSup mcInf
    simp
  · have h2 : mcLt a b = true := hl.mpr h
    unfold mcSup mcInf
    rw [if_pos h2]
    constructor
    · split
      · rename_i h1
        have h1 := hg.mp h1
        exact ⟨fun hh => ⟨hh, fun i => by have := h i; have := h1 i; omega⟩, fun hh => hh.1⟩
      · exact ⟨fun hh => ⟨fun i => le_trans (le_of_lt (h i)) (hh i), hh⟩, fun hh => hh.2⟩
    · exact ⟨fun hh => ⟨hh, fun i => le_trans (hh i) (le_of_lt (h i))⟩, fun hh => hh.1⟩
  · have h2 : mcGt a b = true := hg.mpr h
    unfold mcSup mcInf
    rw [if_pos h2]
    constructor
    · exact ⟨fun hh => ⟨hh, fun i => le_trans (le_of_lt (h i)) (hh i)⟩, fun hh => hh.1⟩
    · split
      · rename_i h1
        have h1 := hl.mp h1
        exact ⟨fun hh => ⟨hh, fun i => by have := h i; have := h1 i; omega⟩, fun hh => hh.1⟩
      · exact ⟨fun hh => ⟨fun i => le_trans (hh i) (le_of_lt (h i)), hh⟩, fun hh => hh.2⟩

/-- **C14**, part that holds: `!=` excludes `==` as soon as there is a channel, and with one channel it
is its negation. Missing: with several channels it is not the negation (`C14_ne_bug`). -/
theorem C14_ne_partial (a b : MCPx t N) :
    (0 < N → mcNe a b = true → mcEq a b = false) ∧ (N = 1 → mcNe a b = !mcEq a b) := by
  obtain ⟨he, -, -, -, -, hn⟩ := C14_relations a b
  constructor
  · intro h0 h
    rw [Bool.eq_false_iff]
    intro h2
    have := hn.mp h ⟨0, h0⟩
    rw [he.mp h2] at this
    exact this rfl
  · rintro rfl
    rw [Bool.eq_iff_iff, hn]
    simp only [Bool.not_eq_true', Bool.eq_false_iff, ne_eq]
    rw [he]
    constructor
    · intro h h2; exact h 0 (by rw [h2])
    · intro h i h2
      apply h
      funext j
      have : j = i := Subsingleton.elim _ _
      subst this
      exact Px.ext h2

/-- **C14**, comparison with an `int`: `==` compares every channel with the number; `!=` agrees with
the comparison of pixels when the number is a value of the channel type. -/
theorem C14_int (a : MCPx t N) (v : Int) :
    (mcEqI a v = true ↔ ∀ i, (a i).val = v) ∧
    (t.lo ≤ v → v ≤ t.hi → (mcNeI a v = true ↔ ∀ i, (a i).val ≠ v)) := by
  constructor
  · unfold mcEqI; rw [mcAll_iff]; simp
  · intro h1 h2
    unfold mcNeI
    rw [(C14_relations _ _).2.2.2.2.2]
    simp only [t.wrap_of_mem h1 h2]

end

/-- A colour pixel, for the examples. -/
def rgb (r g b : Int) : MCPx UINT8 3 :=
  fun c => UINT8.wrap (if c.val = 0 then r else if c.val = 1 then g else b)

example : mcLe (rgb 1 2 3) (rgb 1 5 3) = true ∧ mcLe (rgb 1 2 3) (rgb 0 5 3) = false ∧
    rgbSup (rgb 1 2 3) (rgb 0 5 3) = rgb 1 5 3 ∧ rgbInf (rgb 1 2 3) (rgb 0 5 3) = rgb 0 2 3 := by
  decide

example : (∀ i, (rgb 1 2 3 i).val < (rgb 4 5 6 i).val) ∧
    mcSup (rgb 1 2 3) (rgb 4 5 6) = rgb 4 5 6 := by decide

/-- **C14** fails for `!=`: two different pixels that agree on one channel are neither `==` nor `!=`. -/
theorem C14_ne_bug : ∃ a b : MCPx UINT8 3, a ≠ b ∧ mcEq a b = false ∧ mcNe a b = false :=
  ⟨rgb 1 2 3, rgb 1 5 6, by decide, by decide, by decide⟩

/-- **C14** fails for the strict orders: `a <= b` and `a` different from `b`, yet not `a < b`; and
`!(a < b)` is not `a >= b`. -/
theorem C14_lt_bug : ∃ a b : MCPx UINT8 3, mcLe a b = true ∧ a ≠ b ∧ mcLt a b = false ∧
    mcGe a b = false :=
  ⟨rgb 1 2 3, rgb 1 5 3, by decide, by decide, by decide, by decide⟩

/-- **C14** fails for `sup` and `inf` of `COLOR_UINT8_3`/`COLOR_32`: on pixels that are not strictly
ordered in every channel they return their second operand, so `sup` is neither an upper bound nor
commutative, even when `b <= a`. -/
theorem C14_sup_bug : ∃ a b : MCPx UINT8 3, mcLe b a = true ∧ mcSup a b = b ∧ mcSup b a = a ∧ a ≠ b ∧
    mcLe a (mcSup a b) = false ∧ mcInf b a = a ∧ mcLe (mcInf b a) b = false :=
  ⟨rgb 1 5 3, rgb 1 2 3, by decide, by decide, by decide, by decide, by decide, by decide, by decide⟩

/-- **C14** fails for `equ` and `diff` of RGB images: `equ` is computed channel by channel and `diff` on
whole pixels, so two pixels agreeing on one channel give a colour that is neither and their results
are not complementary. -/
theorem C14_equ_bug : ∃ a b : MCPx UINT8 3,
    rgbEqu (UINT8.wrap 255) (UINT8.wrap 0) a b = rgb 255 0 0 ∧
    mcDiff (UINT8.wrap 255) (UINT8.wrap 0) a b = rgb 0 0 0 :=
  ⟨rgb 1 2 3, rgb 1 5 6, by decide, by decide⟩

/-- **C14** fails for the comparison with an `int` outside the channel type: black is neither `== 256`
nor `!= 256`. -/
theorem C14_int_bug : ∃ a : MCPx UINT8 3, mcEqI a 256 = false ∧ mcNeI a 256 = false :=
  ⟨rgb 0 0 0, by decide, by decide⟩

/-! ### C61 -/

section
variable {t : PT} {N : Nat}

/-- The addresses a line pointer stands for: what a C++ pointer to the pixels would give. -/
def MCPtr.Means (p : MCPtr N) (A : Fin N → Nat) : Prop := ∀ i c, p.addr i c = A c + i

/-- **C61**: copying keeps the pixels addressed, `++` moves by one. -/
theorem C61_copy_incr (p : MCPtr N) (A : Fin N → Nat) (h : p.Means A) :
    p.copy.Means A ∧ p.incr.Means (fun c => A c + 1) := by
  constructor
  · intro i c
    have := h i c
    simp only [MCPtr.addr, MCPtr.copy] at *
    omega
  · intro i c
    have := h i c
    simp only [MCPtr.addr, MCPtr.incr] at *
    omega

/-- **C61**, part that holds: `p + n` moves by `n` on a pointer that has not been moved by `++` since it
was created, copied or assigned. Missing: the other pointers (`C61_plus_bug`). -/
theorem C61_plus_partial (p : MCPtr N) (A : Fin N → Nat) (h : p.Means A) (n : Nat)
    (hi : p.index = 0) :
    (p.plus n).Means (fun c => A c + n) ∧ (p.plus n).index = 0 ∧ p.copy.index = 0 := by
  refine ⟨?_, rfl, rfl⟩
  intro i c
  have := h i c
  simp only [MCPtr.addr, MCPtr.plus, MCPtr.ofIndex] at *
  omega

/-- **C61** fails: after `p++`, `p + n` counts the increment twice: it is one pixel too far. -/
theorem C61_plus_bug (p : MCPtr N) (A : Fin N → Nat) (h : p.Means A) (n k : Nat)
    (hi : p.index = k) : (p.plus n).Means (fun c => A c + (n + k)) := by
  intro i c
  have := h i c
  simp only [MCPtr.addr, MCPtr.plus, MCPtr.ofIndex] at *
  omega

/-- **C61**: a store through `p[i] = v` is read back by `p[i]` and leaves the other pixels. -/
theorem C61_store (mem : Fin N → Nat → Px t) (p : MCPtr N) (i j : Nat) (v : MCPx t N) :
    (MCItem.make (mcStore mem p i v) p i).cell = v ∧
    (j ≠ i → (MCItem.make (mcStore mem p i v) p j).cell = (MCItem.make mem p j).cell) := by
  constructor
  · funext c; simp [MCItem.make, mcStore]
  · intro h
    funext c
    simp only [MCItem.make, mcStore]
    rw [Function.update_of_ne]
    unfold MCPtr.addr; omega

/-- **C61** fails for the conversions: an addressed pixel converts (`operator double`, and through it
`int`, `bool`, ...) from its unused array, so it always gives 0, whatever the pixel contains. -/
theorem C61_conversion_bug : (∀ (mem : Fin N → Nat → Px t) (p : MCPtr N) (i : Nat),
      (MCItem.make mem p i).sum = 0) ∧
    ∃ (mem : Fin 3 → Nat → Px UINT8) (p : MCPtr 3),
      mcSum (MCItem.make mem p 0).cell = 6 ∧ (MCItem.make mem p 0).sum = 0 := by
  constructor
  · intro mem p i
    unfold MCItem.sum MCItem.make
    have : (fun _ : Fin N => (Px.zero : Px t).val) = fun _ => (0 : Int) := rfl
    simp only [this]
    simp
  · exact ⟨fun c _ => rgb 1 2 3 c, ⟨fun _ => 0, 0⟩, by decide, by decide⟩

end

example : (⟨fun c => 100 * (c.val + 1), 0⟩ : MCPtr 3).Means (fun c => 100 * (c.val + 1)) ∧
    ((⟨fun c => 100 * (c.val + 1), 0⟩ : MCPtr 3).plus 7).addr 2 1 = 209 ∧
    ((⟨fun c => 100 * (c.val + 1), 0⟩ : MCPtr 3).incr.plus 7).addr 2 1 = 211 := by
  refine ⟨fun i c => by simp [MCPtr.addr], by decide, by decide⟩

/-! ### C13 -/

section
variable {t t1 t2 : PT} {N : Nat}

/-- What a user sees of a multichannel image. -/
def MCImg.at? {α : Type} (im : MCImg N α) (p : IntPoint) : Option (Fin N → α) :=
  if Img.In im.dims p then
    some fun c => im.chan c (rasterIndex im.dims.w im.dims.h p.x.toNat p.y.toNat p.z.toNat)
  else none

/-- The same pixels. -/
def MCImg.Same {α : Type} (a b : MCImg N α) : Prop := a.dims = b.dims ∧ ∀ p, a.at? p = b.at? p

/-- Every value of `t1` is a value of `t2`. -/
def PT.Fits (t1 t2 : PT) : Prop := t2.lo ≤ t1.lo ∧ t1.hi ≤ t2.hi

theorem MCImg.at?_in {α : Type} (im : MCImg N α) (p : IntPoint) (v : Fin N → α)
    (h : im.at? p = some v) : Img.In im.dims p := by
  unfold MCImg.at? at h
  split at h
  · assumption
  · cases h

theorem slice_lt {w h x y : Nat} (hx : x < w) (hy : y < h) : x + y * w < w * h := by
  have := Nat.mul_le_mul_right w (show y + 1 ≤ h from hy)
  rw [Nat.add_mul, Nat.mul_comm h w] at this
  omega

theorem raster_slice (w h x y z : Nat) : rasterIndex w h x y z = z * (w * h) + (x + y * w) := by
  unfold rasterIndex
  ring

/-- **C13**, split: slice `c` of the result is channel `c` of the input, converted to the output type;
the previous contents of the output do not matter. Missing: an input of several slices loses all
but the first (`C13_split3D_bug`). -/
theorem C13_split_partial (raw : Nat → Px t2) (im : MCImg N (Px t1)) (h1 : im.dims.d = 1)
    (hne : im.dims.count ≠ 0) :
    ∃ out, splitChannels raw im = .ok out ∧ out.dims = ⟨im.dims.w, im.dims.h, N⟩ ∧
      ∀ (p : IntPoint) (v : Fin N → Px t1), im.at? p = some v →
        ∀ c : Fin N, out.at? ⟨p.x, p.y, c.val⟩ = some (t2.wrap (v c).val) := by
  refine ⟨_, by unfold splitChannels; rw [if_neg hne], rfl, ?_⟩
  intro p v hv c
  have hp := im.at?_in p v hv
  unfold MCImg.at? at hv
  rw [if_pos hp] at hv
  have hv := Option.some.inj hv
  subst hv
  have hz : p.z.toNat = 0 := by unfold Img.In at hp; omega
  have hx : p.x.toNat < im.dims.w := by unfold Img.In at hp; omega
  have hy : p.y.toNat < im.dims.h := by unfold Img.In at hp; omega
  rw [Img.at?_some]
  · unfold Img.px
    simp only [raster_slice, hz, Int.toNat_natCast]
    rw [split_fold _ _ _ _ c (by simp) _ (slice_lt hx hy)]
    simp
  · unfold Img.In at hp ⊢
    simp only
    have := c.isLt
    omega

/-- **C13**, merge: channel `c` of the result is slice `c` of the input, converted to the channel
type. -/
theorem C13_merge (raw : Fin N → Nat → Px t2) (im : Img (Px t1)) (hd : im.dims.d = N)
    (hne : im.dims.count ≠ 0) :
    ∃ out, mergeChannels raw im = .ok out ∧ out.dims = ⟨im.dims.w, im.dims.h, 1⟩ ∧
      ∀ (x y : Int) (c : Fin N) (v : Px t1), im.at? ⟨x, y, c.val⟩ = some v →
        (out.at? ⟨x, y, 0⟩).map (fun u => u c) = some (t2.wrap v.val) := by
  refine ⟨_, by unfold mergeChannels; rw [if_neg hne, if_neg (by simpa using hd)], rfl, ?_⟩
  intro x y c v hv
  have hp := im.at?_eq_some_in _ v hv
  rw [Img.at?_some _ _ hp] at hv
  have hv := Option.some.inj hv
  subst hv
  have hx : x.toNat < im.dims.w := by unfold Img.In at hp; simp only at hp; omega
  have hy : y.toNat < im.dims.h := by unfold Img.In at hp; simp only at hp; omega
  unfold MCImg.at?
  rw [if_pos (by unfold Img.In at hp ⊢; simp only at hp ⊢; omega)]
  simp only [Option.map_some, raster_slice, Int.toNat_zero, Nat.zero_mul, Nat.zero_add,
    Int.toNat_natCast, Img.px]
  rw [merge_fold (fun i o => convLine (im.dims.w * im.dims.h)
    (fun j => im.buf (j + i.val * (im.dims.w * im.dims.h))) o) _ (List.nodup_finRange N),
    if_pos (by simp), convLine_apply, if_pos (slice_lt hx hy), Nat.add_comm]

/-- **C13**: merging after splitting gives the image back, for images of one slice and a stack type
that holds the values of the channels. -/
theorem C13_split_merge_partial (raw : Nat → Px t2) (raw' : Fin N → Nat → Px t1)
    (im : MCImg N (Px t1)) (hf : t1.Fits t2) (hN : N ≠ 0) (h1 : im.dims.d = 1)
    (hne : im.dims.count ≠ 0) :
    ∃ st out, splitChannels raw im = .ok st ∧ mergeChannels raw' st = .ok out ∧ out.Same im := by
  obtain ⟨st, hst, hdims, hpx⟩ := C13_split_partial raw im h1 hne
  have hc : st.dims.count ≠ 0 := by
    rw [hdims]
    unfold Dims.count at hne ⊢
    simp only
    rw [h1, Nat.one_mul] at hne
    rw [Nat.mul_assoc]
    exact Nat.mul_ne_zero hN hne
  obtain ⟨out, hout, hod, hop⟩ := C13_merge (t2 := t1) raw' st (by rw [hdims]) hc
  have hdd : out.dims = im.dims := by
    rw [hod, hdims]
    cases h : im.dims
    rw [h] at h1
    simp only at h1
    simp [h1]
  refine ⟨st, out, hst, hout, hdd, fun p => ?_⟩
  by_cases hp : Img.In im.dims p
  · obtain ⟨v, hv⟩ : ∃ v, im.at? p = some v := by unfold MCImg.at?; rw [if_pos hp]; exact ⟨_, rfl⟩
    obtain ⟨u, hu⟩ : ∃ u, out.at? p = some u := by
      unfold MCImg.at?; rw [if_pos (hdd ▸ hp)]; exact ⟨_, rfl⟩
    rw [hv, hu]
    congr 1
    funext c
    have h3 := hop p.x p.y c _ (hpx p v hv c)
    have hpz : p = ⟨p.x, p.y, 0⟩ := by
      unfold Img.In at hp
      cases p
      simp only at hp
      congr 1
      omega
    rw [← hpz, hu] at h3
    simp only [Option.map_some] at h3
    have h4 := Option.some.inj h3
    rw [h4, t2.wrap_of_mem (le_trans hf.1 (v c).lo_le) (le_trans (v c).le_hi hf.2), t1.wrap_val]
  · unfold MCImg.at?
    rw [if_neg hp, if_neg (hdd ▸ hp)]

/-- **C13**: splitting after merging gives the stack back, if the channel type holds its values. -/
theorem C13_merge_split (raw : Nat → Px t1) (raw' : Fin N → Nat → Px t2)
    (im : Img (Px t1)) (hf : t1.Fits t2) (hd : im.dims.d = N) (hne : im.dims.count ≠ 0) :
    ∃ mc out, mergeChannels raw' im = .ok mc ∧ splitChannels raw mc = .ok out ∧ out.Same im := by
  obtain ⟨mc, hmc, hdims, hpx⟩ := C13_merge (t2 := t2) raw' im hd hne
  have hN : N ≠ 0 := by
    rintro rfl
    unfold Dims.count at hne
    rw [hd, Nat.zero_mul, Nat.zero_mul] at hne
    exact hne rfl
  have hwh : im.dims.h * im.dims.w ≠ 0 := by
    unfold Dims.count at hne
    rw [Nat.mul_assoc] at hne
    exact fun h => hne (by rw [h, Nat.mul_zero])
  have hc : mc.dims.count ≠ 0 := by
    rw [hdims]
    unfold Dims.count
    simpa using hwh
  obtain ⟨out, hout, hod, hop⟩ := C13_split_partial (t2 := t1) raw mc (by rw [hdims]) hc
  have hdd : out.dims = im.dims := by
    rw [hod, hdims]
    cases h : im.dims
    rw [h] at hd
    simp only at hd
    simp [hd]
  refine ⟨mc, out, hmc, hout, hdd, fun p => ?_⟩
  by_cases hp : Img.In im.dims p
  · have hpx' := Img.at?_some im p hp
    have hz : ∃ c : Fin N, p.z = c.val := by
      unfold Img.In at hp
      exact ⟨⟨p.z.toNat, by omega⟩, by simp only; omega⟩
    obtain ⟨c, hc⟩ := hz
    have hpz : p = ⟨p.x, p.y, c.val⟩ := by cases p; simp only at hc; rw [hc]
    have h3 := hpx p.x p.y c (im.px p.x.toNat p.y.toNat p.z.toNat) (by rw [← hpz]; exact hpx')
    cases hu : mc.at? ⟨p.x, p.y, 0⟩ with
    | none => rw [hu] at h3; cases h3
    | some u =>
      rw [hu] at h3
      have h4 := hop ⟨p.x, p.y, 0⟩ u hu c
      simp only at h4
      rw [← hpz] at h4
      rw [h4, hpx']
      congr 1
      have h5 : u c = _ := Option.some.inj h3
      set v := im.px p.x.toNat p.y.toNat p.z.toNat
      rw [h5, t2.wrap_of_mem (le_trans hf.1 v.lo_le) (le_trans v.le_hi hf.2), t1.wrap_val]
  · rw [Img.at?_none im p hp, Img.at?_none out p (hdd ▸ hp)]

/-- **C13**, `copyChannel`: the output is the channel, converted. -/
theorem C13_copyChannel (auto : Bool) (raw : Nat → Px t2) (im : MCImg N (Px t1)) (c : Fin N)
    (out : Img (Px t2)) (ha : AcceptsD auto im.dims out.dims) :
    ∃ o, copyChannel auto raw im c out = .ok o ∧ o.dims = im.dims ∧
      ∀ p v, im.at? p = some v → o.at? p = some (t2.wrap (v c).val) := by
  refine ⟨_, by unfold copyChannel; rw [dif_pos c.isLt, checkDims_ok ha], rfl, ?_⟩
  intro p v hv
  have hp := im.at?_in p v hv
  unfold MCImg.at? at hv
  rw [if_pos hp] at hv
  have hv := Option.some.inj hv
  subst hv
  rw [Img.at?_some _ _ (show Img.In im.dims p from hp)]
  unfold Img.px
  simp only
  rw [convLine_apply, if_pos]
  exact offOf_lt hp

/-- **C13**, `copyToChannel` on an output of the same size: the named channel becomes the image,
converted; every other channel keeps its pixels. -/
theorem C13_copyToChannel (auto : Bool) (raw : Fin N → Nat → Px t2) (im : Img (Px t1)) (c : Fin N)
    (out : MCImg N (Px t2)) (hd : out.dims = im.dims) (hne : im.dims.count ≠ 0) :
    ∃ o, copyToChannel auto raw im c out = .ok o ∧ o.dims = out.dims ∧
      ∀ p v u, im.at? p = some v → out.at? p = some u →
        ∃ u', o.at? p = some u' ∧ u' c = t2.wrap v.val ∧ ∀ k, k ≠ c → u' k = u k := by
  have ha : AcceptsD auto im.dims out.dims := ⟨hne, hd ▸ hne, Or.inl hd⟩
  refine ⟨_, by unfold copyToChannel; rw [dif_pos c.isLt, checkDims_ok ha], hd.symm, ?_⟩
  intro p v u hv hu
  have hp := im.at?_eq_some_in p v hv
  rw [Img.at?_some _ _ hp] at hv
  have hv := Option.some.inj hv
  unfold MCImg.at? at hu
  rw [if_pos (hd ▸ hp)] at hu
  have hu := Option.some.inj hu
  subst hu hv
  refine ⟨_, by unfold MCImg.at?; rw [if_pos hp], ?_, ?_⟩
  · simp only [Function.update_self]
    rw [convLine_apply, if_pos (show rasterIndex _ _ _ _ _ < _ from offOf_lt hp)]
    rfl
  · intro k hk
    simp only [if_pos hd]
    rw [Function.update_of_ne hk, hd]

/-- **C13**, refusals. -/
theorem C13_refuse (auto : Bool) (raw : Nat → Px t2) (raw' : Fin N → Nat → Px t2)
    (im : MCImg N (Px t1)) (im' : Img (Px t1)) (out : Img (Px t2)) (out' : MCImg N (Px t2)) (c : Nat) :
    (N ≤ c → copyChannel auto raw im c out = .error (-100) ∧
      copyToChannel auto raw' im' c out' = .error (-100)) ∧
    (im'.dims.count ≠ 0 → im'.dims.d ≠ N → mergeChannels raw' im' = .error (-100)) ∧
    (im.dims.count = 0 → splitChannels raw im = .error (-99)) ∧
    (im'.dims.count = 0 → mergeChannels raw' im' = .error (-99)) := by
  refine ⟨fun h => ⟨?_, ?_⟩, fun h1 h2 => ?_, fun h => ?_, fun h => ?_⟩
  · unfold copyChannel; rw [dif_neg (by omega)]
  · unfold copyToChannel; rw [dif_neg (by omega)]
  · unfold mergeChannels; rw [if_neg h1, if_pos h2]
  · unfold splitChannels; rw [if_pos h]
  · unfold mergeChannels; rw [if_pos h]

end

/-- **C13** fails for multichannel images of several slices: only the first slice is copied, two images
with different second slices split to the same stack. -/
theorem C13_split3D_bug : ∃ (raw : Nat → Px UINT8) (a b : MCImg 3 (Px UINT8)),
    a.dims = ⟨1, 1, 2⟩ ∧ b.dims = ⟨1, 1, 2⟩ ∧ ¬ a.Same b ∧
    ∃ o, splitChannels raw a = .ok o ∧ splitChannels raw b = .ok o := by
  refine ⟨fun _ => UINT8.wrap 0, ⟨⟨1, 1, 2⟩, fun _ _ => UINT8.wrap 1⟩,
    ⟨⟨1, 1, 2⟩, fun _ i => if i = 1 then UINT8.wrap 2 else UINT8.wrap 1⟩, rfl, rfl, ?_, _, rfl, ?_⟩
  · rintro ⟨-, h⟩
    have := h ⟨0, 0, 1⟩
    have h2 : (MCImg.at? ⟨⟨1, 1, 2⟩, fun _ _ => UINT8.wrap 1⟩ ⟨0, 0, 1⟩ : Option (MCPx UINT8 3)) =
        MCImg.at? ⟨⟨1, 1, 2⟩, fun _ i => if i = 1 then UINT8.wrap 2 else UINT8.wrap 1⟩ ⟨0, 0, 1⟩ := this
    revert h2
    decide
  · unfold splitChannels
    rw [if_neg (by decide)]
    apply congrArg Except.ok
    apply congrArg (Img.mk _)
    funext k
    have key : ∀ (ch ch' : Fin 3 → Nat → Px UINT8), (∀ c, ch c 0 = ch' c 0) →
        ∀ (l : List (Fin 3)) (o : Nat → Px UINT8),
        l.foldl (fun o i => writeAt (i.val * 1) 1 (ch i) o) o k =
        l.foldl (fun o i => writeAt (i.val * 1) 1 (ch' i) o) o k := by
      intro ch ch' hc l
      induction l using List.reverseRecOn with
      | nil => intro o; rfl
      | append_singleton l a ih =>
        intro o
        simp only [List.foldl_append, List.foldl_cons, List.foldl_nil]
        rw [writeAt_apply, writeAt_apply, ih]
        split
        · rw [show k - a.val * 1 = 0 by omega, hc]
        · rfl
    exact key _ _ (fun c => by simp) _ _

/-- The stack of an RGB image of two pixels, and the way back. -/
example :
    (match splitChannels (fun _ => UINT8.wrap 9)
        (⟨⟨2, 1, 1⟩, fun c i => UINT8.wrap (10 * c.val + i)⟩ : MCImg 3 (Px UINT8)) with
      | .ok o => decide (o.dims = ⟨2, 1, 3⟩ ∧
          ((List.range 6).map fun i => (o.buf i).val) = [0, 1, 10, 11, 20, 21])
      | .error _ => false) = true ∧ UINT8.Fits UINT8 := by
  refine ⟨by decide +kernel, le_rfl, le_rfl⟩

example :
    (match copyToChannel false (fun _ _ => UINT8.wrap 9) (im8 ⟨2, 1, 1⟩ [7, 8]) 1
        (⟨⟨2, 1, 1⟩, fun c i => UINT8.wrap (10 * c.val + i)⟩ : MCImg 3 (Px UINT8)) with
      | .ok o => decide (((List.range 2).map fun i => (List.finRange 3).map fun c =>
          (o.chan c i).val) = [[0, 7, 20], [1, 8, 21]])
      | .error _ => false) = true := by
  decide +kernel

end Smil
