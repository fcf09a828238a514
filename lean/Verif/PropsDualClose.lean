import Verif.DualClose
import Verif.PropsAreaOpen
import Verif.PropsMaxTreeMore
import Verif.PropsGeoMeas

/-!
# C94: the area closing and the path closing
-/

namespace Smil
open StrElt

section
variable {α : Type} [LinearOrder α]

/-- `out` is the area closing of `im` of size `n`: at each pixel the smallest level not below the pixel for which at least
`n` pixels are joined to it without going above the level, or when even the whole component of the pixel has fewer than
`n` pixels the greatest value of that component. -/
structure IsAreaClose (N : IntPoint → IntPoint → Prop) (n : Nat) (im out : Img α) : Prop where
  dims : out.dims = im.dims
  val : ∀ p a, im.at? p = some a → ∃ b, out.at? p = some b ∧
    ((a ≤ b ∧ n ≤ (lowerSet N im b p).ncard ∧ ∀ v, v < b → a ≤ v → (lowerSet N im v p).ncard < n) ∨
     ((wholeSet N im p).ncard < n ∧ (∃ q ∈ wholeSet N im p, im.at? q = some b) ∧
        ∀ q ∈ wholeSet N im p, ∀ c, im.at? q = some c → c ≤ b))

/-- A closing is an opening for the opposite order. -/
theorem isAreaClose_iff {N : IntPoint → IntPoint → Prop} {n : Nat} {im out : Img α} :
    IsAreaClose N n im out ↔ IsAreaOpen (α := αᵒᵈ) N n im out :=
  ⟨fun h => ⟨h.dims, h.val⟩, fun h => ⟨h.dims, h.val⟩⟩

variable {N : IntPoint → IntPoint → Prop} {n : Nat}

/-- **C94**, the specification determines the result. -/
theorem C94_unique {im o1 o2 : Img α} (h1 : IsAreaClose N n im o1) (h2 : IsAreaClose N n im o2) :
    o1.dims = o2.dims ∧ ∀ p, o1.at? p = o2.at? p :=
  C51_unique (α := αᵒᵈ) ((isAreaClose_iff (α := α)).mp h1) ((isAreaClose_iff (α := α)).mp h2)

/-- **C94**, the area closing is extensive, increasing and idempotent. -/
theorem C94_closing (hN : ∀ p q, N p q → N q p) {im im' o o' : Img α} (h : IsAreaClose N n im o)
    (h' : IsAreaClose N n im' o') :
    (∀ p a b, im.at? p = some a → o.at? p = some b → a ≤ b) ∧
    (im'.dims = im.dims → (∀ p a a', im.at? p = some a → im'.at? p = some a' → a ≤ a') →
      ∀ p b b', o.at? p = some b → o'.at? p = some b' → b ≤ b') ∧
    IsAreaClose N n o o :=
  ⟨fun p a b ha hb => C51_antiextensive (α := αᵒᵈ) ((isAreaClose_iff (α := α)).mp h) p a b ha hb,
    fun hd hle p b b' hb hb' => C51_increasing (α := αᵒᵈ) (im := im') (im' := im) hd.symm
      (fun p a a' ha ha' => hle p a' a ha' ha) ((isAreaClose_iff (α := α)).mp h') ((isAreaClose_iff (α := α)).mp h) p b' b hb' hb,
    (isAreaClose_iff (α := α)).mpr (C51_idempotent (α := αᵒᵈ) hN ((isAreaClose_iff (α := α)).mp h))⟩

end

variable {t u : PT}

theorem mapInv' (hs : t.signed = false ∨ t.bits ≤ 16) (im : Img (Px t)) :
    ∃ r, Img.mapK kInv im = some r ∧ r.dims = im.dims ∧ ∀ p a, im.at? p = some a → r.at? p = some (Px.compl a) := by
  obtain ⟨r, hr⟩ := Img.mapK_total kInv im (fun p u _ => by rw [kInv_eq hs]; rfl)
  obtain ⟨h1, h2⟩ := Img.mapK_some kInv im r hr
  refine ⟨r, hr, h1, fun p a ha => ?_⟩
  obtain ⟨v, e, hv⟩ := h2 p a ha
  rw [kInv_eq hs] at e
  cases e
  exact hv

theorem isAreaClose_compl {N : IntPoint → IntPoint → Prop} {n : Nat} {im tmp o out : Img (Px t)}
    (hd : tmp.dims = im.dims) (ht : ∀ p a, im.at? p = some a → tmp.at? p = some (Px.compl a))
    (ho : IsAreaOpen N n tmp o) (hd' : out.dims = o.dims)
    (ht' : ∀ p a, o.at? p = some a → out.at? p = some (Px.compl a)) : IsAreaClose N n im out := by
  refine ⟨hd'.trans (ho.dims.trans hd), fun p a ha => ?_⟩
  obtain ⟨b, hb, h⟩ := ho.val p _ (ht p a ha)
  refine ⟨_, ht' p b hb, ?_⟩
  rcases h with ⟨h1, h2, h3⟩ | ⟨h1, ⟨q, hq, e⟩, h3⟩
  · refine .inl ⟨?_, ?_, fun v hv hav => ?_⟩
    · rw [← compl_le, Px.compl_compl]; exact h1
    · rw [← lower_compl hd ht, Px.compl_compl]; exact h2
    · rw [← lower_compl hd ht]
      exact h3 _ (by rw [← compl_lt, Px.compl_compl]; exact hv) (compl_le.mpr hav)
  · rw [wholeSet_dims hd] at *
    refine .inr ⟨h1, ⟨q, hq, at_compl hd ht e⟩, fun q hq c hc => ?_⟩
    rw [← compl_le, Px.compl_compl]
    exact h3 q hq _ (ht q c hc)

/-- **C94**, partial: for every symmetric element of a square grid and every size at least 1, `areaClosing` computes the
area closing, also in place. Missing: hexagonal elements and size 0 as for C51, `INT32` (`C94_int32_ub`). -/
theorem C94_area_partial (hs : t.signed = false ∨ t.bits ≤ 16) (auto : Bool) (se : StrElt) (n : Nat) (im : Img (Px t))
    (dout : Dims) (hok : AcceptsD auto im.dims dout) (ho : se.odd = false)
    (hN : ∀ p q, seRel se p q → seRel se q p) (hn : 1 ≤ n) :
    ∃ out, areaClosing auto se n im dout = some (.ok out) ∧ IsAreaClose (seRel se) n im out := by
  obtain ⟨tmp, e1, d1, v1⟩ := mapInv' hs im
  obtain ⟨o, e2, h2⟩ := C51_unionfind_partial auto se n tmp im.dims ⟨d1 ▸ hok.1, hok.1, .inl d1.symm⟩ ho hN hn
  obtain ⟨out, e3, d3, v3⟩ := mapInv' hs o
  refine ⟨out, ?_, isAreaClose_compl d1 v1 h2 d3 v3⟩
  unfold areaClosing
  rw [checkDims_ok hok]
  simp only [e1, e2, e3, Option.bind_some, Option.map_some]

theorem above_compl {im tmp : Img (Px t)} (hd : tmp.dims = im.dims)
    (ht : ∀ p a, im.at? p = some a → tmp.at? p = some (Px.compl a)) (v : Px t) :
    Above tmp (Px.compl v).val = Below im v.val := by
  funext p
  apply propext
  constructor
  · rintro ⟨a, ha, h⟩
    refine ⟨_, at_compl hd ht ha, ?_⟩
    have h : Px.compl v ≤ a := Px.le_iff.mpr h
    rw [← Px.compl_compl a, compl_le] at h
    exact Px.le_iff.mp h
  · rintro ⟨a, ha, h⟩
    exact ⟨_, ht p a ha, Px.le_iff.mp (compl_le.mpr (Px.le_iff.mpr h))⟩

/-- **C94**, partial: `geodesicPathClosing` with the diameter and the same type for the input and the output, when the
number of grey levels is a value of the pixel type and the length is positive: the value at a pixel is the smallest level
of the image, at least the value of the input, that is the greatest level of the image or for which the component around
the pixel of the pixels at or below it has at least the length `len`. In place also. Missing: other types
(`C94_types_bug`), the other measures, more levels (`C91_levels_bug`). -/
theorem C94_path_partial (hs : t.signed = false ∨ t.bits ≤ 16) {root : ℚ → ℚ} {r R : ℚ} (hr : RootLike root) {sx sy sz : ℚ}
    (hx : 0 < sx) (hy : 0 < sy) (hz : 0 < sz) (hR : StepsWithin root sy sz sx r R) (auto : Bool)
    {len : ℚ} (hlen : 0 < len) (im : Img (Px t)) (dout : Dims) (hacc : im.dims.count ≠ 0 ∧ (dout = im.dims ∨ auto = true))
    (hlv : ∀ l : List (Px t), l.Nodup → (∀ v ∈ l, ∃ p, im.at? p = some v) → (l.length : Int) ≤ t.hi) :
    ∃ out : Img (Px t), geodesicPathClosing root auto len 0 sx sy sz im dout = some (.ok out) ∧ out.dims = im.dims ∧
      ∃ L : Px t → IntPoint → ℚ,
        (∀ v p, Below im v.val p → IsLength root sx sy sz sy sz sx r R (SetPath Touch26 (Below im v.val) p) (L v p)) ∧
        (∀ v p q, SetPath Touch26 (Below im v.val) p q → L v p = L v q) ∧
        ∀ p a, im.at? p = some a → ∃ v, out.at? p = some v ∧
          IsLeast {v | (∃ q, im.at? q = some v) ∧ a ≤ v ∧ ((∀ q b, im.at? q = some b → b ≤ v) ∨ len ≤ L v p)} v := by
  obtain ⟨tmp, e1, d1, v1⟩ := mapInv' hs im
  obtain ⟨o, e2, d2, L, h1, h2, h3⟩ := C91_path_opening_partial (u := t) hr hx hy hz hR auto hlen tmp im.dims
    ⟨d1 ▸ hacc.1, .inl d1.symm⟩ (fun l hl hv => by
      have := hlv (l.map Px.compl) (hl.map (fun a b h => by
        have := congrArg Px.compl h
        rwa [Px.compl_compl, Px.compl_compl] at this)) (fun v hv' => by
          obtain ⟨w, hw, rfl⟩ := List.mem_map.mp hv'
          obtain ⟨p, hp⟩ := hv w hw
          exact ⟨p, at_compl d1 v1 hp⟩)
      rwa [List.length_map] at this)
  obtain ⟨out, e3, d3, v3⟩ := mapInv' hs o
  refine ⟨out, ?_, d3.trans (d2.trans d1), fun v p => L (Px.compl v) p, fun v p hp => ?_, fun v p q hpq => ?_,
    fun p a ha => ?_⟩
  · unfold geodesicPathClosing
    rw [if_neg (by norm_num), checkOneOut_ok hacc]
    simp only [e1, e2, e3, Option.bind_some, Option.map_some]
  · rw [← above_compl d1 v1] at hp ⊢
    exact h1 _ _ hp
  · rw [← above_compl d1 v1] at hpq
    exact h2 _ _ _ hpq
  · obtain ⟨v, hv, ⟨⟨q, hq⟩, k1, k2⟩, k3⟩ := h3 p _ (v1 p a ha)
    rw [t.wrap_val] at hv
    refine ⟨_, v3 p _ hv, ⟨⟨q, at_compl d1 v1 hq⟩, ?_, ?_⟩, ?_⟩
    · rw [← compl_le, Px.compl_compl]; exact k1
    · rcases k2 with k2 | k2
      · refine .inl fun q b hb => ?_
        rw [← compl_le, Px.compl_compl]
        exact k2 q _ (v1 q b hb)
      · refine .inr ?_
        simp only [Px.compl_compl]
        exact k2
    · rintro w ⟨⟨q, hq⟩, l1, l2⟩
      rw [← compl_le, Px.compl_compl]
      refine k3 ⟨⟨q, v1 q w hq⟩, compl_le.mpr l1, ?_⟩
      rcases l2 with l2 | l2
      · refine .inl fun q b hb => ?_
        rw [← Px.compl_compl b, compl_le]
        exact l2 q _ (at_compl d1 v1 hb)
      · exact .inr l2

/-- **C94**, errors. -/
theorem C94_errors (root : ℚ → ℚ) (auto : Bool) (se : StrElt) (n : Nat) (len sx sy sz : ℚ) (method : Int) (im : Img (Px t)) (dout : Dims) :
    (im.dims.count = 0 ∨ dout.count = 0 → areaClosing auto se n im dout = some (.error (-99))) ∧
    (im.dims.count ≠ 0 → dout.count ≠ 0 → dout ≠ im.dims → auto = false →
      areaClosing auto se n im dout = some (.error (-98))) ∧
    (method < 0 ∨ 3 < method →
      (geodesicPathClosing root auto len method sx sy sz im dout : Option (Except Int (Img (Px u)))) = some (.error (-100))) ∧
    (0 ≤ method → method ≤ 3 → im.dims.count = 0 →
      (geodesicPathClosing root auto len method sx sy sz im dout : Option (Except Int (Img (Px u)))) = some (.error (-99))) ∧
    (0 ≤ method → method ≤ 3 → im.dims.count ≠ 0 → dout ≠ im.dims → auto = false →
      (geodesicPathClosing root auto len method sx sy sz im dout : Option (Except Int (Img (Px u)))) = some (.error (-98))) := by
  refine ⟨fun h => ?_, fun h1 h2 h3 h4 => ?_, fun h => ?_, fun h1 h2 h3 => ?_, fun h1 h2 h3 h4 h5 => ?_⟩
  · have : checkDims auto im.dims dout = .error (-99) := by unfold checkDims; rw [if_pos h]; rfl
    unfold areaClosing; rw [this]
  · have : checkDims auto im.dims dout = .error (-98) := by
      unfold checkDims
      rw [if_neg (by tauto), if_neg h3, h4]
      rfl
    unfold areaClosing; rw [this]
  · unfold geodesicPathClosing; rw [if_pos h]
  · have : checkOneOut auto im.dims dout = .error (-99) := by unfold checkOneOut; rw [if_pos h3]; rfl
    unfold geodesicPathClosing; rw [if_neg (by omega), this]
  · have : checkOneOut auto im.dims dout = .error (-98) := by
      unfold checkOneOut
      rw [if_neg h3, if_neg h4, h5]
      rfl
    unfold geodesicPathClosing; rw [if_neg (by omega), this]

/-- On `INT32` images with a negative pixel the inversion is undefined behaviour. -/
theorem C94_int32_ub (auto : Bool) (se : StrElt) (n : Nat) (im : Img (Px INT32)) (dout : Dims)
    (hok : AcceptsD auto im.dims dout) (p : IntPoint) (v : Px INT32) (hp : im.at? p = some v) (hv : v.val < 0) :
    areaClosing auto se n im dout = none := by
  unfold areaClosing
  rw [checkDims_ok hok]
  have : Img.mapK kInv im = none := by
    cases h : Img.mapK kInv im with
    | none => rfl
    | some r =>
      obtain ⟨n, hn, _⟩ := (Img.mapK_some _ _ _ h).2 p v hp
      rw [C08_inv_int32_ub v hv] at hn
      cases hn
  simp only [this, Option.bind_none]

/-- **C94**, exception: an `UINT8` image closed into an `UINT16` image is inverted in two different types, so that the
values are larger by 65280. -/
theorem C94_types_bug :
    areaRow (geodesicPathClosing (u := UINT16) rootEx false 3 0 1 1 1 (im8 ⟨5, 1, 1⟩ [9, 5, 3, 1, 8]) ⟨5, 1, 1⟩) =
      some [65289, 65285, 65285, 65285, 65288] := by decide +kernel

/-- C94: a pit of one pixel is filled by the area closing of size 2. -/
example : AcceptsD true (lineImg [3, 1, 2, 2, 7, 3]).dims ⟨6, 1, 1⟩ ∧ (SquSE 1).odd = false ∧
    (∀ p q, seRel (SquSE 1) p q → seRel (SquSE 1) q p) ∧
    areaRow (areaClosing true (SquSE 1) 2 (lineImg [3, 1, 2, 2, 7, 3]) ⟨6, 1, 1⟩) = some [3, 2, 2, 2, 7, 7] :=
  ⟨⟨by decide, by decide, .inl rfl⟩, by decide, seRel_symm (by decide), by decide +kernel⟩

/-- C94: a valley of three pixels is filled to its length. -/
example : gmVals (geodesicPathClosing (u := UINT8) rootEx false 3 0 1 1 1 (im8 ⟨5, 1, 1⟩ [9, 5, 3, 1, 8]) ⟨5, 1, 1⟩) =
    some [9, 5, 5, 5, 8] := by decide +kernel

end Smil
