import Verif.Lookup

/-!
# C12: lookup tables
-/

namespace Smil

section
variable {t1 t2 K V : PT}

/-- The pairs form a `std::map`: no key twice. -/
def LutMap.Ok (m : LutMap K V) : Prop := (m.map Prod.fst).Nodup

/-- The output asked for by the documentation: a pixel whose value is a key gets the value of the
key, every other pixel gets the default. Keys and values are compared as numbers. -/
def IsLookup (m : LutMap K V) (d : Px t2) (im : Img (Px t1)) (out : Img (Px t2)) : Prop :=
  out.dims = im.dims ∧ ∀ p a, im.at? p = some a →
    ∃ b, out.at? p = some b ∧
      (∀ e ∈ m, e.1.val = a.val → b.val = e.2.val) ∧ ((∀ e ∈ m, e.1.val ≠ a.val) → b = d)

theorem isLookup_of_buf (m : LutMap K V) (d : Px t2) (im : Img (Px t1)) (f : Nat → Px t2)
    (h : ∀ i, i < im.dims.count → (∀ e ∈ m, e.1.val = (im.buf i).val → (f i).val = e.2.val) ∧
      ((∀ e ∈ m, e.1.val ≠ (im.buf i).val) → f i = d)) :
    IsLookup m d im ⟨im.dims, f⟩ := by
  refine ⟨rfl, fun p a ha => ?_⟩
  have hp := im.at?_eq_some_in p a ha
  obtain ⟨i, hi, hb⟩ : ∃ i, i < im.dims.count ∧ ∀ (β : Type) (g : Nat → β),
      (⟨im.dims, g⟩ : Img β).at? p = some (g i) := by
    refine ⟨offOf im.dims p, offOf_lt hp, fun β g => ?_⟩
    rw [Img.at?_some (⟨im.dims, g⟩ : Img β) p hp]
    rfl
  have ha' : a = im.buf i := by
    have := hb _ im.buf
    rw [show (⟨im.dims, im.buf⟩ : Img (Px t1)) = im from rfl, ha] at this
    exact Option.some.inj this
  subst ha'
  exact ⟨f i, hb _ f, h i hi⟩

/-- **C12**, generic table. If the pixel type's values are values of the key type (`hk`), a non-empty
table whose values are not below the minimum of the output type is either refused, exactly when a
value exceeds the maximum, or applied to every pixel. Missing for the full claim: values below
the minimum should be refused (see `C12_negative_bug`); a narrower key type should not alias
(see `C12_narrow_key_bug`). -/
theorem C12_generic_partial (auto : Bool) (m : LutMap K V) (hm : m ≠ []) (hn : m.Ok) (d : Px t2)
    (im : Img (Px t1)) (dout : Dims) (ha : AcceptsD auto im.dims dout)
    (hk : ∀ p a, im.at? p = some a → K.lo ≤ a.val ∧ a.val ≤ K.hi)
    (hv : ∀ e ∈ m, t2.lo ≤ e.2.val) :
    ((∀ e ∈ m, e.2.val ≤ t2.hi) →
      ∃ out, applyLookup auto m d im dout = .ok out ∧ IsLookup m d im out) ∧
    ((∃ e ∈ m, t2.hi < e.2.val) → applyLookup auto m d im dout = .error (-100)) := by
  obtain ⟨mx, h1, ⟨e0, he0, h2⟩, h3⟩ := lutMax_some m hm
  constructor
  · intro hhi
    refine ⟨lutLoop m d im, ?_, ?_⟩
    · unfold applyLookup
      rw [h1]
      simp only [checkDims_ok ha]
      rw [if_pos (h2 ▸ hhi e0 he0)]
    · refine isLookup_of_buf m d im _ fun i hi => ?_
      obtain ⟨hk1, hk2⟩ := hk _ _ (im.buf_at? i hi).choose_spec.1
      have hw : (K.wrap (im.buf i).val).val = (im.buf i).val := K.wrap_of_mem hk1 hk2
      constructor
      · intro e he hev
        have hek : (K.wrap (im.buf i).val, e.2) ∈ m := by
          have : e.1 = K.wrap (im.buf i).val := Px.ext (by rw [hw, hev])
          rw [← this]; exact he
        simp only [(lutFind_some m hn _ _).mpr hek]
        exact t2.wrap_of_mem (hv e he) (hhi e he)
      · intro hno
        have : lutFind m (K.wrap (im.buf i).val) = none := by
          rw [lutFind_none]
          intro v hv'
          exact hno _ hv' hw
        simp only [this]
  · rintro ⟨e, he, hlt⟩
    unfold applyLookup
    rw [h1]
    simp only [checkDims_ok ha]
    have := h3 e he
    rw [Px.le_iff] at this
    rw [if_neg (by omega)]

/-- **C12**, table version for `UINT8` and `UINT16`: for a non-empty table the result is the lookup,
whatever the scratch array contained, provided the maximum of the type is a key or is not the value
of a pixel. Missing: that proviso (`C12_max_bug`). -/
theorem C12_table_partial (auto : Bool) (raw : Nat → Px t2) (m : LutMap t1 t2) (hm : m ≠ [])
    (hn : m.Ok) (d : Px t2) (im : Img (Px t1)) (dout : Dims) (ha : AcceptsD auto im.dims dout)
    (hs : t1 = UINT8 ∨ t1 = UINT16)
    (htop : (∃ e ∈ m, e.1.val = t1.hi) ∨ ∀ p a, im.at? p = some a → a.val ≠ t1.hi) :
    ∃ out, applyLookupMap auto raw m d im dout = .ok out ∧ IsLookup m d im out := by
  have hsg : t1.signed = false := by rcases hs with h | h <;> rw [h] <;> rfl
  refine ⟨⟨im.dims, fun i => lutTable raw m d (im.buf i).val.toNat⟩, ?_, ?_⟩
  · unfold applyLookupMap applyLookupTab
    rw [if_pos hs, if_neg hm, checkDims_ok ha]
  · refine isLookup_of_buf m d im _ fun i hi => ⟨?_, ?_⟩
    · intro e he hev
      unfold lutTable
      rw [← hev, lutTable_mem hsg m hn _ e.1 e.2 he]
    · intro hno
      have pos : ∀ x : Px t1, 0 ≤ x.val := fun x => by
        have := x.lo_le; rw [lo_unsigned hsg] at this; exact this
      unfold lutTable
      rw [lutTable_other, fillLine_apply, if_pos]
      · have h1 := (im.buf i).le_hi
        have h2 : (im.buf i).val ≠ t1.hi := by
          rcases htop with ⟨e, he, h⟩ | h
          · intro hc; exact hno e he (by rw [h, hc])
          · exact h _ _ (im.buf_at? i hi).choose_spec.1
        have := pos (im.buf i)
        omega
      · intro e he hc
        have := pos e.1
        have := pos (im.buf i)
        exact hno e he (by omega)

/-- **C12**, `map<T1, T2>` for the other pixel types: the result is the lookup, with no proviso, since
the values of the table have the output type. -/
theorem C12_map (auto : Bool) (raw : Nat → Px t2) (m : LutMap t1 t2) (hm : m ≠ [])
    (hn : m.Ok) (d : Px t2) (im : Img (Px t1)) (dout : Dims) (ha : AcceptsD auto im.dims dout)
    (h8 : t1 ≠ UINT8) (h16 : t1 ≠ UINT16) :
    ∃ out, applyLookupMap auto raw m d im dout = .ok out ∧ IsLookup m d im out := by
  unfold applyLookupMap
  rw [if_neg (by tauto)]
  exact (C12_generic_partial auto m hm hn d im dout ha (fun _ a _ => ⟨a.lo_le, a.le_hi⟩)
    (fun e _ => e.2.lo_le)).1 fun e _ => e.2.le_hi

/-- **C12**, refusals: an empty table comes first, then the sizes; nothing is written. -/
theorem C12_refuse (auto : Bool) (raw : Nat → Px t2) (d : Px t2) (im : Img (Px t1)) (dout : Dims) :
    applyLookup auto ([] : LutMap K V) d im dout = .error (-100) ∧
    applyLookupMap auto raw [] d im dout = .error (-100) ∧
    ∀ (m : LutMap K V) (m' : LutMap t1 t2), m ≠ [] → m' ≠ [] →
      ((im.dims.count = 0 ∨ dout.count = 0) →
        applyLookup auto m d im dout = .error (-99) ∧
        applyLookupMap auto raw m' d im dout = .error (-99)) ∧
      (im.dims.count ≠ 0 → dout.count ≠ 0 → dout ≠ im.dims → auto = false →
        applyLookup auto m d im dout = .error (-98) ∧
        applyLookupMap auto raw m' d im dout = .error (-98)) := by
  refine ⟨rfl, ?_, ?_⟩
  · unfold applyLookupMap applyLookupTab
    split <;> rfl
  · intro m m' hm hm'
    have key : ∀ c, checkDims auto im.dims dout = .error c →
        applyLookup auto m d im dout = .error c ∧
        applyLookupMap auto raw m' d im dout = .error c := by
      intro c hc
      obtain ⟨mx, h1, -⟩ := lutMax_some m hm
      obtain ⟨mx', h1', -⟩ := lutMax_some m' hm'
      refine ⟨?_, ?_⟩
      · unfold applyLookup; rw [h1]; simp only [hc]
      · unfold applyLookupMap applyLookupTab applyLookup
        rw [if_neg hm', h1']; simp only [hc, ite_self]
    constructor
    · intro h
      exact key _ (by unfold checkDims; rw [if_pos h]; rfl)
    · intro h1 h2 h3 h4
      exact key _ (by unfold checkDims; rw [if_neg (by tauto), if_neg h3, h4]; rfl)

end

/-! ### Hypotheses are met -/

/-- A pixel value of the type, for the examples. -/
def pxOf (t : PT) (v : Int) : Px t := t.wrap v

example : AcceptsD false (im8 ⟨3, 1, 1⟩ [1, 2, 255]).dims ⟨3, 1, 1⟩ ∧
    LutMap.Ok [(pxOf UINT8 1, pxOf INT16 300), (pxOf UINT8 255, pxOf INT16 7)] ∧
    (∀ e ∈ [(pxOf UINT8 1, pxOf INT16 300), (pxOf UINT8 255, pxOf INT16 7)],
      UINT16.lo ≤ e.2.val ∧ e.2.val ≤ UINT16.hi) ∧
    (match applyLookup (t2 := UINT16) false
        [(pxOf UINT8 1, pxOf INT16 300), (pxOf UINT8 255, pxOf INT16 7)] (pxOf UINT16 9)
        (im8 ⟨3, 1, 1⟩ [1, 2, 255]) ⟨3, 1, 1⟩ with
      | .ok o => ((List.range 3).map fun i => (o.buf i).val) = [300, 9, 7]
      | .error _ => False) := by
  refine ⟨by unfold AcceptsD; decide, by unfold LutMap.Ok; decide, by decide, ?_⟩
  change [_, _, _] = _
  decide

example : (match applyLookupMap (t2 := UINT16) false (fun _ => pxOf UINT16 77)
        [(pxOf UINT8 1, pxOf UINT16 300), (pxOf UINT8 255, pxOf UINT16 7)] (pxOf UINT16 9)
        (im8 ⟨3, 1, 1⟩ [1, 2, 255]) ⟨3, 1, 1⟩ with
      | .ok o => decide (((List.range 3).map fun i => (o.buf i).val) = [300, 9, 7])
      | .error _ => false) = true := by
  decide +kernel

/-! ### Where the code departs from the claim -/

/-- **C12**, table version: a pixel of value 255 that is not a key reads the uninitialised last cell
of the table instead of the default. -/
theorem C12_max_bug : ∃ (raw : Nat → Px UINT8) (m : LutMap UINT8 UINT8) (d : Px UINT8)
    (im : Img (Px UINT8)), m ≠ [] ∧ m.Ok ∧ AcceptsD false im.dims im.dims ∧
    ∃ out, applyLookupMap false raw m d im im.dims = .ok out ∧ ¬ IsLookup m d im out := by
  refine ⟨fun _ => UINT8.wrap 77, [(UINT8.wrap 1, UINT8.wrap 2)], UINT8.wrap 0,
    im8 ⟨1, 1, 1⟩ [255], by simp, by unfold LutMap.Ok; simp, by unfold AcceptsD; decide, _, rfl, ?_⟩
  rintro ⟨-, h⟩
  obtain ⟨b, hb, -, h2⟩ := h ⟨0, 0, 0⟩ (UINT8.wrap 255) (by decide)
  have h3 := h2 (by decide)
  subst h3
  revert hb
  decide +kernel

/-- **C12**, generic version: only the upper bound of the values is tested; -1 is accepted for an
unsigned output and written as 255. -/
theorem C12_negative_bug : ∃ (m : LutMap UINT8 INT16) (d : Px UINT8) (im : Img (Px UINT8)),
    m ≠ [] ∧ m.Ok ∧ AcceptsD false im.dims im.dims ∧ (∃ e ∈ m, e.2.val < UINT8.lo) ∧
    ∃ out, applyLookup false m d im im.dims = .ok out ∧
      im.at? ⟨0, 0, 0⟩ = some (UINT8.wrap 1) ∧ out.at? ⟨0, 0, 0⟩ = some (UINT8.wrap 255) ∧
      ¬ IsLookup m d im out := by
  refine ⟨[(UINT8.wrap 1, INT16.wrap (-1))], UINT8.wrap 0, im8 ⟨1, 1, 1⟩ [1], by simp,
    by unfold LutMap.Ok; simp, by unfold AcceptsD; decide, by decide, _, rfl, by decide, by decide, ?_⟩
  rintro ⟨-, h⟩
  obtain ⟨b, hb, h1, -⟩ := h ⟨0, 0, 0⟩ (UINT8.wrap 1) (by decide)
  have h3 := h1 (UINT8.wrap 1, INT16.wrap (-1)) (by simp) rfl
  have : 0 ≤ b.val := b.lo_le
  have h4 : (INT16.wrap (-1)).val = -1 := by decide
  simp only [h4] at h3
  omega

/-- **C12**, generic version: with a key type narrower than the pixel type, `find` converts the pixel
and 257 is looked up as 1. -/
theorem C12_narrow_key_bug : ∃ (m : LutMap UINT8 UINT8) (d : Px UINT8) (im : Img (Px UINT16)),
    m ≠ [] ∧ m.Ok ∧ AcceptsD false im.dims im.dims ∧ (∀ e ∈ m, e.2.val ≤ UINT8.hi) ∧
    ∃ out, applyLookup false m d im im.dims = .ok out ∧ ¬ IsLookup m d im out := by
  refine ⟨[(UINT8.wrap 1, UINT8.wrap 5)], UINT8.wrap 0, ⟨⟨1, 1, 1⟩, fun _ => UINT16.wrap 257⟩,
    by simp, by unfold LutMap.Ok; simp, by unfold AcceptsD; decide, by decide, _, rfl, ?_⟩
  rintro ⟨-, h⟩
  obtain ⟨b, hb, -, h2⟩ := h ⟨0, 0, 0⟩ (UINT16.wrap 257) (by decide)
  have h3 := h2 (by decide)
  subst h3
  revert hb
  decide

end Smil
