import Verif.PropsLabel
import Mathlib.Data.List.Nodup

/-!
# Lookup tables

Base/include/private/DImageArith.hpp:1933-2023.
-/

namespace Smil

section
variable {t1 t2 K V : PT}

/-- A `std::map`: its pairs, in key order. -/
abbrev LutMap (K V : PT) := List (Px K × Px V)

/-- `_map.find(k)`. -/
def lutFind (m : LutMap K V) (k : Px K) : Option (Px V) := (m.find? fun e => e.1 = k).map (·.2)

/-- `std::max_element(_map.begin(), _map.end(), map_comp_value_less())`: the first of the greatest
values, DImageArith.hpp:1958-1959. `none` for an empty map. -/
def lutMax : LutMap K V → Option (Px V)
  | [] => none
  | e :: m => some (m.foldl (fun b x => if b < x.2 then x.2 else b) e.2)

/-- The loop of the generic `applyLookup`, DImageArith.hpp:1968-1976. The pixel is converted to the
key type by `find`, the value to the output type by `T2(...)`. The loop writes the pixels of one
buffer from the pixels of the other, position by position. -/
def lutLoop (m : LutMap K V) (d : Px t2) (im : Img (Px t1)) : Img (Px t2) :=
  ⟨im.dims, fun i => match lutFind m (K.wrap (im.buf i).val) with
    | some v => t2.wrap v.val
    | none => d⟩

/-- `applyLookup<T1, mapT, T2>`, DImageArith.hpp:1949-1979 (`RES_ERR` is -100), with `mapT = map<K, V>`. The test of line
1960 compares numbers: whatever common type the two sides are converted to, the result is that of
the comparison of the integers, because the right side is a non-negative maximum. (An unsigned
conversion of a negative left side would need `T2` to be `UINT32`, whose maximum is reached by no
`V` of at most 32 bits.) -/
def applyLookup (auto : Bool) (m : LutMap K V) (d : Px t2) (im : Img (Px t1)) (dout : Dims) :
    Except Int (Img (Px t2)) :=
  match lutMax m with
  | none => .error (-100)
  | some mx =>
    match checkDims auto im.dims dout with
    | .error c => .error c
    | .ok _ => if mx.val ≤ t2.hi then .ok (lutLoop m d im) else .error (-100)

/-- The table of the `UINT8`/`UINT16` specialisation, DImageArith.hpp:2003-2014. `raw` is what
`createLine` leaves in the array; the filling loop stops before the maximum of the type. -/
def lutTable (raw : Nat → Px t2) (m : LutMap t1 t2) (d : Px t2) : Nat → Px t2 :=
  m.foldl (fun a e => Function.update a e.1.val.toNat e.2) (fillLine t1.hi.toNat d raw)

/-- `applyLookup` for `T1 = UINT8` or `UINT16` and a `map<T1, T2>`, DImageArith.hpp:1993-2023. -/
def applyLookupTab (auto : Bool) (raw : Nat → Px t2) (m : LutMap t1 t2) (d : Px t2)
    (im : Img (Px t1)) (dout : Dims) : Except Int (Img (Px t2)) :=
  if m = [] then .error (-100)
  else
    match checkDims auto im.dims dout with
    | .error c => .error c
    | .ok _ => .ok ⟨im.dims, fun i => lutTable raw m d (im.buf i).val.toNat⟩

/-- The overload chosen for a `map<T1, T2>` (the `ENABLE_IF` of lines 1985 and 1995). -/
def applyLookupMap (auto : Bool) (raw : Nat → Px t2) (m : LutMap t1 t2) (d : Px t2)
    (im : Img (Px t1)) (dout : Dims) : Except Int (Img (Px t2)) :=
  if t1 = UINT8 ∨ t1 = UINT16 then applyLookupTab auto raw m d im dout
  else applyLookup auto m d im dout

/-! ### Lemmas -/

theorem lutFind_some (m : LutMap K V) (hn : (m.map Prod.fst).Nodup) (k : Px K) (v : Px V) :
    lutFind m k = some v ↔ (k, v) ∈ m := by
  induction m with
  | nil => simp [lutFind]
  | cons e m ih =>
    obtain ⟨a, b⟩ := e
    have hn' := List.nodup_cons.mp hn
    by_cases h : a = k
    · subst h
      have : lutFind ((a, b) :: m) a = some b := by simp [lutFind]
      rw [this]
      constructor
      · intro h; cases h; simp
      · intro h
        rcases List.mem_cons.mp h with h | h
        · cases h; rfl
        · exact absurd (List.mem_map_of_mem (f := Prod.fst) h) hn'.1
    · have : lutFind ((a, b) :: m) k = lutFind m k := by simp [lutFind, h]
      rw [this, ih hn'.2]
      simp [Ne.symm h]

theorem lutFind_none (m : LutMap K V) (k : Px K) :
    lutFind m k = none ↔ ∀ v, (k, v) ∉ m := by
  simp only [lutFind, Option.map_eq_none_iff, List.find?_eq_none]
  constructor
  · intro h v hv; simpa using h _ hv
  · rintro h ⟨a, b⟩ he hk
    simp only [decide_eq_true_eq] at hk
    subst hk; exact h _ he

theorem lutMax_fold (m : LutMap K V) (b : Px V) :
    b ≤ m.foldl (fun b x => if b < x.2 then x.2 else b) b ∧
    (∀ e ∈ m, e.2 ≤ m.foldl (fun b x => if b < x.2 then x.2 else b) b) ∧
    (m.foldl (fun b x => if b < x.2 then x.2 else b) b = b ∨
      ∃ e ∈ m, m.foldl (fun b x => if b < x.2 then x.2 else b) b = e.2) := by
  induction m generalizing b with
  | nil => simp
  | cons e m ih =>
    obtain ⟨h1, h2, h3⟩ := ih (if b < e.2 then e.2 else b)
    simp only [List.foldl_cons]
    refine ⟨le_trans ?_ h1, ?_, ?_⟩
    · split
      · exact le_of_lt ‹_›
      · exact le_rfl
    · intro x hx
      rcases List.mem_cons.mp hx with hx | hx
      · subst hx
        refine le_trans ?_ h1
        split
        · exact le_rfl
        · exact not_lt.mp ‹_›
      · exact h2 x hx
    · rcases h3 with h3 | ⟨x, hx, h3⟩
      · split at h3
        · rename_i hb
          right; exact ⟨e, by simp, by simp only [hb, if_true]; exact h3⟩
        · rename_i hb
          left; simp only [hb, if_false]; exact h3
      · right; exact ⟨x, by simp [hx], h3⟩

/-- The value found by `max_element` is one of the values and bounds the others. -/
theorem lutMax_some (m : LutMap K V) (hm : m ≠ []) :
    ∃ mx, lutMax m = some mx ∧ (∃ e ∈ m, e.2 = mx) ∧ ∀ e ∈ m, e.2 ≤ mx := by
  cases m with
  | nil => exact absurd rfl hm
  | cons e m =>
    refine ⟨_, rfl, ?_, ?_⟩
    · rcases (lutMax_fold m e.2).2.2 with h | ⟨x, hx, h⟩
      · exact ⟨e, by simp, h.symm⟩
      · exact ⟨x, by simp [hx], h.symm⟩
    · intro x hx
      rcases List.mem_cons.mp hx with hx | hx
      · subst hx; exact (lutMax_fold m _).1
      · exact (lutMax_fold m _).2.1 x hx

theorem lutTable_other (m : LutMap t1 t2) (a : Nat → Px t2) (n : Nat)
    (h : ∀ e ∈ m, e.1.val.toNat ≠ n) :
    m.foldl (fun a e => Function.update a e.1.val.toNat e.2) a n = a n := by
  induction m generalizing a with
  | nil => rfl
  | cons e m ih =>
    rw [List.foldl_cons, ih _ (fun x hx => h x (by simp [hx]))]
    exact Function.update_of_ne (h e (by simp)).symm _ _

theorem lutTable_mem (hs : t1.signed = false) (m : LutMap t1 t2) (hn : (m.map Prod.fst).Nodup)
    (a : Nat → Px t2) (k : Px t1) (v : Px t2) (h : (k, v) ∈ m) :
    m.foldl (fun a e => Function.update a e.1.val.toNat e.2) a k.val.toNat = v := by
  have pos : ∀ x : Px t1, 0 ≤ x.val := fun x => by
    have := x.lo_le; rw [lo_unsigned hs] at this; exact this
  induction m generalizing a with
  | nil => simp at h
  | cons e m ih =>
    have hn' := List.nodup_cons.mp hn
    rw [List.foldl_cons]
    rcases List.mem_cons.mp h with h | h
    · subst h
      rw [lutTable_other]
      · simp
      · intro x hx hc
        have : x.1 = k := Px.ext (by have := pos x.1; have := pos k; omega)
        exact hn'.1 (List.mem_map.mpr ⟨x, hx, this⟩)
    · exact ih hn'.2 _ h

end

end Smil
