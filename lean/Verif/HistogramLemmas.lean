import Verif.Histogram
import Verif.MeasureLemmas
import Verif.ArithLemmas

/-!
# Lemmas on histograms
-/

namespace Smil

section
variable {t : PT}

theorem sizeT_of {v : Int} (h0 : 0 ≤ v) (h1 : v < 2 ^ 64) : sizeT v = v.toNat := by
  unfold sizeT
  rw [Int.emod_eq_of_lt h0 h1]

/-- The values kept. -/
def kept (im : Img (Px t)) (keep : Nat → Bool) : List (Px t) :=
  ((List.range im.dims.count).filter keep).map im.buf

/-- The counting loop counts, provided that every index can be computed and is in bounds. -/
theorem histLoop_spec (n : Nat) (base : Px t) (im : Img (Px t)) (keep : Nat → Bool)
    (hn : (n : Int) < 2 ^ 64)
    (h : ∀ i, i < im.dims.count → keep i = true → t.cpp ((im.buf i).val - base.val) =
      some ((im.buf i).val - base.val) ∧ 0 ≤ (im.buf i).val - base.val ∧
      (im.buf i).val - base.val < n) :
    ∃ h, histLoop n base im keep = some h ∧ ∀ j, h j = (kept im keep).countP
      (fun v => decide (v.val = base.val + j)) := by
  unfold histLoop kept
  have key : ∀ m, m ≤ im.dims.count → ∃ h, (List.range m).foldlM
      (fun h i => if keep i then histIncr n base (im.buf i) h else some h) (fun _ => 0) = some h ∧
      ∀ j, h j = (((List.range m).filter keep).map im.buf).countP
        (fun v => decide (v.val = base.val + j)) := by
    intro m
    induction m with
    | zero => intro _; exact ⟨_, rfl, fun j => rfl⟩
    | succ m ih =>
      intro hm
      obtain ⟨g, hg, hj⟩ := ih (by omega)
      rw [List.range_succ, List.foldlM_append, hg, List.filter_append, List.map_append]
      simp only [Option.bind_eq_bind, Option.bind_some, List.foldlM_cons, List.foldlM_nil]
      by_cases hk : keep m = true
      · obtain ⟨h1, h2, h3⟩ := h m (by omega) hk
        have hs := sizeT_of h2 (lt_trans h3 hn)
        rw [if_pos hk]
        unfold histIncr
        rw [h1]
        simp only [Option.bind_eq_bind, Option.bind_some]
        rw [if_pos (by rw [hs]; omega)]
        refine ⟨_, rfl, fun j => ?_⟩
        have hf : [m].filter keep = [m] := by simp [hk]
        rw [hf, List.countP_append, ← hj, hs]
        by_cases hjm : j = ((im.buf m).val - base.val).toNat
        · have : (im.buf m).val = base.val + j := by omega
          simp [hjm]
          omega
        · have : ¬ (im.buf m).val = base.val + j := by omega
          simp [hjm, this]
      · have hk' : keep m = false := by simpa using hk
        rw [if_neg hk]
        refine ⟨g, rfl, fun j => ?_⟩
        have hf : [m].filter keep = [] := by simp [hk']
        rw [hf, hj]
        simp
  exact key _ le_rfl

/-! ### Insertion -/

theorem mem_mapIns (k : Px t) (n : Nat) (m : List (Px t × Nat)) (hs : m.Pairwise (fun a b => a.1 < b.1))
    (a : Px t) (q : Nat) : (a, q) ∈ mapIns k n m ↔
      (a, q) ∈ m ∨ (a = k ∧ q = n ∧ ∀ q', (k, q') ∉ m) := by
  induction m with
  | nil => simp [mapIns]
  | cons e m ih =>
    obtain ⟨b, r⟩ := e
    have hs' := List.pairwise_cons.mp hs
    simp only [mapIns]
    split
    · rename_i h1
      have : ∀ n', (k, n') ∉ ((b, r) :: m) := by
        intro n' hm
        rcases List.mem_cons.mp hm with hm | hm
        · rw [Prod.mk.injEq] at hm; exact h1.ne hm.1
        · exact absurd (hs'.1 _ hm) (not_lt.mpr h1.le)
      rw [List.mem_cons, Prod.mk.injEq]
      constructor
      · rintro (⟨h2, h3⟩ | h2)
        · right; exact ⟨h2, h3, this⟩
        · left; exact h2
      · rintro (h2 | ⟨h2, h3, -⟩)
        · right; exact h2
        · left; exact ⟨h2, h3⟩
    · split
      · rename_i h1 h2
        subst h2
        constructor
        · intro h; left; exact h
        · rintro (h | ⟨-, -, h⟩)
          · exact h
          · exact absurd (by simp) (h r)
      · rename_i h1 h2
        rw [List.mem_cons, ih hs'.2, List.mem_cons]
        constructor
        · rintro (h | h | ⟨h3, h4, h5⟩)
          · left; left; exact h
          · left; right; exact h
          · right
            refine ⟨h3, h4, fun q' hq => ?_⟩
            rcases List.mem_cons.mp hq with hq | hq
            · rw [Prod.mk.injEq] at hq; exact h2 hq.1
            · exact h5 q' hq
        · rintro ((h | h) | ⟨h3, h4, h5⟩)
          · left; exact h
          · right; left; exact h
          · right; right
            exact ⟨h3, h4, fun q' hq => h5 q' (List.mem_cons_of_mem _ hq)⟩

theorem sorted_mapIns (k : Px t) (n : Nat) (m : List (Px t × Nat))
    (hs : m.Pairwise (fun a b => a.1 < b.1)) : (mapIns k n m).Pairwise (fun a b => a.1 < b.1) := by
  induction m with
  | nil => simp [mapIns]
  | cons e m ih =>
    obtain ⟨b, r⟩ := e
    have hs' := List.pairwise_cons.mp hs
    simp only [mapIns]
    split
    · rename_i h1
      refine List.pairwise_cons.mpr ⟨?_, hs⟩
      intro c hc
      rcases List.mem_cons.mp hc with hc | hc
      · rw [hc]; exact h1
      · exact lt_trans h1 (hs'.1 c hc)
    · split
      · exact hs
      · rename_i h1 h2
        refine List.pairwise_cons.mpr ⟨?_, ih hs'.2⟩
        rintro ⟨c, q⟩ hc
        rcases (mem_mapIns k n m hs'.2 c q).mp hc with hc | ⟨rfl, -⟩
        · exact hs'.1 _ hc
        · exact lt_of_le_of_ne (not_lt.mp h1) (Ne.symm h2)

/-- The map of the function `f` on the keys satisfying `P`. -/
def IsTable (P : Px t → Prop) (f : Px t → Nat) (m : List (Px t × Nat)) : Prop :=
  m.Pairwise (fun a b => a.1 < b.1) ∧ ∀ v n, (v, n) ∈ m ↔ P v ∧ n = f v

theorem IsTable.ins {P : Px t → Prop} {f : Px t → Nat} {m : List (Px t × Nat)} (h : IsTable P f m)
    (k : Px t) (n : Nat) (hn : ¬ P k → n = f k) :
    IsTable (fun v => P v ∨ v = k) f (mapIns k n m) := by
  refine ⟨sorted_mapIns k n m h.1, fun v q => ?_⟩
  rw [mem_mapIns k n m h.1, h.2]
  constructor
  · rintro (⟨h1, h2⟩ | ⟨h1, h2, h3⟩)
    · exact ⟨Or.inl h1, h2⟩
    · refine ⟨Or.inr h1, ?_⟩
      rw [h1, h2]
      exact hn fun hp => h3 (f k) ((h.2 _ _).mpr ⟨hp, rfl⟩)
  · rintro ⟨h1 | h1, h2⟩
    · exact Or.inl ⟨h1, h2⟩
    · by_cases hp : P k
      · exact Or.inl ⟨by rw [h1]; exact hp, h2⟩
      · right
        refine ⟨h1, by rw [h2, h1]; exact (hn hp).symm, fun q' hq => hp ((h.2 _ _).mp hq).1⟩

theorem IsTable.congr {P Q : Px t → Prop} {f : Px t → Nat} {m : List (Px t × Nat)} (h : IsTable P f m)
    (hPQ : ∀ v, P v ↔ Q v) : IsTable Q f m :=
  ⟨h.1, fun v n => by rw [h.2, hPQ]⟩

theorem isTable_nil (f : Px t → Nat) : IsTable (fun _ => False) f [] := ⟨List.Pairwise.nil, by simp⟩

/-- A table whose keys include all the values of a list, with their numbers of occurrences, sums up to the
length of the list. -/
theorem sum_counts {α : Type} [DecidableEq α] (m : List (α × Nat)) (l : List α)
    (hn : (m.map Prod.fst).Nodup) (hm : ∀ e ∈ m, e.2 = l.count e.1)
    (hl : ∀ v ∈ l, v ∈ m.map Prod.fst) : (m.map Prod.snd).sum = l.length := by
  induction m generalizing l with
  | nil =>
    cases l with
    | nil => rfl
    | cons a l => have := hl a (by simp); simp at this
  | cons e m ih =>
    obtain ⟨k, n⟩ := e
    rw [List.map_cons, List.nodup_cons] at hn
    have h1 := hm (k, n) (by simp)
    simp only at h1
    have := ih (l.filter fun a => a ≠ k) hn.2 (by
      intro e he
      have hek : e.1 ≠ k := by
        intro hc
        exact hn.1 (hc ▸ List.mem_map.mpr ⟨e, he, rfl⟩)
      rw [List.count_filter (by simpa using hek)]
      exact hm e (List.mem_cons_of_mem _ he)) (by
      intro v hv
      rw [List.mem_filter] at hv
      have := hl v hv.1
      rw [List.map_cons, List.mem_cons] at this
      rcases this with h | h
      · simp [h] at hv
      · exact h)
    rw [List.map_cons, List.sum_cons, this, h1]
    clear ih this h1 hn hm hl
    induction l with
    | nil => rfl
    | cons a l ih2 =>
      by_cases ha : a = k
      · subst ha; simp at ih2 ⊢; omega
      · simp [ha] at ih2 ⊢; omega

/-! ### The loops over the values -/

/-- `i++` does what is expected below the maximum. -/
theorem incrT_of {i : Px t} (h : i < ⊤) : ∃ j : Px t, incrT i = some j ∧ j.val = i.val + 1 := by
  have h' := Px.lt_iff.mp h
  rw [Px.top_val] at h'
  have h1 := i.lo_le
  refine ⟨t.wrap (i.val + 1), ?_, t.wrap_of_mem (by omega) (by omega)⟩
  unfold incrT
  rw [cpp_of_mem (by omega) (by omega)]
  rfl

/-- At the maximum the value wraps around, except when the type is as wide as `int` and signed. -/
theorem incrT_top (hs : t.signed = false ∨ t.bits ≤ 16) : incrT (⊤ : Px t) = some ⊥ := by
  have hl := t.lo_le_hi
  have hw : t.wrap (t.hi + 1) = ⊥ := by
    apply Px.ext
    unfold PT.wrap
    simp only [Px.bot_val]
    rw [show t.hi + 1 - t.lo = t.card by unfold PT.card; ring, Int.emod_self]
    ring
  unfold incrT
  rw [Px.top_val]
  by_cases hb : t.bits ≤ 16
  · have := range_small hb
    rw [cpp_small hb (by omega) (by omega)]
    simp [hw]
  · rcases hs with hs | hs
    · rw [cpp_wide hb hs, Option.map_some, PT.wrap_val, hw]
    · exact absurd hs hb

theorem lowLoop_spec (f : Px t → Nat) (n : Nat) (i a : Px t) (h : List (Px t × Nat))
    (hn : a.val - i.val ≤ n) (hf : ∀ v, v < a → f v = 0) (hia : i ≤ a)
    (ht : IsTable (fun v => v < i) f h) :
    ∃ h', lowLoop n i a h = some h' ∧ IsTable (fun v => v < a) f h' := by
  induction n generalizing i h with
  | zero =>
    have : i = a := by
      apply Px.ext
      have := Px.le_iff.mp hia
      omega
    subst this
    exact ⟨h, rfl, ht⟩
  | succ n ih =>
    unfold lowLoop
    by_cases hlt : i < a
    · rw [if_pos hlt]
      obtain ⟨j, hj, hjv⟩ := incrT_of (lt_of_lt_of_le hlt le_top)
      rw [hj, Option.bind_some]
      apply ih
      · omega
      · rw [Px.le_iff, hjv]
        have := Px.lt_iff.mp hlt
        omega
      · refine (ht.ins i 0 fun _ => (hf i hlt).symm).congr fun v => ?_
        rw [Px.lt_iff, Px.lt_iff, hjv, Px.ext_iff']
        omega
    · rw [if_neg hlt]
      have : i = a := le_antisymm hia (not_lt.mp hlt)
      subst this
      exact ⟨h, rfl, ht⟩

theorem upLoop_spec (hs : t.signed = false ∨ t.bits ≤ 16) (f : Px t → Nat) (n : Nat) (i : Px t)
    (h : List (Px t × Nat)) (hn : t.hi - i.val + 1 ≤ n) (hi : i ≠ ⊥)
    (P : Px t → Prop) (hP : ∀ v, v < i → P v) (hf : ∀ v, ¬ P v → f v = 0)
    (ht : IsTable P f h) : ∃ h', upLoop n i h = some h' ∧ IsTable (fun _ => True) f h' := by
  induction n generalizing i h P with
  | zero =>
    have := i.le_hi
    omega
  | succ n ih =>
    unfold upLoop
    rw [if_pos ⟨le_top, hi⟩]
    have ht' := ht.ins i 0 fun hp => (hf i hp).symm
    by_cases htop : i < ⊤
    · obtain ⟨j, hj, hjv⟩ := incrT_of htop
      rw [hj, Option.bind_some]
      refine ih j _ (by omega) ?_ _ ?_ ?_ ht'
      · intro hc
        rw [hc, Px.bot_val] at hjv
        have := i.lo_le
        omega
      · intro v hv
        rw [Px.lt_iff, hjv] at hv
        by_cases hvi : v.val = i.val
        · right; exact Px.ext hvi
        · left; exact hP v (Px.lt_iff.mpr (by omega))
      · intro v hv
        exact hf v fun hp => hv (Or.inl hp)
    · have : i = ⊤ := not_lt_top_iff.mp htop
      subst this
      rw [incrT_top hs, Option.bind_some]
      refine ⟨mapIns ⊤ 0 h, ?_, ht'.congr fun v => ?_⟩
      · cases n with
        | zero => rfl
        | succ n => unfold upLoop; rw [if_neg (by simp)]
      · simp only [iff_true]
        by_cases hv : v = ⊤
        · right; exact hv
        · left; exact hP v (lt_top_iff_ne_top.mpr hv)

theorem midLoop_spec (f : Px t → Nat) (a b : Px t) (g : Nat → Nat) (P : Px t → Prop)
    (h : List (Px t × Nat)) (ht : IsTable P f h)
    (hg : ∀ v : Px t, a ≤ v → v ≤ b → g (v.val - a.val).toNat = f v) (n : Nat)
    (hn : (n : Int) ≤ b.val - a.val + 1) :
    IsTable (fun v => P v ∨ (a ≤ v ∧ v.val < a.val + n)) f
      ((List.range n).foldl (fun h (i : Nat) => mapIns (t.wrap ((i : Int) + a.val)) (g i) h) h) := by
  induction n with
  | zero =>
    refine ht.congr fun v => ?_
    simp only [Px.le_iff]
    constructor
    · intro h; exact Or.inl h
    · rintro (h | h)
      · exact h
      · exfalso
        omega
  | succ n ih =>
    rw [List.range_succ, List.foldl_append, List.foldl_cons, List.foldl_nil]
    have ha := a.lo_le
    have hb := b.le_hi
    have hw : (t.wrap ((n : Int) + a.val)).val = n + a.val := t.wrap_of_mem (by omega) (by omega)
    refine ((ih (by omega)).ins _ _ fun _ => ?_).congr fun v => ?_
    · rw [← hg _ (Px.le_iff.mpr (by omega)) (Px.le_iff.mpr (by omega)), hw]
      congr 1
      omega
    · rw [Px.ext_iff', hw, Px.le_iff]
      constructor
      · rintro ((h | h) | h)
        · exact Or.inl h
        · exact Or.inr ⟨h.1, by omega⟩
        · exact Or.inr ⟨by omega, by omega⟩
      · rintro (h | h)
        · exact Or.inl (Or.inl h)
        · by_cases hv : v.val = n + a.val
          · exact Or.inr hv
          · exact Or.inl (Or.inr ⟨h.1, by omega⟩)

end

end Smil
