import Verif.OtsuMulti
import Verif.PropsLookup
import Verif.HistogramLemmas

/-!
# Lemmas on the table of the labels
-/

namespace Smil

section
variable {t t2 : PT}

/-- What a table of labels holds: the values below `i`, each with label `f v`. -/
structure IsLbl (m : LutMap t t2) (P : Px t → Prop) (f : Px t → Nat) : Prop where
  sorted : m.Pairwise fun x y => x.1 < y.1
  mem : ∀ v w, (v, w) ∈ m ↔ P v ∧ w.val = f v

theorem px_succ_lt {i j v : Px t} (h : j.val = i.val + 1) : v < j ↔ v < i ∨ v = i := by
  rw [Px.lt_iff, Px.lt_iff, Px.ext_iff']
  omega

/-- One more key. -/
theorem IsLbl.snoc {m : LutMap t t2} {i j : Px t} {f : Px t → Nat} (h : IsLbl m (fun v => v < i) f) (hj : j.val = i.val + 1)
    {lbl : Px t2} (hl : lbl.val = f i) : IsLbl (m ++ [(i, lbl)]) (fun v => v < j) f := by
  refine ⟨?_, fun v w => ?_⟩
  · rw [List.pairwise_append]
    refine ⟨h.sorted, List.pairwise_singleton _ _, fun x hx y hy => ?_⟩
    rw [List.mem_singleton.mp hy]
    exact ((h.mem x.1 x.2).mp hx).1
  · rw [List.mem_append, h.mem, List.mem_singleton, Prod.mk.injEq, px_succ_lt hj]
    constructor
    · rintro (⟨h1, h2⟩ | ⟨h1, h2⟩)
      · exact ⟨Or.inl h1, h2⟩
      · exact ⟨Or.inr h1, by rw [h1, h2, hl]⟩
    · rintro ⟨h1 | h1, h2⟩
      · exact Or.inl ⟨h1, h2⟩
      · exact Or.inr ⟨h1, Px.ext (by rw [h2, h1, hl])⟩

theorem lutWhile_spec (stop : Px t) (lbl : Px t2) {f : Px t → Nat} :
    ∀ (n : Nat) (i : Px t) (m : LutMap t t2), stop.val - i.val ≤ n → IsLbl m (fun v => v < i) f → (∀ v, i ≤ v → v < stop → f v = lbl.val) →
    ∃ m', lutWhile stop lbl n i m = some (max i stop, m') ∧ IsLbl m' (fun v => v < max i stop) f := by
  intro n
  induction n with
  | zero =>
    intro i m hn h _
    have : stop ≤ i := Px.le_iff.mpr (by push_cast at hn; omega)
    rw [max_eq_left this]
    exact ⟨m, rfl, h⟩
  | succ n ih =>
    intro i m hn h hf
    rw [lutWhile]
    by_cases hlt : i < stop
    · rw [if_pos hlt]
      obtain ⟨j, hj, hjv⟩ := incrT_of (lt_of_lt_of_le hlt le_top)
      rw [hj, Option.bind_some]
      have hlt' := Px.lt_iff.mp hlt
      have hjs : j ≤ stop := Px.le_iff.mpr (by omega)
      obtain ⟨m', h1, h2⟩ := ih j (m ++ [(i, lbl)]) (by push_cast at hn; omega) (h.snoc hjv (hf i le_rfl hlt).symm)
        (fun v hv hvs => hf v (le_trans (Px.le_iff.mpr (by omega)) hv) hvs)
      rw [max_eq_right hjs] at h1 h2
      rw [max_eq_right hlt.le]
      exact ⟨m', h1, h2⟩
    · rw [if_neg hlt, max_eq_left (not_lt.mp hlt)]
      exact ⟨m, rfl, h⟩

theorem lutTail_spec (ht : t.signed = false ∨ t.bits ≤ 16) (lbl : Px t2) {f : Px t → Nat} :
    ∀ (n : Nat) (i : Px t) (m : LutMap t t2), ⊥ < i → t.hi - i.val < n → IsLbl m (fun v => v < i) f → (∀ v, i ≤ v → f v = lbl.val) →
    ∃ m', lutTail lbl n i m = some m' ∧ IsLbl m' (fun _ => True) f := by
  intro n
  induction n with
  | zero =>
    intro i m _ hn _ _
    have := i.le_hi
    push_cast at hn
    omega
  | succ n ih =>
    intro i m hi hn h hf
    rw [lutTail, if_pos ⟨le_top, hi⟩]
    have hih := i.le_hi
    by_cases htop : i = ⊤
    · subst htop
      rw [incrT_top ht, Option.bind_some]
      have hout : lutTail lbl n (⊥ : Px t) (m ++ [(⊤, lbl)]) = some (m ++ [(⊤, lbl)]) := by
        cases n with
        | zero => rfl
        | succ n => rw [lutTail, if_neg (fun h => lt_irrefl _ h.2)]
      rw [hout]
      refine ⟨_, rfl, ?_, fun v w => ?_⟩
      · rw [List.pairwise_append]
        refine ⟨h.sorted, List.pairwise_singleton _ _, fun x hx y hy => ?_⟩
        rw [List.mem_singleton.mp hy]
        exact ((h.mem x.1 x.2).mp hx).1
      · rw [List.mem_append, h.mem, List.mem_singleton, Prod.mk.injEq]
        have hft := hf ⊤ le_rfl
        constructor
        · rintro (⟨_, h2⟩ | ⟨h1, h2⟩)
          · exact ⟨trivial, h2⟩
          · exact ⟨trivial, by rw [h1, h2, hft]⟩
        · rintro ⟨-, h2⟩
          by_cases hv : v = ⊤
          · exact Or.inr ⟨hv, Px.ext (by rw [h2, hv, hft])⟩
          · exact Or.inl ⟨lt_top_iff_ne_top.mpr hv, h2⟩
    · obtain ⟨j, hj, hjv⟩ := incrT_of (lt_top_iff_ne_top.mpr htop)
      rw [hj, Option.bind_some]
      exact ih j _ (lt_trans hi (Px.lt_iff.mpr (by omega))) (by push_cast at hn; omega) (h.snoc hjv (hf i le_rfl).symm)
        fun v hv => hf v (le_trans (Px.le_iff.mpr (by omega)) hv)

/-- The label of a value: the rank of the first threshold above it. -/
def lblOf (tv : List (Px t)) (v : Px t) : Nat := tv.findIdx fun s => decide (v < s)

theorem lblOf_snoc (tv : List (Px t)) (s v : Px t) :
    ((∃ s' ∈ tv, v < s') → lblOf (tv ++ [s]) v = lblOf tv v) ∧
    ((∀ s' ∈ tv, s' ≤ v) → v < s → lblOf (tv ++ [s]) v = tv.length) := by
  unfold lblOf
  rw [List.findIdx_append]
  constructor
  · rintro ⟨s', hs, h⟩
    rw [if_pos (List.findIdx_lt_length_of_exists ⟨s', hs, by simpa using h⟩)]
  · intro h hv
    have e : tv.findIdx (fun s => decide (v < s)) = tv.length := List.findIdx_eq_length.mpr fun s' hs => by
      simpa using h s' hs
    rw [e, if_neg (lt_irrefl _)]
    simp [List.findIdx_cons, hv]

theorem lblOf_none {tv : List (Px t)} {v : Px t} (h : ∀ s' ∈ tv, s' ≤ v) : lblOf tv v = tv.length :=
  List.findIdx_eq_length.mpr fun s' hs => by simpa using h s' hs

/-- The loop over the values returned by the search. -/
theorem lutFold_spec : ∀ (tv : List (Px t)), (tv.length : Int) < t2.hi + 1 →
    ∃ i m lbl, tv.foldlM (fun (s : (Px t × LutMap t t2) × Px t2) v => do
      let q ← lutWhile v s.2 t.card.toNat s.1.1 s.1.2
      let l ← incrT s.2
      pure (q, l)) ((⊥, []), t2.wrap 0) = some ((i, m), lbl) ∧
      lbl.val = tv.length ∧ (∀ s ∈ tv, s ≤ i) ∧ (∀ v, v < i → ∃ s ∈ tv, v < s) ∧ IsLbl m (fun v => v < i) (lblOf tv) := by
  intro tv
  induction tv using List.reverseRecOn with
  | nil =>
    intro _
    refine ⟨⊥, [], t2.wrap 0, rfl, ?_, by simp, fun v hv => absurd hv not_lt_bot, ?_⟩
    · rw [t2.wrap_of_mem t2.lo_nonpos t2.hi_nonneg]; rfl
    · exact ⟨List.Pairwise.nil, fun v w => ⟨fun h => by simp at h, fun h => absurd h.1 not_lt_bot⟩⟩
  | append_singleton tv s ih =>
    intro hlen
    rw [List.length_append, List.length_singleton] at hlen
    push_cast at hlen
    obtain ⟨i, m, lbl, h1, h2, h3, h4, h5⟩ := ih (by omega)
    rw [List.foldlM_append, h1]
    -- the labels below `i` do not change
    have h5' : IsLbl m (fun v => v < i) (lblOf (tv ++ [s])) := by
      refine ⟨h5.sorted, fun v w => ?_⟩
      rw [h5.mem]
      refine and_congr_right fun hv => ?_
      rw [(lblOf_snoc tv s v).1 (h4 v hv)]
    have hcard : s.val - i.val ≤ (t.card.toNat : Int) := by
      have a1 := s.le_hi
      have a2 := i.lo_le
      have a3 := t.lo_le_hi
      unfold PT.card
      omega
    obtain ⟨m', e1, e2⟩ := lutWhile_spec s lbl t.card.toNat i m hcard h5' (fun v hv hvs => by
      rw [(lblOf_snoc tv s v).2 (fun s' hs => (h3 s' hs).trans hv) hvs, h2])
    obtain ⟨l', f1, f2⟩ := incrT_of (i := lbl) (Px.lt_iff.mpr (by rw [Px.top_val]; omega))
    refine ⟨max i s, m', l', ?_, ?_, ?_, ?_, e2⟩
    · simp only [List.foldlM_cons, List.foldlM_nil, Option.bind_eq_bind, Option.bind_some, e1, f1]
      rfl
    · rw [f2, h2, List.length_append]
      push_cast
      rfl
    · intro s' hs
      rcases List.mem_append.mp hs with hs | hs
      · exact (h3 s' hs).trans (le_max_left _ _)
      · rw [List.mem_singleton.mp hs]; exact le_max_right _ _
    · intro v hv
      rcases lt_max_iff.mp hv with hv | hv
      · obtain ⟨s', hs, h⟩ := h4 v hv
        exact ⟨s', List.mem_append_left _ hs, h⟩
      · exact ⟨s, List.mem_append_right _ (List.mem_singleton_self _), hv⟩

theorem multiLut_spec (ht : t.signed = false ∨ t.bits ≤ 16) {tv : List (Px t)} (hlen : (tv.length : Int) < t2.hi + 1)
    (hne : ∃ s ∈ tv, ⊥ < s) : ∃ m : LutMap t t2, multiLut tv = some m ∧ IsLbl m (fun _ => True) (lblOf tv) := by
  obtain ⟨i, m, lbl, h1, h2, h3, h4, h5⟩ := lutFold_spec (t2 := t2) tv hlen
  obtain ⟨s, hs, hbs⟩ := hne
  obtain ⟨m', e1, e2⟩ := lutTail_spec ht lbl t.card.toNat i m (lt_of_lt_of_le hbs (h3 s hs)) (by
      have a2 := i.lo_le
      have a3 := t.lo_le_hi
      unfold PT.card
      omega) h5 (fun v hv => by rw [lblOf_none fun s' hs => (h3 s' hs).trans hv, h2])
  refine ⟨m', ?_, e2⟩
  unfold multiLut
  rw [h1]
  exact e1

theorem multiLut_bot {tv : List (Px t)} (hlen : (tv.length : Int) < t2.hi + 1) (h : ∀ s ∈ tv, s = ⊥) :
    multiLut (t2 := t2) tv = some [] := by
  obtain ⟨i, m, lbl, h1, h2, h3, h4, h5⟩ := lutFold_spec (t2 := t2) tv hlen
  have hi : i = ⊥ := by
    by_contra hne
    obtain ⟨s, hs, hlt⟩ := h4 ⊥ (bot_lt_iff_ne_bot.mpr hne)
    rw [h s hs] at hlt
    exact lt_irrefl _ hlt
  have hm : m = [] := by
    cases m with
    | nil => rfl
    | cons e m =>
      have := ((h5.mem e.1 e.2).mp (List.mem_cons_self)).1
      rw [hi] at this
      exact absurd this not_lt_bot
  unfold multiLut
  rw [h1, hi, hm]
  change lutTail lbl t.card.toNat ⊥ [] = some []
  cases t.card.toNat with
  | zero => rfl
  | succ n => rw [lutTail, if_neg (fun h => lt_irrefl _ h.2)]

end

end Smil
