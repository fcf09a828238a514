import Verif.Measures
import Mathlib.Data.List.Induction
import Mathlib.Data.List.Count
import Mathlib.Algebra.BigOperators.Group.List.Basic

/-!
# Lemmas on the measures
-/

namespace Smil

/-! ### The runs do not matter -/

section
variable {σ α : Type}

theorem seqOf_succ (buf : Nat → α) (a n : Nat) : seqOf buf a (n + 1) = seqOf buf a n ++ [buf (a + n)] := by
  unfold seqOf
  rw [List.range_succ, List.map_append]
  rfl

theorem seqOf_ne (buf : Nat → α) (a n : Nat) (hn : 0 < n) : seqOf buf a n ≠ [] := by
  intro h
  have := congrArg List.length h
  simp [seqOf] at this
  omega

/-- A measure that processes the pixels of a sequence one after the other gives the same result however
the non-zero pixels are split into sequences. -/
theorem nzRun_eq (F : MeasFn σ α) (nz : α → Bool) (step : σ → α → σ)
    (hF : ∀ s l, l ≠ [] → F.seq s l = l.foldl step s) (buf : Nat → α) (n : Nat) :
    nzEnd F buf ((List.range n).foldl (nzStep F nz buf) ⟨0, 0, F.init⟩) =
      (((List.range n).map buf).filter nz).foldl step F.init := by
  have key : ∀ n, let st := (List.range n).foldl (nzStep F nz buf) ⟨0, 0, F.init⟩
      (st.size = 0 → st.start = 0) ∧ (st.size > 0 → st.start + st.size = n) ∧
      (seqOf buf st.start st.size).foldl step st.s =
        (((List.range n).map buf).filter nz).foldl step F.init := by
    intro n
    induction n with
    | zero => simp [seqOf]
    | succ n ih =>
      simp only at ih ⊢
      rw [List.range_succ, List.foldl_append, List.foldl_cons, List.foldl_nil]
      set st := (List.range n).foldl (nzStep F nz buf) ⟨0, 0, F.init⟩ with hst
      obtain ⟨h1, h2, h3⟩ := ih
      rw [List.map_append, List.filter_append, List.foldl_append, ← h3]
      unfold nzStep
      by_cases hn : nz (buf n) = true
      · simp only [hn, if_true, List.map_cons, List.map_nil, List.filter_cons, List.filter_nil,
          List.foldl_cons, List.foldl_nil]
        by_cases hs : st.size = 0
        · have h0 := h1 hs
          rw [if_pos ⟨hs, h0⟩, hs]
          refine ⟨by omega, by omega, ?_⟩
          simp [seqOf]
        · rw [if_neg (by tauto)]
          refine ⟨by omega, by omega, ?_⟩
          rw [seqOf_succ, List.foldl_append, h2 (by omega)]
          rfl
      · simp only [hn, if_false, List.map_cons, List.map_nil, List.filter_cons, List.filter_nil,
          List.foldl_nil, Bool.false_eq_true]
        by_cases hs : st.size > 0
        · rw [if_pos hs]
          refine ⟨fun _ => rfl, fun h => absurd h (by simp), ?_⟩
          rw [hF _ _ (seqOf_ne _ _ _ hs)]
          simp [seqOf]
        · rw [if_neg hs]
          exact ⟨h1, fun h => absurd h hs, rfl⟩
  obtain ⟨-, -, h⟩ := key n
  rw [← h]
  unfold nzEnd
  split
  · rename_i hs
    rw [hF _ _ (seqOf_ne _ _ _ hs)]
  · rename_i hs
    rw [show ((List.range n).foldl (nzStep F nz buf) ⟨0, 0, F.init⟩).size = 0 by omega]
    rfl

/-- The values a measure looks at. -/
def Img.sel (nz : α → Bool) (onlyNZ : Bool) (im : Img α) : List α :=
  im.vals.filter fun v => !onlyNZ || nz v

theorem measRun_eq (F : MeasFn σ α) (nz : α → Bool) (step : σ → α → σ)
    (hF : ∀ s l, l ≠ [] → F.seq s l = l.foldl step s) (onlyNZ : Bool) (im : Img α) (h : im.dims.count ≠ 0) :
    measRun F nz onlyNZ im = some ((im.sel nz onlyNZ).foldl step F.init) := by
  unfold measRun Img.sel
  rw [if_neg h]
  cases onlyNZ with
  | false =>
    rw [if_pos rfl, hF _ _ (seqOf_ne _ _ _ (Nat.pos_of_ne_zero h)), im.vals_eq]
    simp [seqOf]
  | true =>
    rw [if_neg (by simp), nzRun_eq F nz step hF, im.vals_eq]
    simp

/-! ### With positions -/

theorem seqPos_append (l m : List α) (x y z : Nat) :
    seqPos (l ++ m) x y z = seqPos l x y z ++ seqPos m (x + l.length) y z := by
  induction l generalizing x with
  | nil => simp [seqPos]
  | cons a l ih =>
    simp only [List.cons_append, seqPos, ih, List.length_cons]
    rw [show x + 1 + l.length = x + (l.length + 1) by omega]

theorem seqOf_length (ln : Nat → α) (a n : Nat) : (seqOf ln a n).length = n := by simp [seqOf]

theorem seqPos_seqOf (ln : Nat → α) (n y z : Nat) :
    seqPos (seqOf ln 0 n) 0 y z =
      (List.range n).map fun x : Nat => ((⟨(x : Int), (y : Int), (z : Int)⟩ : IntPoint), ln x) := by
  induction n with
  | zero => rfl
  | succ n ih =>
    rw [seqOf_succ, seqPos_append, ih, List.range_succ, List.map_append, seqOf_length]
    simp [seqPos]

theorem posLine_eq (F : MeasPos σ α) (nz : α → Bool) (step : σ → IntPoint × α → σ)
    (hF : ∀ s l x y z, l ≠ [] → F.seq s l x y z = (seqPos l x y z).foldl step s)
    (onlyNZ : Bool) (ln : Nat → α) (w y z : Nat) (hw : 0 < w) (s : σ) :
    posLine F nz onlyNZ ln w y z s =
      (((List.range w).map fun x : Nat => ((⟨(x : Int), (y : Int), (z : Int)⟩ : IntPoint), ln x)).filter
        fun e => !onlyNZ || nz e.2).foldl step s := by
  have hne : ∀ a n, 0 < n → seqOf ln a n ≠ [] := by
    intro a n hn h
    have := congrArg List.length h
    rw [seqOf_length] at this
    simp at this
    omega
  unfold posLine
  cases onlyNZ with
  | false =>
    rw [if_pos rfl, hF _ _ _ _ _ (hne _ _ hw), seqPos_seqOf]
    simp
  | true =>
    rw [if_neg (by simp)]
    have key : ∀ n, let st := (List.range n).foldl (posStep F nz ln y z) ⟨0, 0, s⟩
        (st.size > 0 → st.start + st.size = n) ∧
        (seqPos (seqOf ln st.start st.size) st.start y z).foldl step st.s =
          (((List.range n).map fun x : Nat =>
            ((⟨(x : Int), (y : Int), (z : Int)⟩ : IntPoint), ln x)).filter
            fun e => nz e.2).foldl step s := by
      intro n
      induction n with
      | zero => simp [seqOf, seqPos]
      | succ n ih =>
        simp only at ih ⊢
        rw [List.range_succ, List.foldl_append, List.foldl_cons, List.foldl_nil]
        set st := (List.range n).foldl (posStep F nz ln y z) ⟨0, 0, s⟩ with hst
        obtain ⟨h2, h3⟩ := ih
        rw [List.map_append, List.filter_append, List.foldl_append, ← h3]
        unfold posStep
        by_cases hn : nz (ln n) = true
        · simp only [hn, if_true, List.map_cons, List.map_nil, List.filter_cons, List.filter_nil,
            List.foldl_cons, List.foldl_nil]
          by_cases hs : st.size = 0
          · rw [if_pos hs, hs]
            refine ⟨by omega, ?_⟩
            simp [seqOf, seqPos]
          · rw [if_neg hs]
            refine ⟨by omega, ?_⟩
            rw [seqOf_succ, seqPos_append, List.foldl_append, seqOf_length, h2 (by omega)]
            rfl
        · simp only [hn, if_false, List.map_cons, List.map_nil, List.filter_cons, List.filter_nil,
            List.foldl_nil, Bool.false_eq_true]
          by_cases hs : st.size > 0
          · rw [if_pos hs]
            refine ⟨fun h => absurd h (by simp), ?_⟩
            rw [hF _ _ _ _ _ (hne _ _ hs)]
            simp [seqOf, seqPos]
          · rw [if_neg hs]
            exact ⟨fun h => absurd h hs, rfl⟩
    obtain ⟨-, h⟩ := key w
    simp only [Bool.not_true, Bool.false_or] at h ⊢
    rw [← h]
    split
    · rename_i hs
      rw [hF _ _ _ _ _ (hne _ _ hs)]
    · rename_i hs
      rw [show ((List.range w).foldl (posStep F nz ln y z) ⟨0, 0, s⟩).size = 0 by omega]
      rfl

theorem foldl_flatMap' {β : Type} (l : List Nat) (g : Nat → List β) (step : σ → β → σ) (s : σ) :
    (l.flatMap g).foldl step s = l.foldl (fun s i => (g i).foldl step s) s := by
  induction l generalizing s with
  | nil => rfl
  | cons a l ih => simp only [List.flatMap_cons, List.foldl_append, List.foldl_cons, ih]

/-- The points and values a measure looks at. -/
def Img.selPos (nz : α → Bool) (onlyNZ : Bool) (im : Img α) : List (IntPoint × α) :=
  im.scan.filter fun e => !onlyNZ || nz e.2

theorem Img.scan_lines (im : Img α) :
    im.scan = (List.range im.dims.d).flatMap fun z : Nat => (List.range im.dims.h).flatMap fun y : Nat =>
      (List.range im.dims.w).map fun x : Nat =>
        ((⟨(x : Int), (y : Int), (z : Int)⟩ : IntPoint), im.px x y z) := by
  unfold Img.scan scanPts
  rw [List.filterMap_flatMap]
  apply List.flatMap_congr
  intro z hz
  rw [List.filterMap_flatMap]
  apply List.flatMap_congr
  intro y hy
  rw [List.filterMap_map, ← List.filterMap_eq_map]
  apply List.filterMap_congr
  intro x hx
  rw [List.mem_range] at hx hy hz
  simp only [Function.comp_apply]
  rw [Img.at?_some im _ (by unfold Img.In; simp only; omega)]
  simp

theorem posRun_eq (F : MeasPos σ α) (nz : α → Bool) (step : σ → IntPoint × α → σ)
    (hF : ∀ s l x y z, l ≠ [] → F.seq s l x y z = (seqPos l x y z).foldl step s)
    (onlyNZ : Bool) (im : Img α) (h : im.dims.count ≠ 0) :
    posRun F nz onlyNZ im = some ((im.selPos nz onlyNZ).foldl step F.init) := by
  have hw : 0 < im.dims.w := by
    rcases Nat.eq_zero_or_pos im.dims.w with h0 | h0
    · unfold Dims.count at h; rw [h0] at h; simp at h
    · exact h0
  unfold posRun Img.selPos
  rw [if_neg h, im.scan_lines, List.filter_flatMap, foldl_flatMap']
  congr 2
  funext s z
  rw [List.filter_flatMap, foldl_flatMap']
  congr 1
  funext s y
  exact posLine_eq F nz step hF onlyNZ _ _ y z hw s

end

/-! ### The steps -/

section
variable {t : PT}

theorem foldl_length {α : Type} (l : List α) (s : Nat) : l.foldl (fun n _ => n + 1) s = s + l.length := by
  induction l generalizing s with
  | nil => rfl
  | cons a l ih => rw [List.foldl_cons, ih, List.length_cons]; omega

theorem foldl_add (l : List (Px t)) (s : Int) :
    l.foldl (fun s v => s + v.val) s = s + (l.map Px.val).sum := by
  induction l generalizing s with
  | nil => simp
  | cons a l ih => rw [List.foldl_cons, ih, List.map_cons, List.sum_cons]; ring

theorem foldl_min (l : List (Px t)) (s : Px t) :
    let m := l.foldl (fun s v => if v < s then v else s) s
    m ≤ s ∧ (∀ v ∈ l, m ≤ v) ∧ (m = s ∨ m ∈ l) := by
  induction l generalizing s with
  | nil => simp
  | cons a l ih =>
    obtain ⟨h1, h2, h3⟩ := ih (if a < s then a else s)
    simp only [List.foldl_cons] at *
    by_cases ha : a < s
    · simp only [if_pos ha] at *
      refine ⟨le_trans h1 ha.le, ?_, ?_⟩
      · intro v hv
        rcases List.mem_cons.mp hv with hv | hv
        · rw [hv]; exact h1
        · exact h2 v hv
      · rcases h3 with h3 | h3
        · right; rw [h3]; simp
        · right; simp [h3]
    · simp only [if_neg ha] at *
      refine ⟨h1, ?_, ?_⟩
      · intro v hv
        rcases List.mem_cons.mp hv with hv | hv
        · rw [hv]; exact le_trans h1 (not_lt.mp ha)
        · exact h2 v hv
      · rcases h3 with h3 | h3
        · left; exact h3
        · right; simp [h3]

theorem foldl_max (l : List (Px t)) (s : Px t) :
    let m := l.foldl (fun s v => if v > s then v else s) s
    s ≤ m ∧ (∀ v ∈ l, v ≤ m) ∧ (m = s ∨ m ∈ l) := by
  induction l generalizing s with
  | nil => simp
  | cons a l ih =>
    obtain ⟨h1, h2, h3⟩ := ih (if a > s then a else s)
    simp only [List.foldl_cons] at *
    by_cases ha : a > s
    · simp only [if_pos ha] at *
      refine ⟨le_trans ha.le h1, ?_, ?_⟩
      · intro v hv
        rcases List.mem_cons.mp hv with hv | hv
        · rw [hv]; exact h1
        · exact h2 v hv
      · rcases h3 with h3 | h3
        · right; rw [h3]; simp
        · right; simp [h3]
    · simp only [if_neg ha] at *
      refine ⟨h1, ?_, ?_⟩
      · intro v hv
        rcases List.mem_cons.mp hv with hv | hv
        · rw [hv]; exact le_trans (not_lt.mp ha) h1
        · exact h2 v hv
      · rcases h3 with h3 | h3
        · left; exact h3
        · right; simp [h3]

theorem foldl_minMax (l : List (Px t)) (s : Px t × Px t) :
    l.foldl (fun s v => (if v < s.1 then v else s.1, if v > s.2 then v else s.2)) s =
      (l.foldl (fun s v => if v < s then v else s) s.1, l.foldl (fun s v => if v > s then v else s) s.2) := by
  induction l generalizing s with
  | nil => rfl
  | cons a l ih => simp only [List.foldl_cons, ih]

theorem mem_setInsert (v w : Px t) (l : List (Px t)) : w ∈ setInsert v l ↔ w = v ∨ w ∈ l := by
  induction l with
  | nil => simp [setInsert]
  | cons a l ih =>
    unfold setInsert
    split
    · simp
    · split
      · rename_i h; subst h; simp
      · simp only [List.mem_cons, ih]; tauto

theorem sorted_setInsert (v : Px t) (l : List (Px t)) (h : l.Pairwise (· < ·)) :
    (setInsert v l).Pairwise (· < ·) := by
  induction l with
  | nil => simp [setInsert]
  | cons a l ih =>
    have h' := List.pairwise_cons.mp h
    unfold setInsert
    split
    · rename_i hv
      refine List.pairwise_cons.mpr ⟨?_, h⟩
      intro b hb
      rcases List.mem_cons.mp hb with hb | hb
      · rw [hb]; exact hv
      · exact lt_trans hv (h'.1 b hb)
    · split
      · exact h
      · rename_i h1 h2
        refine List.pairwise_cons.mpr ⟨?_, ih h'.2⟩
        intro b hb
        rcases (mem_setInsert v b l).mp hb with hb | hb
        · rw [hb]; exact lt_of_le_of_ne (not_lt.mp h1) (Ne.symm h2)
        · exact h'.1 b hb

theorem foldl_set (l : List (Px t)) (s : List (Px t)) (hs : s.Pairwise (· < ·)) :
    (l.foldl (fun s v => setInsert v s) s).Pairwise (· < ·) ∧
    ∀ w, w ∈ l.foldl (fun s v => setInsert v s) s ↔ w ∈ l ∨ w ∈ s := by
  induction l generalizing s with
  | nil => simp [hs]
  | cons a l ih =>
    obtain ⟨h1, h2⟩ := ih (setInsert a s) (sorted_setInsert a s hs)
    refine ⟨h1, fun w => ?_⟩
    rw [List.foldl_cons, h2, mem_setInsert]
    simp only [List.mem_cons]
    tauto

/-! ### Counting maps -/

/-- A counting map: increasing keys, each with the number of its occurrences in the list of the keys
counted. -/
def IsCount (m : List (Int × Nat)) (l : List Int) : Prop :=
  m.Pairwise (fun a b => a.1 < b.1) ∧ ∀ k n, (k, n) ∈ m ↔ k ∈ l ∧ n = l.count k

theorem mem_mapIncr (k : Int) (m : List (Int × Nat)) (hs : m.Pairwise (fun a b => a.1 < b.1))
    (a : Int) (n : Nat) : (a, n) ∈ mapIncr k m ↔
      (a ≠ k ∧ (a, n) ∈ m) ∨ (a = k ∧ ((∃ n', (k, n') ∈ m ∧ n = n' + 1) ∨
        (n = 1 ∧ ∀ n', (k, n') ∉ m))) := by
  induction m with
  | nil => simp [mapIncr]
  | cons e m ih =>
    obtain ⟨b, q⟩ := e
    have hs' := List.pairwise_cons.mp hs
    have hnot : ∀ c, c ≤ b → ∀ n', (c, n') ∉ m := by
      intro c hc n' hm
      have := hs'.1 _ hm
      simp only at this
      omega
    simp only [mapIncr]
    split
    · rename_i h1
      have : ∀ n', (k, n') ∉ ((b, q) :: m) := by
        intro n' hm
        rcases List.mem_cons.mp hm with hm | hm
        · rw [Prod.mk.injEq] at hm; omega
        · exact hnot k h1.le n' hm
      simp only [List.mem_cons, Prod.mk.injEq] at this ⊢
      constructor
      · rintro (⟨rfl, rfl⟩ | ⟨rfl, rfl⟩ | h)
        · right; exact ⟨rfl, Or.inr ⟨rfl, this⟩⟩
        · left; exact ⟨by omega, Or.inl ⟨rfl, rfl⟩⟩
        · left
          refine ⟨?_, Or.inr h⟩
          rintro rfl
          exact hnot a h1.le n h
      · rintro (⟨h, h2⟩ | ⟨rfl, ⟨n', h2, -⟩ | ⟨rfl, -⟩⟩)
        · right; exact h2
        · exact absurd h2 (this n')
        · left; exact ⟨rfl, rfl⟩
    · split
      · rename_i h1 h2
        subst h2
        have hk := hnot k le_rfl
        simp only [List.mem_cons, Prod.mk.injEq]
        constructor
        · rintro (⟨rfl, rfl⟩ | h)
          · right; exact ⟨rfl, Or.inl ⟨q, Or.inl ⟨trivial, rfl⟩, rfl⟩⟩
          · left
            refine ⟨?_, Or.inr h⟩
            rintro rfl; exact hk n h
        · rintro (⟨h, ⟨h2, -⟩ | h2⟩ | ⟨rfl, ⟨n', ⟨-, rfl⟩ | h2, rfl⟩ | ⟨-, h2⟩⟩)
          · exact absurd h2 h
          · right; exact h2
          · left; exact ⟨rfl, rfl⟩
          · exact absurd h2 (hk n')
          · exact absurd (Or.inl ⟨trivial, rfl⟩) (h2 q)
      · rename_i h1 h2
        rw [List.mem_cons, ih hs'.2]
        simp only [List.mem_cons, Prod.mk.injEq]
        constructor
        · rintro (⟨rfl, rfl⟩ | ⟨h, h3⟩ | ⟨rfl, ⟨n', h3, rfl⟩ | ⟨rfl, h3⟩⟩)
          · left; exact ⟨fun h => h2 h.symm, Or.inl ⟨rfl, rfl⟩⟩
          · left; exact ⟨h, Or.inr h3⟩
          · right; exact ⟨rfl, Or.inl ⟨n', Or.inr h3, rfl⟩⟩
          · right
            refine ⟨rfl, Or.inr ⟨rfl, ?_⟩⟩
            rintro n' (⟨h, -⟩ | h)
            · exact h2 h
            · exact h3 n' h
        · rintro (⟨h, ⟨rfl, rfl⟩ | h3⟩ | ⟨rfl, ⟨n', ⟨h, -⟩ | h3, rfl⟩ | ⟨rfl, h3⟩⟩)
          · left; exact ⟨rfl, rfl⟩
          · right; left; exact ⟨h, h3⟩
          · exact absurd h h2
          · right; right; exact ⟨rfl, Or.inl ⟨n', h3, rfl⟩⟩
          · right; right; exact ⟨rfl, Or.inr ⟨rfl, fun n' h => h3 n' (Or.inr h)⟩⟩

theorem sorted_mapIncr (k : Int) (m : List (Int × Nat)) (hs : m.Pairwise (fun a b => a.1 < b.1)) :
    (mapIncr k m).Pairwise (fun a b => a.1 < b.1) := by
  induction m with
  | nil => simp [mapIncr]
  | cons e m ih =>
    obtain ⟨b, q⟩ := e
    have hs' := List.pairwise_cons.mp hs
    simp only [mapIncr]
    split
    · rename_i h1
      refine List.pairwise_cons.mpr ⟨?_, hs⟩
      intro c hc
      rcases List.mem_cons.mp hc with hc | hc
      · rw [hc]; exact h1
      · have := hs'.1 c hc
        simp only at this ⊢
        omega
    · split
      · exact List.pairwise_cons.mpr ⟨hs'.1, hs'.2⟩
      · rename_i h1 h2
        refine List.pairwise_cons.mpr ⟨?_, ih hs'.2⟩
        rintro ⟨c, n⟩ hc
        rcases (mem_mapIncr k m hs'.2 c n).mp hc with ⟨-, hc⟩ | ⟨rfl, -⟩
        · exact hs'.1 _ hc
        · simp only; omega

theorem IsCount.incr {m : List (Int × Nat)} {l : List Int} (h : IsCount m l) (k : Int) :
    IsCount (mapIncr k m) (l ++ [k]) := by
  refine ⟨sorted_mapIncr k m h.1, fun a n => ?_⟩
  rw [mem_mapIncr k m h.1]
  simp only [List.mem_append, List.mem_singleton, List.count_append]
  by_cases ha : a = k
  · subst ha
    simp only [ne_eq, not_true, false_and, true_and, false_or, or_true, List.count_cons_self,
      List.count_nil, h.2]
    constructor
    · rintro (⟨n', ⟨-, rfl⟩, rfl⟩ | ⟨rfl, h2⟩)
      · omega
      · have : a ∉ l := fun hc => h2 _ ⟨hc, rfl⟩
        rw [List.count_eq_zero_of_not_mem this]
    · rintro rfl
      by_cases hc : a ∈ l
      · left; exact ⟨_, ⟨hc, rfl⟩, by omega⟩
      · right; rw [List.count_eq_zero_of_not_mem hc]
        exact ⟨rfl, fun n' h2 => hc h2.1⟩
  · rw [List.count_eq_zero_of_not_mem (a := a) (l := [k]) (by simpa using ha)]
    simp only [ne_eq, ha, not_false_eq_true, true_and, false_and, or_false, h.2, Nat.add_zero]

theorem IsCount.get {m : List (Int × Nat)} {l : List Int} (h : IsCount m l) (k : Int) :
    mapGet k m = l.count k := by
  unfold mapGet
  cases hf : m.find? fun e => e.1 = k with
  | none =>
    rw [List.find?_eq_none] at hf
    have : k ∉ l := by
      intro hc
      have := hf _ ((h.2 k _).mpr ⟨hc, rfl⟩)
      simp at this
    rw [List.count_eq_zero_of_not_mem this]
    rfl
  | some e =>
    have h1 := List.find?_some hf
    have h2 := List.mem_of_find?_eq_some hf
    simp only [decide_eq_true_eq] at h1
    obtain ⟨a, n⟩ := e
    simp only at h1
    subst h1
    exact ((h.2 a n).mp h2).2

theorem isCount_nil : IsCount [] [] := ⟨List.Pairwise.nil, by simp⟩

/-- The counts of the keys below `k` add up to the number of elements below `k`. -/
theorem IsCount.sum_lt {m : List (Int × Nat)} {l : List Int} (h : IsCount m l) (P : Int → Bool) :
    ((m.filter fun e => P e.1).map (·.2)).sum = l.countP P := by
  induction m generalizing l with
  | nil =>
    have : l = [] := by
      cases l with
      | nil => rfl
      | cons a l =>
        have := (h.2 a _).mpr ⟨by simp, rfl⟩
        simp at this
    simp [this]
  | cons e m ih =>
    obtain ⟨k, n⟩ := e
    have hs := List.pairwise_cons.mp h.1
    have hkn := (h.2 k n).mp (by simp)
    have hrest : IsCount m (l.filter fun a => a ≠ k) := by
      refine ⟨hs.2, fun a q => ?_⟩
      have h2 := h.2 a q
      constructor
      · intro hm
        have hak : a ≠ k := by have := hs.1 _ hm; simp only at this; omega
        have := h2.mp (by simp [hm])
        rw [List.count_filter (by simpa using hak)]
        simp only [List.mem_filter, ne_eq, decide_not, Bool.not_eq_true', decide_eq_false_iff_not]
        exact ⟨⟨this.1, hak⟩, this.2⟩
      · rintro ⟨hm, hq⟩
        simp only [List.mem_filter, ne_eq, decide_not, Bool.not_eq_true', decide_eq_false_iff_not] at hm
        rw [List.count_filter (by simpa using hm.2)] at hq
        have := h2.mpr ⟨hm.1, hq⟩
        rcases List.mem_cons.mp this with h3 | h3
        · rw [Prod.mk.injEq] at h3; exact absurd h3.1 hm.2
        · exact h3
    have := ih hrest
    have hsplit : l.countP P = (l.filter fun a => a ≠ k).countP P +
        (if P k then l.count k else 0) := by
      clear ih this hrest hs h hkn
      induction l with
      | nil => simp
      | cons a l ih2 =>
        by_cases ha : a = k
        · subst ha
          by_cases hp : P a = true
          · simp [hp] at ih2 ⊢; omega
          · simp [hp] at ih2 ⊢; omega
        · by_cases hp : P a = true
          · simp [ha, hp] at ih2 ⊢; omega
          · simp [ha, hp] at ih2 ⊢; omega
    rw [hsplit, ← this, List.filter_cons]
    by_cases hp : P k = true
    · simp only [hp, if_true, List.map_cons, List.sum_cons]
      rw [hkn.2]; omega
    · simp only [hp]
      simp

theorem IsCount.total {m : List (Int × Nat)} {l : List Int} (h : IsCount m l) :
    (m.map (·.2)).sum = l.length := by
  have := h.sum_lt (fun _ => true)
  simpa using this

/-- The loop of the median. -/
theorem medianLoop_spec (l : List Int) (hl : l ≠ []) (pre post : List (Int × Nat))
    (h : IsCount (pre ++ post) l) (hacc : 2 * (pre.map (·.2)).sum ≤ l.length) :
    let k := medianLoop l.length (pre.map (·.2)).sum post
    k ∈ l ∧ l.length < 2 * l.countP (fun a => decide (a ≤ k)) ∧
      2 * l.countP (fun a => decide (a < k)) ≤ l.length := by
  induction post generalizing pre with
  | nil =>
    have := h.total
    rw [List.append_nil] at this
    have : 0 < l.length := List.length_pos_of_ne_nil hl
    omega
  | cons e post ih =>
    obtain ⟨k, n⟩ := e
    simp only [medianLoop]
    have hs := List.pairwise_append.mp h.1
    have hs2 := List.pairwise_cons.mp hs.2.1
    have h1 : (pre ++ (k, n) :: post).filter (fun e => decide (e.1 < k)) = pre := by
      rw [List.filter_append, List.filter_cons]
      have a1 : pre.filter (fun e => decide (e.1 < k)) = pre := by
        rw [List.filter_eq_self]
        intro e he
        have := hs.2.2 e he (k, n) (by simp)
        simpa using this
      have a2 : post.filter (fun e => decide (e.1 < k)) = [] := by
        rw [List.filter_eq_nil_iff]
        intro e he
        have := hs2.1 e he
        simp only at this
        simp only [decide_eq_true_eq]; omega
      rw [a1, a2]
      simp
    have h2 : (pre ++ (k, n) :: post).filter (fun e => decide (e.1 ≤ k)) = pre ++ [(k, n)] := by
      rw [List.filter_append, List.filter_cons]
      have a1 : pre.filter (fun e => decide (e.1 ≤ k)) = pre := by
        rw [List.filter_eq_self]
        intro e he
        have := hs.2.2 e he (k, n) (by simp)
        simp only at this
        simp only [decide_eq_true_eq]; omega
      have a2 : post.filter (fun e => decide (e.1 ≤ k)) = [] := by
        rw [List.filter_eq_nil_iff]
        intro e he
        have := hs2.1 e he
        simp only at this
        simp only [decide_eq_true_eq]; omega
      rw [a1, a2]
      simp
    have c1 := h.sum_lt (fun a => decide (a < k))
    have c2 := h.sum_lt (fun a => decide (a ≤ k))
    rw [h1] at c1
    rw [h2] at c2
    simp only [List.map_append, List.sum_append, List.map_cons, List.map_nil, List.sum_cons,
      List.sum_nil, Nat.add_zero] at c2
    split
    · rename_i hgt
      refine ⟨((h.2 k n).mp (by simp)).1, ?_, ?_⟩
      · rw [← c2]; omega
      · rw [← c1]; omega
    · rename_i hgt
      have := ih (pre ++ [(k, n)]) (by simpa using h) (by simp; omega)
      simp only [List.map_append, List.sum_append, List.map_cons, List.map_nil, List.sum_cons,
        List.sum_nil, Nat.add_zero] at this
      exact this

/-! ### The mode -/

/-- The key of the counting map: `int(val)`. -/
def keyOf (v : Px t) : Int := (INT32.wrap v.val).val

theorem keyOf_inj (hb : t.hi < 2 ^ 32) (v w : Px t) (hv : 0 < v.val) (hw : 0 < w.val)
    (h : keyOf v = keyOf w) : v = w := by
  apply Px.ext
  have h1 := INT32.wrap_dvd v.val
  have h2 := INT32.wrap_dvd w.val
  unfold keyOf at h
  rw [h] at h1
  have hc : INT32.card = 2 ^ 32 := by decide
  rw [hc] at h1 h2
  have h3 := Int.dvd_sub h1 h2
  have hv2 := v.le_hi
  have hw2 := w.le_hi
  obtain ⟨k, hk⟩ := h3
  have : k = 0 := by omega
  subst this
  omega

/-- What the functor of the mode holds after the positive values `l`. -/
structure ModeInv (l : List (Px t)) (s : ModeSt t) : Prop where
  cnt : IsCount s.nb (l.map keyOf)
  max : ∀ v ∈ l, l.count v ≤ s.maxNb
  nil : l = [] → s.maxNb = 0 ∧ s.mode = Px.zero
  first : l ≠ [] → ∃ pre post, l = pre ++ s.mode :: post ∧
    (pre ++ [s.mode]).count s.mode = s.maxNb ∧ l.count s.mode = s.maxNb ∧ ∀ v, pre.count v < s.maxNb

theorem count_key (hb : t.hi < 2 ^ 32) (l : List (Px t)) (hl : ∀ v ∈ l, 0 < v.val) (v : Px t)
    (hv : 0 < v.val) : (l.map keyOf).count (keyOf v) = l.count v := by
  induction l with
  | nil => rfl
  | cons a l ih =>
    rw [List.map_cons, List.count_cons, List.count_cons, ih fun w hw => hl w (List.mem_cons_of_mem _ hw)]
    by_cases h : a = v
    · subst h; simp
    · have : keyOf a ≠ keyOf v := fun hc => h (keyOf_inj hb a v (hl a (by simp)) hv hc)
      simp [h, this]

theorem ModeInv.step (hb : t.hi < 2 ^ 32) {l : List (Px t)} (hl : ∀ v ∈ l, 0 < v.val) {s : ModeSt t}
    (h : ModeInv l s) (v : Px t) (hv : 0 < v.val) : ModeInv (l ++ [v]) (modeStep s v) := by
  have hc : IsCount (mapIncr (keyOf v) s.nb) ((l ++ [v]).map keyOf) := by
    rw [List.map_append]; exact h.cnt.incr _
  have hl' : ∀ w ∈ l ++ [v], 0 < w.val := by
    intro w hw
    rcases List.mem_append.mp hw with hw | hw
    · exact hl w hw
    · rw [List.mem_singleton.mp hw]; exact hv
  have hg : mapGet (keyOf v) (mapIncr (keyOf v) s.nb) = l.count v + 1 := by
    rw [hc.get, count_key hb _ hl' v hv, List.count_append]
    simp
  have hcount : ∀ w, (l ++ [v]).count w = l.count w + if v = w then 1 else 0 := by
    intro w
    rw [List.count_append, List.count_cons]
    by_cases hw : v = w <;> simp [hw]
  have hlast : ∀ w, l.count w ≤ s.maxNb := by
    intro w
    by_cases hw : w ∈ l
    · exact h.max w hw
    · rw [List.count_eq_zero_of_not_mem hw]; omega
  unfold modeStep
  rw [if_pos hv]
  change ModeInv _ (if mapGet (keyOf v) (mapIncr (keyOf v) s.nb) > s.maxNb then _ else _)
  change ModeInv _ (if mapGet (keyOf v) (mapIncr (keyOf v) s.nb) > s.maxNb then
    (⟨mapIncr (keyOf v) s.nb, mapGet (keyOf v) (mapIncr (keyOf v) s.nb), v, s.ret⟩ : ModeSt t) else
      ⟨mapIncr (keyOf v) s.nb, s.maxNb, s.mode, s.ret⟩)
  rw [hg]
  split
  · rename_i hgt
    refine ⟨hc, ?_, fun hn => by simp at hn, fun _ => ⟨l, [], by simp, ?_, ?_, ?_⟩⟩
    · intro w _
      simp only
      rw [hcount]
      have := hlast w
      split
      · rename_i hw; subst hw; omega
      · omega
    · simp only; rw [hcount]; simp
    · simp only; rw [hcount]; simp
    · intro w
      have := hlast w
      simp only; omega
  · rename_i hgt
    have hne : l ≠ [] := by
      intro hn
      have := (h.nil hn).1
      omega
    obtain ⟨pre, post, h1, h2, h3, h4⟩ := h.first hne
    have hvm : v ≠ s.mode := by
      intro hvm
      rw [hvm] at hgt
      omega
    refine ⟨hc, ?_, fun hn => by simp at hn, fun _ => ⟨pre, post ++ [v], ?_, h2, ?_, h4⟩⟩
    · intro w _
      simp only
      rw [hcount]
      have := hlast w
      split
      · rename_i hw; subst hw; omega
      · omega
    · simp only
      conv_lhs => rw [h1]
      simp
    · simp only; rw [hcount, if_neg hvm]
      exact h3

theorem foldl_mode (hb : t.hi < 2 ^ 32) (l : List (Px t)) :
    let s0 : ModeSt t := ⟨[], 0, Px.zero, none⟩
    ModeInv (l.filter fun v => decide (v.val > 0)) (l.foldl modeStep s0) := by
  simp only
  induction l using List.reverseRecOn with
  | nil => exact ⟨isCount_nil, by simp, fun _ => ⟨rfl, rfl⟩, fun h => absurd rfl h⟩
  | append_singleton l v ih =>
    rw [List.foldl_append, List.foldl_cons, List.foldl_nil, List.filter_append]
    by_cases hv : v.val > 0
    · have : [v].filter (fun v => decide (v.val > 0)) = [v] := by simp [hv]
      rw [this]
      refine ih.step hb ?_ v hv
      intro w hw
      simpa using (List.mem_filter.mp hw).2
    · have : [v].filter (fun v => decide (v.val > 0)) = [] := by simp [hv]
      rw [this, List.append_nil]
      unfold modeStep
      rw [if_neg hv]
      exact ih

/-- The step of the mode with the assignment of `retVal`. -/
def modeStep' (s : ModeSt t) (v : Px t) : ModeSt t :=
  ⟨(modeStep s v).nb, (modeStep s v).maxNb, (modeStep s v).mode, some (modeStep s v).mode⟩

theorem modeStep_ret (s : ModeSt t) (r : Option (Px t)) (v : Px t) :
    modeStep ⟨s.nb, s.maxNb, s.mode, r⟩ v =
      ⟨(modeStep s v).nb, (modeStep s v).maxNb, (modeStep s v).mode, r⟩ := by
  unfold modeStep
  split
  · simp only
    split <;> rfl
  · rfl

theorem foldl_modeStep_ret (l : List (Px t)) (s : ModeSt t) (r : Option (Px t)) :
    l.foldl modeStep ⟨s.nb, s.maxNb, s.mode, r⟩ =
      ⟨(l.foldl modeStep s).nb, (l.foldl modeStep s).maxNb, (l.foldl modeStep s).mode, r⟩ := by
  induction l generalizing s with
  | nil => rfl
  | cons a l ih => rw [List.foldl_cons, modeStep_ret, ih, List.foldl_cons]

theorem modeFn_seq (s : ModeSt t) (l : List (Px t)) (hl : l ≠ []) :
    modeFn.seq s l = l.foldl modeStep' s := by
  induction l generalizing s with
  | nil => exact absurd rfl hl
  | cons a l ih =>
    by_cases hn : l = []
    · subst hn; rfl
    · rw [List.foldl_cons, ← ih _ hn]
      unfold modeFn modeStep'
      simp only [List.foldl_cons]
      rw [foldl_modeStep_ret l (modeStep s a) (some (modeStep s a).mode)]

/-! ### The median -/

theorem foldl_median (l : List (Px t)) :
    let s := l.foldl (fun (s : List (Int × Nat) × Nat) v =>
      if v.val > 0 then (mapIncr (keyOf v) s.1, s.2 + 1) else s) ([], 0)
    IsCount s.1 ((l.filter fun v => decide (v.val > 0)).map keyOf) ∧
      s.2 = (l.filter fun v => decide (v.val > 0)).length := by
  simp only
  induction l using List.reverseRecOn with
  | nil => exact ⟨isCount_nil, rfl⟩
  | append_singleton l v ih =>
    rw [List.foldl_append, List.foldl_cons, List.foldl_nil, List.filter_append]
    by_cases hv : v.val > 0
    · have : [v].filter (fun v => decide (v.val > 0)) = [v] := by simp [hv]
      rw [this, if_pos hv, List.map_append, List.length_append]
      exact ⟨ih.1.incr _, by simp [ih.2]⟩
    · have : [v].filter (fun v => decide (v.val > 0)) = [] := by simp [hv]
      rw [this, List.append_nil, if_neg hv]
      exact ih

end

end Smil
