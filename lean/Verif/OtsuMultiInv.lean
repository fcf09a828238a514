import Verif.OtsuMultiLemmas

/-!
# The invariant of the search of several thresholds
-/

namespace Smil

section
variable {t : PT}

/-- The map holds the counts of the values of the image and of the values up to `top`. -/
structure Cov (l : List (Px t)) (a b : Px t) (top : Nat) (h : List (Px t × Nat)) : Prop where
  tab : IsTable (fun v => (a ≤ v ∧ v ≤ b) ∨ (0 ≤ v.val ∧ v.val ≤ top)) (fun v => l.count v) h
  len : (h.length : Int) = if (top : Int) < a.val then b.val - a.val + 1 + top + 1 else b.val + 1
  lt : (top : Int) < b.val

/-- The image: its values are between `a` and `b`, both of them non-negative. -/
structure MCtx (l : List (Px t)) (a b : Px t) : Prop where
  nn : 0 ≤ a.val
  ab : a ≤ b
  mem : ∀ v ∈ l, a ≤ v ∧ v ≤ b

variable {l : List (Px t)} {a b : Px t}

theorem MCtx.nonneg (hc : MCtx l a b) : ∀ v ∈ l, 0 ≤ v.val := fun v hv => by
  have := Px.le_iff.mp (hc.mem v hv).1
  have := hc.nn
  omega

theorem wrap_nat {x : Nat} (h : (x : Int) ≤ t.hi) : (t.wrap (x : Int)).val = x :=
  t.wrap_of_mem (by have := t.lo_nonpos; omega) h

/-- A value already covered. -/
theorem Cov.ins_old (hc : MCtx l a b) {top : Nat} {h : List (Px t × Nat)} (hv : Cov l a b top h) (ha : a.val ≤ top) {x : Nat}
    (hx : (x : Int) < b.val) :
    Cov l a b top (mapIns (t.wrap (x : Int)) 0 h) ∧
    mapAt (t.wrap (x : Int)) (mapIns (t.wrap (x : Int)) 0 h) = l.count (t.wrap (x : Int)) := by
  have hb := b.le_hi
  have hw := wrap_nat (t := t) (x := x) (by omega)
  have hP : (a ≤ t.wrap (x : Int) ∧ t.wrap (x : Int) ≤ b) ∨
      (0 ≤ (t.wrap (x : Int)).val ∧ (t.wrap (x : Int)).val ≤ top) := by
    simp only [Px.le_iff, hw]
    have := hc.nn
    omega
  have htab : IsTable (fun v => (a ≤ v ∧ v ≤ b) ∨ (0 ≤ v.val ∧ v.val ≤ top)) (fun v => l.count v)
      (mapIns (t.wrap (x : Int)) 0 h) := by
    refine (hv.tab.ins (t.wrap (x : Int)) 0 (fun hn => absurd hP hn)).congr fun v => ?_
    constructor
    · rintro (h | h)
      · exact h
      · rw [h]; exact hP
    · exact Or.inl
  refine ⟨⟨htab, ?_, hv.lt⟩, htab.at _ hP⟩
  rw [(length_mapIns _ 0 h hv.tab.1).1 ⟨_, (hv.tab.2 _ _).mpr ⟨hP, rfl⟩⟩]
  exact hv.len

/-- The next value below the image. -/
theorem Cov.ins_new (hc : MCtx l a b) {top : Nat} {h : List (Px t × Nat)} (hv : Cov l a b top h) (ha : (top : Int) < a.val)
    (hb' : (top : Int) + 1 < b.val) :
    Cov l a b (top + 1) (mapIns (t.wrap ((top + 1 : Nat) : Int)) 0 h) ∧
    mapAt (t.wrap ((top + 1 : Nat) : Int)) (mapIns (t.wrap ((top + 1 : Nat) : Int)) 0 h) =
      l.count (t.wrap ((top + 1 : Nat) : Int)) := by
  have hb := b.le_hi
  have hab := Px.le_iff.mp hc.ab
  have hw := wrap_nat (t := t) (x := top + 1) (by push_cast; omega)
  have htab : IsTable (fun v => (a ≤ v ∧ v ≤ b) ∨ (0 ≤ v.val ∧ v.val ≤ (top + 1 : Nat))) (fun v => l.count v)
      (mapIns (t.wrap ((top + 1 : Nat) : Int)) 0 h) := by
    refine (hv.tab.ins _ 0 ?_).congr fun v => ?_
    · intro hn
      exact (List.count_eq_zero_of_not_mem fun hm => hn (Or.inl (hc.mem _ hm))).symm
    · rw [Px.ext_iff', hw, or_assoc]
      refine or_congr Iff.rfl ?_
      push_cast
      omega
  refine ⟨⟨htab, ?_, by push_cast; exact hb'⟩, htab.at _ (Or.inr (by rw [hw]; push_cast; omega))⟩
  obtain ⟨l1, l2⟩ := length_mapIns (t.wrap ((top + 1 : Nat) : Int)) 0 h hv.tab.1
  have hlen := hv.len
  rw [if_pos ha] at hlen
  by_cases hin : a.val ≤ (top : Int) + 1
  · rw [l1 ⟨_, (hv.tab.2 _ _).mpr ⟨Or.inl ⟨Px.le_iff.mpr (by rw [hw]; push_cast; omega),
      Px.le_iff.mpr (by rw [hw]; push_cast; omega)⟩, rfl⟩⟩, if_neg (by push_cast; omega)]
    omega
  · rw [l2, if_pos (by push_cast; omega)]
    · push_cast
      omega
    · intro q hq
      rcases ((hv.tab.2 _ _).mp hq).1 with ⟨r1, r2⟩ | ⟨r1, r2⟩
      · have r1' := Px.le_iff.mp r1
        rw [hw] at r1'
        push_cast at r1'
        omega
      · rw [hw] at r2
        push_cast at r2
        omega

/-- Frequency and mean of a class are what they should be. -/
def GoodCls (l : List (Px t)) (K : Nat) (y : Nat → Nat) (f m : Nat → ℚ) (j : Nat) : Prop :=
  f j = (classOf l K y j).length ∧ m j = meanVals (classOf l K y j)

structure MultiInv (l : List (Px t)) (a b : Px t) (K : Nat) (s : MSt t) : Prop where
  valid : ValidT b.val K s.idx
  cov : ∃ top, Cov l a b top s.hist ∧ ((top : Int) < a.val → top = s.idx (K - 1))
  cls : ∀ j, j ≤ K → GoodCls l K s.idx s.f s.m j

theorem low_succ_nat (l : List (Px t)) {x : Nat} (h : ((x + 1 : Nat) : Int) ≤ t.hi) :
    ((lowPart l ((x + 1 : Nat) : Int)).length : ℚ) = (lowPart l (x : Int)).length + l.count (t.wrap ((x + 1 : Nat) : Int)) ∧
    sumVals (lowPart l ((x + 1 : Nat) : Int)) =
      sumVals (lowPart l (x : Int)) + ((x + 1 : Nat) : ℚ) * l.count (t.wrap ((x + 1 : Nat) : Int)) := by
  have hw := wrap_nat (t := t) h
  obtain ⟨q1, q2⟩ := low_succ l (t.wrap ((x + 1 : Nat) : Int))
  rw [hw] at q1 q2
  rw [show ((x + 1 : Nat) : Int) - 1 = x by push_cast; ring] at q1 q2
  refine ⟨q1, ?_⟩
  rw [q2]
  push_cast
  ring

theorem multiVar_eq {K : Nat} {s : MSt t} (h : ∀ j, j ≤ K → GoodCls l K s.idx s.f s.m j) :
    multiVar (meanVals l) K s = betweenVar l K s.idx := by
  unfold multiVar betweenVar
  rw [foldl_addQ (fun j => s.f j * (meanVals l - s.m j) * (meanVals l - s.m j)), zero_add]
  congr 1
  apply List.map_congr_left
  intro j hj
  rw [List.mem_range] at hj
  obtain ⟨h1, h2⟩ := h j (by omega)
  rw [h1, h2]
  ring

theorem multiLast_inv (hc : MCtx l a b) {K : Nat} {s : MSt t} (hv : ValidT b.val K s.idx)
    (hcls : ∀ j, j < K → GoodCls l K s.idx s.f s.m j) :
    (multiLast (meanVals l) l.length K s).idx = s.idx ∧ (multiLast (meanVals l) l.length K s).hist = s.hist ∧
    ∀ j, j ≤ K → GoodCls l K s.idx (multiLast (meanVals l) l.length K s).f (multiLast (meanVals l) l.length K s).m j := by
  refine ⟨rfl, rfl, fun j hj => ?_⟩
  by_cases hjk : j = K
  · subst hjk
    obtain ⟨h1, h2⟩ := class_sums l hc.nonneg hv b.le_hi j le_rfl
    have hall : lowPart l t.hi = l := lowPart_all l fun v _ => v.le_hi
    obtain ⟨e1, e2⟩ := partOf_low l (hv.low_le_up (t := t) b.le_hi (le_refl j))
    have hup : upB t j s.idx j = t.hi := if_neg (lt_irrefl _)
    rw [hup] at e1 e2
    rw [hall] at e1 e2
    have hf : (List.range j).foldl (fun r k => r - s.f k) (l.length : ℚ) = (classOf l j s.idx j).length := by
      rw [foldl_subQ, show (List.range j).map s.f = (List.range j).map fun k => ((classOf l j s.idx k).length : ℚ) from
        List.map_congr_left fun k hk => (hcls k (List.mem_range.mp hk)).1, h1]
      unfold classOf
      rw [hup, e1]
    have hm : (List.range j).foldl (fun r k => r - s.m k * s.f k) (meanVals l * (l.length : ℚ)) = sumVals (classOf l j s.idx j) := by
      rw [foldl_subQ (fun k => s.m k * s.f k),
        show (List.range j).map (fun k => s.m k * s.f k) = (List.range j).map fun k => sumVals (classOf l j s.idx k) from
        List.map_congr_left fun k hk => by
          obtain ⟨q1, q2⟩ := hcls k (List.mem_range.mp hk)
          rw [q1, q2, meanVals_mul], h2, meanVals_mul]
      unfold classOf
      rw [hup, e2]
    unfold GoodCls multiLast upd
    simp only [if_true]
    exact ⟨hf, mean_of _ _ _ hf hm⟩
  · have := hcls j (by omega)
    unfold GoodCls multiLast upd
    simp only [if_neg hjk]
    exact this

/-- What holds in the middle of a step: the classes up to threshold `n` are those of the target `y`. -/
structure PInv (l : List (Px t)) (a b : Px t) (K : Nat) (y : Nat → Nat) (n top : Nat) (s : MSt t) : Prop where
  idx : ∀ i, i ≤ n → s.idx i = y i
  cls : ∀ i, i ≤ n → GoodCls l K y s.f s.m i
  cov : Cov l a b top s.hist

theorem multiNext_inv (hc : MCtx l a b) {K : Nat} {y : Nat → Nat} (hy : ValidT b.val K y) {n top : Nat} {s : MSt t}
    (h : PInv l a b K y n top s) (ha : a.val ≤ top) (hn : n + 1 < K) (hyn : y (n + 1) = y n + 1) :
    PInv l a b K y (n + 1) top (multiNext s (n + 1)) := by
  have hb := b.le_hi
  have hx : s.idx n + 1 = y (n + 1) := by rw [h.idx n le_rfl, hyn]
  have hlt := hy.2 (n + 1) hn
  obtain ⟨hcov, hat⟩ := h.cov.ins_old hc ha (x := y (n + 1)) hlt
  obtain ⟨q1, q2⟩ := low_succ_nat l (x := y n) (by rw [← hyn]; omega)
  rw [← hyn] at q1 q2
  have hlow : lowB y (n + 1) = y n := by unfold lowB; rw [if_neg (by omega)]; rfl
  have hup : upB t K y (n + 1) = y (n + 1) := if_pos hn
  obtain ⟨e1, e2⟩ := partOf_low l (hy.low_le_up (t := t) hb (show n + 1 ≤ K by omega))
  have hf : ((l.count (t.wrap ((y (n + 1) : Nat) : Int)) : Nat) : ℚ) = (classOf l K y (n + 1)).length := by
    unfold classOf
    rw [e1, hlow, hup, q1]
    ring
  have hS : ((y (n + 1) : Nat) : ℚ) * (l.count (t.wrap ((y (n + 1) : Nat) : Int)) : ℚ) = sumVals (classOf l K y (n + 1)) := by
    unfold classOf
    rw [e2, hlow, hup, q2]
    ring
  have hm : (if ((l.count (t.wrap ((y (n + 1) : Nat) : Int)) : Nat) : ℚ) > 0 then ((y (n + 1) : Nat) : ℚ) else 0) =
      meanVals (classOf l K y (n + 1)) := by
    rw [← mean_of (classOf l K y (n + 1)) _ _ hf hS]
    split
    · rename_i hpos
      rw [mul_div_cancel_right₀ _ hpos.ne']
    · rfl
  unfold multiNext
  simp only [Nat.add_sub_cancel, hx, hat]
  refine ⟨?_, ?_, hcov⟩
  · intro i hi
    simp only [upd]
    by_cases e : i = n + 1
    · rw [if_pos e, e]
    · rw [if_neg e]; exact h.idx i (by omega)
  · intro i hi
    unfold GoodCls
    simp only [upd]
    by_cases e : i = n + 1
    · rw [if_pos e, if_pos e, e]
      exact ⟨hf, hm⟩
    · rw [if_neg e, if_neg e]; exact h.cls i (by omega)

theorem next_fold (hc : MCtx l a b) {K j : Nat} {x : Nat → Nat} (hy : ValidT b.val K (succAt j x)) {top : Nat} {s : MSt t}
    (h : PInv l a b K (succAt j x) j top s) (ha : a.val ≤ top) :
    ∀ r, j + r < K → PInv l a b K (succAt j x) (j + r) top ((List.range' (j + 1) r).foldl multiNext s) := by
  intro r
  induction r with
  | zero => intro _; exact h
  | succ r ih =>
    intro hr
    have := ih (by omega)
    rw [List.range'_concat, List.foldl_append]
    simp only [List.foldl_cons, List.foldl_nil, Nat.one_mul]
    rw [show j + 1 + r = j + r + 1 by omega, show j + (r + 1) = j + r + 1 by omega]
    apply multiNext_inv hc hy this ha (by omega)
    unfold succAt
    rw [if_neg (by omega), if_neg (by omega)]
    omega

/-- The increment of one threshold. -/
theorem bump_inv (hc : MCtx l a b) {K j : Nat} {s : MSt t} (hs : MultiInv l a b K s) (hj : j < K)
    (hm : (s.idx j : Int) < b.val - K + j) (htop : ∀ top, Cov l a b top s.hist → (top : Int) < a.val → top = s.idx (K - 1) → j = K - 1) :
    ∃ top, PInv l a b K (succAt j s.idx) j top (multiBump j s) ∧
      (a.val ≤ top ∨ (top = succAt j s.idx (K - 1) ∧ j = K - 1)) := by
  have hb := b.le_hi
  have hv := hs.valid
  have hy := succAt_valid hv hj hm
  have ey : succAt j s.idx j = s.idx j + 1 := by unfold succAt; rw [if_neg (lt_irrefl _)]; omega
  have hltb : ((s.idx j + 1 : Nat) : Int) < b.val := by rw [← ey]; exact hy.2 j hj
  -- the map
  obtain ⟨top, hcov, htp⟩ := hs.cov
  have hmap : ∃ top', Cov l a b top' (mapIns (t.wrap ((s.idx j + 1 : Nat) : Int)) 0 s.hist) ∧
      mapAt (t.wrap ((s.idx j + 1 : Nat) : Int)) (mapIns (t.wrap ((s.idx j + 1 : Nat) : Int)) 0 s.hist) =
        l.count (t.wrap ((s.idx j + 1 : Nat) : Int)) ∧
      (a.val ≤ top' ∨ (top' = succAt j s.idx (K - 1) ∧ j = K - 1)) := by
    by_cases hta : (top : Int) < a.val
    · have e := htp hta
      have ejk := htop top hcov hta e
      rw [← ejk] at e
      subst e
      obtain ⟨c1, c2⟩ := hcov.ins_new hc hta (by push_cast at hltb; exact hltb)
      exact ⟨_, c1, c2, Or.inr ⟨by rw [← ejk, ey], ejk⟩⟩
    · obtain ⟨c1, c2⟩ := hcov.ins_old hc (not_lt.mp hta) hltb
      exact ⟨top, c1, c2, Or.inl (not_lt.mp hta)⟩
  obtain ⟨top', hcov', hat, hcase⟩ := hmap
  refine ⟨top', ⟨?_, ?_, hcov'⟩, hcase⟩
  · intro i hi
    unfold multiBump
    simp only [upd]
    by_cases e : i = j
    · rw [if_pos e, e, ey]
    · rw [if_neg e]; unfold succAt; rw [if_pos (by omega)]
  · intro i hi
    by_cases e : i = j
    · subst e
      obtain ⟨g1, g2⟩ := hs.cls i (by omega)
      have hlow : lowB (succAt i s.idx) i = lowB s.idx i := by
        unfold lowB
        by_cases h0 : i = 0
        · rw [if_pos h0, if_pos h0]
        · rw [if_neg h0, if_neg h0]; unfold succAt; rw [if_pos (by omega)]
      obtain ⟨e1, e2⟩ := partOf_low l (hv.low_le_up (t := t) hb (show i ≤ K by omega))
      obtain ⟨d1, d2⟩ := partOf_low l (hy.low_le_up (t := t) hb (show i ≤ K by omega))
      rw [hlow, show upB t K (succAt i s.idx) i = ((s.idx i + 1 : Nat) : Int) by unfold upB; rw [if_pos hj, ey]] at d1 d2
      rw [show upB t K s.idx i = (s.idx i : Int) from if_pos hj] at e1 e2
      obtain ⟨q1, q2⟩ := low_succ_nat l (x := s.idx i) (by omega)
      have hcl : classOf l K (succAt i s.idx) i = partOf l (lowB s.idx i) ((s.idx i + 1 : Nat) : Int) := by
        unfold classOf
        rw [hlow]
        unfold upB
        rw [if_pos hj, ey]
      have hcl0 : classOf l K s.idx i = partOf l (lowB s.idx i) (s.idx i : Int) := by
        unfold classOf upB
        rw [if_pos hj]
      have hf : s.f i + ((l.count (t.wrap ((s.idx i + 1 : Nat) : Int)) : Nat) : ℚ) = (classOf l K (succAt i s.idx) i).length := by
        rw [hcl, d1, g1, hcl0, e1, q1]
        ring
      have hS : s.m i * s.f i + ((s.idx i + 1 : Nat) : ℚ) * ((l.count (t.wrap ((s.idx i + 1 : Nat) : Int)) : Nat) : ℚ) =
          sumVals (classOf l K (succAt i s.idx) i) := by
        rw [g1, g2, meanVals_mul, hcl, d2, hcl0, e2, q2]
        ring
      unfold GoodCls multiBump
      simp only [upd, if_true, hat]
      exact ⟨hf, mean_of _ _ _ hf hS⟩
    · have := hs.cls i (by omega)
      unfold GoodCls at this ⊢
      unfold multiBump
      simp only [upd, if_neg e]
      rw [classOf_congr l (by omega) (x := succAt j s.idx) (y := s.idx) fun k hk hki => by
        unfold succAt; rw [if_pos (by omega)]]
      exact this

theorem ValidT.congr {b : Int} {K : Nat} {x y : Nat → Nat} (h : ValidT b K x) (e : ∀ i, i < K → x i = y i) : ValidT b K y :=
  ⟨fun i j hij hj => by rw [← e i (by omega), ← e j hj]; exact h.1 i j hij hj, fun i hi => by rw [← e i hi]; exact h.2 i hi⟩

/-- A whole step. -/
theorem multiStep_inv (hc : MCtx l a b) {K j : Nat} {s : MSt t} (hs : MultiInv l a b K s) (hj : j < K)
    (hm : (s.idx j : Int) < b.val - K + j) (htop : ∀ top, Cov l a b top s.hist → (top : Int) < a.val → top = s.idx (K - 1) → j = K - 1) :
    let s' := multiLast (meanVals l) l.length K ((List.range' (j + 1) (K - 1 - j)).foldl multiNext (multiBump j s))
    MultiInv l a b K s' ∧ ∀ i, i < K → s'.idx i = succAt j s.idx i := by
  intro s'
  have hy := succAt_valid hs.valid hj hm
  obtain ⟨top, hp, hcase⟩ := bump_inv hc hs hj hm htop
  have hp' : PInv l a b K (succAt j s.idx) (K - 1) top ((List.range' (j + 1) (K - 1 - j)).foldl multiNext (multiBump j s)) := by
    rcases hcase with h | ⟨-, h⟩
    · have := next_fold hc hy hp h (K - 1 - j) (by omega)
      rw [show j + (K - 1 - j) = K - 1 by omega] at this
      exact this
    · rw [show K - 1 - j = 0 by omega]
      simp only [List.range'_zero, List.foldl_nil]
      rw [← h]
      exact hp
  set s1 := (List.range' (j + 1) (K - 1 - j)).foldl multiNext (multiBump j s) with hs1
  have hidx : ∀ i, i < K → s1.idx i = succAt j s.idx i := fun i hi => hp'.idx i (by omega)
  have hv1 : ValidT b.val K s1.idx := hy.congr fun i hi => (hidx i hi).symm
  have hcls1 : ∀ i, i < K → GoodCls l K s1.idx s1.f s1.m i := by
    intro i hi
    have := hp'.cls i (by omega)
    unfold GoodCls at this ⊢
    rw [classOf_congr l (by omega) fun k hk _ => hidx k hk]
    exact this
  obtain ⟨i1, i2, i3⟩ := multiLast_inv hc hv1 hcls1
  refine ⟨⟨hv1, ⟨top, hp'.cov, fun hta => ?_⟩, i3⟩, hidx⟩
  rcases hcase with h | ⟨h, -⟩
  · omega
  · rw [h]
    exact (hidx (K - 1) (by omega)).symm

/-- The test of line 570. -/
theorem test_iff (hc : MCtx l a b) (hab : a ≠ b) (hhi : t.hi < 2 ^ 32) {K j : Nat} {s : MSt t} (hs : MultiInv l a b K s) (hj : j < K)
    (hK : (K : Int) ≤ b.val) (hmax : ∀ i, j < i → i < K → b.val - K + i ≤ (s.idx i : Int)) :
    (s.idx j < sizeT ((s.hist.length : Int) - 2 - ((K : Int) - 1 - j)) ↔ (s.idx j : Int) < b.val - K + j) ∧
    (∀ top, Cov l a b top s.hist → (top : Int) < a.val → top = s.idx (K - 1) → j = K - 1) := by
  have hlt : a.val < b.val := Px.lt_iff.mp (lt_of_le_of_ne hc.ab hab)
  have hb := b.le_hi
  have h2 : ∀ top, Cov l a b top s.hist → (top : Int) < a.val → top = s.idx (K - 1) → j = K - 1 := by
    intro top _ hta e
    by_contra hne
    have := hmax (K - 1) (by omega) (by omega)
    omega
  refine ⟨?_, h2⟩
  obtain ⟨top, hcov, htp⟩ := hs.cov
  have hlen := hcov.len
  have hnn := hc.nn
  by_cases hta : (top : Int) < a.val
  · have e := htp hta
    have ej := h2 top hcov hta e
    rw [if_pos hta] at hlen
    rw [← ej] at e
    rw [sizeT_of (by omega) (by omega)]
    omega
  · rw [if_neg hta] at hlen
    rw [sizeT_of (by omega) (by omega)]
    omega

theorem try_inv (hc : MCtx l a b) (hab : a ≠ b) (hhi : t.hi < 2 ^ 32) {K : Nat} {s : MSt t} (hs : MultiInv l a b K s)
    (hK : (K : Int) ≤ b.val) :
    ∀ n, n ≤ K → (∀ i, n ≤ i → i < K → b.val - K + i ≤ (s.idx i : Int)) →
    (∃ s' j, multiTry (meanVals l) l.length K s.hist.length n s = some s' ∧ MultiInv l a b K s' ∧ j < K ∧
      (s.idx j : Int) < b.val - K + j ∧
      (∀ i, j < i → i < K → b.val - K + i ≤ (s.idx i : Int)) ∧ ∀ i, i < K → s'.idx i = succAt j s.idx i) ∨
    (multiTry (meanVals l) l.length K s.hist.length n s = none ∧ ∀ i, i < K → b.val - K + i ≤ (s.idx i : Int)) := by
  intro n
  induction n with
  | zero => intro _ h; exact Or.inr ⟨rfl, fun i hi => h i (by omega) hi⟩
  | succ j ih =>
    intro hn hmax
    obtain ⟨h1, h2⟩ := test_iff hc hab hhi hs (j := j) (by omega) hK (fun i h hi => hmax i (by omega) hi)
    by_cases htest : s.idx j < sizeT ((s.hist.length : Int) - 2 - ((K : Int) - 1 - j))
    · left
      obtain ⟨i1, i2⟩ := multiStep_inv hc hs (j := j) (by omega) (h1.mp htest) h2
      refine ⟨_, j, ?_, i1, by omega, h1.mp htest, fun i h hi => hmax i (by omega) hi, i2⟩
      rw [multiTry, if_pos htest]
    · rw [multiTry, if_neg htest]
      apply ih (by omega)
      intro i hi hiK
      by_cases e : i = j
      · rw [e]
        exact not_lt.mp fun h => htest (h1.mpr h)
      · exact hmax i (by omega) hiK

end

end Smil
