import Verif.Extinction
import Verif.WatershedLemmas
import Mathlib.Logic.Relation

/-!
# Invariants of the tables of extinction flooding
-/

namespace Smil

/-! ### The loops on the labels -/

theorem updateEqu_apply (L : Nat) (equ : Nat → Nat) (d e : Nat) (hde : d ≠ e) (i : Nat) :
    updateEqu L equ d e i = if 1 ≤ i ∧ i ≤ L ∧ equ i = d then e else equ i := by
  unfold updateEqu
  induction L with
  | zero =>
    rw [if_neg (by omega)]; rfl
  | succ L ih =>
    rw [List.range'_concat, List.foldl_append]
    simp only [List.foldl_cons, List.foldl_nil, one_mul]
    have hL : (List.range' 1 L).foldl (fun e' i => if e' i = d then Function.update e' i e else e') equ (1 + L)
        = equ (1 + L) := by
      have : ∀ (l : List Nat) (f : Nat → Nat) (k : Nat), k ∉ l →
          l.foldl (fun e' i => if e' i = d then Function.update e' i e else e') f k = f k := by
        intro l
        induction l with
        | nil => intro f k _; rfl
        | cons a l ih2 =>
          intro f k hk
          rw [List.mem_cons, not_or] at hk
          rw [List.foldl_cons, ih2 _ _ hk.2]
          split
          · rw [Function.update_apply, if_neg hk.1]
          · rfl
      exact this _ _ _ (by simp)
    by_cases hi : i = 1 + L
    · subst hi
      by_cases hc : equ (1 + L) = d
      · rw [if_pos (by rw [hL]; exact hc), if_pos ⟨by omega, by omega, hc⟩]; simp
      · rw [if_neg (by rw [hL]; exact hc), if_neg (by tauto), hL]
    · have h1 : (if 1 ≤ i ∧ i ≤ L + 1 ∧ equ i = d then e else equ i) =
          if 1 ≤ i ∧ i ≤ L ∧ equ i = d then e else equ i := by
        by_cases h : 1 ≤ i ∧ i ≤ L ∧ equ i = d
        · rw [if_pos h, if_pos ⟨h.1, by omega, h.2.2⟩]
        · rw [if_neg h, if_neg]; rintro ⟨a, b, c⟩; exact h ⟨a, by omega, c⟩
      rw [h1, ← ih]
      split
      · rw [Function.update_apply, if_neg hi]
      · rfl

/-- What raising all the basins does. -/
theorem raiseAll_spec (K : ExtKind) (L : Nat) (T : ExtTab) (level : Nat) :
    let T' := T.raiseAll K L level
    T'.equ = T.equ ∧ T'.ext = T.ext ∧ T'.area = T.area ∧ T'.minV = T.minV ∧ T'.level = level ∧
      T'.edges = T.edges ∧ T'.eaten = T.eaten ∧
      (K = .volume → ∀ r, (1 ≤ r ∧ r ≤ L ∧ T.equ r = r ∧ T.flood r < level →
        T'.vol r = u32 (T.vol r + T.area r * (level - T.flood r)) ∧ T'.flood r = level) ∧
        (¬ (1 ≤ r ∧ r ≤ L ∧ T.equ r = r ∧ T.flood r < level) →
          T'.vol r = T.vol r ∧ T'.flood r = T.flood r)) := by
  simp only [ExtTab.raiseAll]
  induction L with
  | zero => refine ⟨rfl, rfl, rfl, rfl, rfl, rfl, rfl, fun _ r => ⟨by omega, fun _ => ⟨rfl, rfl⟩⟩⟩
  | succ L ih =>
    rw [List.range'_concat, List.foldl_append]
    simp only [List.foldl_cons, List.foldl_nil, one_mul]
    generalize (List.range' 1 L).foldl (fun T i => if T.equ i = i then T.raise K i else T)
      { T with level := level } = U at ih
    obtain ⟨h1, h2, h3, h4, h5, h6, h7, h8⟩ := ih
    by_cases hc : U.equ (1 + L) = 1 + L
    · rw [if_pos hc]
      cases K with
      | area => exact ⟨h1, h2, h3, h4, h5, h6, h7, by simp⟩
      | dynamic => exact ⟨h1, h2, h3, h4, h5, h6, h7, by simp⟩
      | volume =>
        have g := h8 rfl (1 + L)
        have g' := g.2 (by omega)
        by_cases hf : U.flood (1 + L) < U.level
        · simp only [ExtTab.raise, if_pos hf]
          refine ⟨h1, h2, h3, h4, h5, h6, h7, fun _ r => ?_⟩
          by_cases hr : r = 1 + L
          · subst hr
            refine ⟨fun hh => ?_, fun hh => ?_⟩
            · simp only [Function.update_self]
              rw [h5, h3, g'.1, g'.2]; exact ⟨rfl, rfl⟩
            · exact absurd ⟨by omega, by omega, by rw [← h1]; exact hc, by rw [← g'.2, ← h5]; exact hf⟩ hh
          · simp only [Function.update_apply, if_neg hr]
            refine ⟨fun hh => (h8 rfl r).1 ⟨hh.1, by omega, hh.2.2⟩, fun hh => (h8 rfl r).2 ?_⟩
            rintro ⟨a, b, c⟩; exact hh ⟨a, by omega, c⟩
        · simp only [ExtTab.raise, if_neg hf]
          refine ⟨h1, h2, h3, h4, h5, h6, h7, fun _ r => ?_⟩
          by_cases hr : r = 1 + L
          · subst hr
            rw [h5, g'.2] at hf
            exact ⟨fun hh => absurd hh.2.2.2 hf, fun _ => g'⟩
          · refine ⟨fun hh => (h8 rfl r).1 ⟨hh.1, by omega, hh.2.2⟩, fun hh => (h8 rfl r).2 ?_⟩
            rintro ⟨a, b, c⟩; exact hh ⟨a, by omega, c⟩
    · rw [if_neg hc]
      refine ⟨h1, h2, h3, h4, h5, h6, h7, fun hk r => ?_⟩
      by_cases hr : r = 1 + L
      · subst hr
        rw [h1] at hc
        exact ⟨fun hh => absurd hh.2.2.1 hc, fun _ => (h8 hk _).2 (by omega)⟩
      · refine ⟨fun hh => (h8 hk r).1 ⟨hh.1, by omega, hh.2.2⟩, fun hh => (h8 hk r).2 ?_⟩
        rintro ⟨a, b, c⟩; exact hh ⟨a, by omega, c⟩

/-! ### Masses -/

/-- The sum of `f` over the entries whose label is represented by `r`; an entry is a pair of a value and a
label. -/
def mass (equ : Nat → Nat) (f : Nat → Nat) (ins : List (Nat × Nat)) (r : Nat) : Nat :=
  ((ins.filter fun e => equ e.2 = r).map fun e => f e.1).sum

theorem mass_append (equ : Nat → Nat) (f : Nat → Nat) (a b : List (Nat × Nat)) (r : Nat) :
    mass equ f (a ++ b) r = mass equ f a r + mass equ f b r := by
  simp [mass]

theorem mass_single (equ : Nat → Nat) (f : Nat → Nat) (e : Nat × Nat) (r : Nat) :
    mass equ f [e] r = if equ e.2 = r then f e.1 else 0 := by
  by_cases h : equ e.2 = r <;> simp [mass, h]

theorem mass_cons (equ : Nat → Nat) (f : Nat → Nat) (e : Nat × Nat) (l : List (Nat × Nat)) (r : Nat) :
    mass equ f (e :: l) r = (if equ e.2 = r then f e.1 else 0) + mass equ f l r := by
  rw [← mass_single, ← mass_append]; rfl

theorem mass_merge {equ equ' : Nat → Nat} (f : Nat → Nat) {ins : List (Nat × Nat)} {d e : Nat}
    (hde : d ≠ e) (h : ∀ x ∈ ins, equ' x.2 = if equ x.2 = d then e else equ x.2) (r : Nat) (hr : r ≠ d) :
    mass equ' f ins r = mass equ f ins r + if r = e then mass equ f ins d else 0 := by
  induction ins with
  | nil => simp [mass]
  | cons x l ih =>
    rw [mass_cons, mass_cons, mass_cons, ih (fun y hy => h y (by simp [hy])), h x (by simp)]
    by_cases h1 : equ x.2 = d
    · have h2 : equ x.2 ≠ r := by rw [h1]; exact fun h => hr h.symm
      by_cases h3 : r = e
      · subst h3
        simp [h1, h2]
        rw [if_neg hde]; omega
      · rw [if_pos h1, if_neg (fun hh => h3 hh.symm), if_neg h2, if_neg h3, if_neg h3]; omega
    · rw [if_neg h1]
      by_cases h3 : r = e
      · subst h3; simp [h1]; omega
      · simp [h3]

theorem mass_shift (equ : Nat → Nat) (ins : List (Nat × Nat)) (l l' r : Nat) (hl : l ≤ l')
    (h : ∀ x ∈ ins, x.1 ≤ l) :
    mass equ (fun v => l' - v) ins r = mass equ (fun v => l - v) ins r +
      mass equ (fun _ => 1) ins r * (l' - l) := by
  induction ins with
  | nil => simp [mass]
  | cons x t ih =>
    rw [mass_cons, mass_cons, mass_cons, ih (fun y hy => h y (by simp [hy]))]
    have := h x (by simp)
    by_cases h1 : equ x.2 = r
    · simp only [if_pos h1, Nat.add_mul]; omega
    · simp only [if_neg h1, Nat.add_mul]; omega

theorem u32_add (a b : Nat) : u32 (u32 a + u32 b) = u32 (a + b) := by
  unfold u32; rw [← Nat.add_mod]

theorem u32_add_left (a b : Nat) : u32 (u32 a + b) = u32 (a + b) := by
  unfold u32; rw [Nat.mod_add_mod]

theorem u32_add_mul (a b c : Nat) : u32 (u32 a + u32 b * c) = u32 (a + b * c) := by
  unfold u32
  rw [Nat.add_mod, Nat.mod_mod, Nat.mul_mod, Nat.mod_mod, ← Nat.mul_mod, ← Nat.add_mod]

/-! ### The invariant -/

/-- Two labels joined by the edges recorded so far. -/
def Joined (edges : List (Nat × Nat × Nat)) : Nat → Nat → Prop :=
  Relation.EqvGen fun i j => ∃ w, (i, j, w) ∈ edges

structure TabInv (K : ExtKind) (L top : Nat) (T : ExtTab) (ins : List (Nat × Nat)) : Prop where
  rng : ∀ i, 1 ≤ i → i ≤ L → 1 ≤ T.equ i ∧ T.equ i ≤ L ∧ T.equ (T.equ i) = T.equ i
  out : ∀ i, ¬ (1 ≤ i ∧ i ≤ L) → T.equ i = i
  entry : ∀ x ∈ ins, 1 ≤ x.2 ∧ x.2 ≤ L ∧ x.1 ≤ T.level ∧ x.1 ≤ top
  area : ∀ r, 1 ≤ r → r ≤ L → T.equ r = r → T.area r = u32 (mass T.equ (fun _ => 1) ins r)
  nodup : T.eaten.Nodup
  eaten : ∀ i, i ∈ T.eaten ↔ T.equ i ≠ i
  weights : T.edges.map (fun e => e.2.2) = T.eaten.map T.ext
  ends : ∀ e ∈ T.edges, (1 ≤ e.1 ∧ e.1 ≤ L) ∧ (1 ≤ e.2.1 ∧ e.2.1 ≤ L) ∧ T.equ e.1 = T.equ e.2.1
  join : ∀ i, Joined T.edges i (T.equ i)
  ext : ∀ r, T.equ r = r → T.ext r = 0
  vol : K = .volume → ∀ r, 1 ≤ r → r ≤ L → T.equ r = r →
    T.vol r = u32 (mass T.equ (fun v => T.level - v) ins r) ∧ T.flood r = T.level
  minV : K = .dynamic → ∀ r, 1 ≤ r → r ≤ L → T.equ r = r →
    (∀ x ∈ ins, T.equ x.2 = r → T.minV r ≤ x.1) ∧
    (T.minV r = top ∨ ∃ x ∈ ins, T.equ x.2 = r ∧ T.minV r = x.1)

theorem tabInv_init (K : ExtKind) (L top : Nat) : TabInv K L top (ExtTab.init top) [] where
  rng := fun i h1 h2 => ⟨h1, h2, rfl⟩
  out := fun _ _ => rfl
  entry := by simp
  area := fun r _ _ _ => by simp [ExtTab.init, mass, u32]
  nodup := List.nodup_nil
  eaten := fun i => by simp [ExtTab.init]
  weights := rfl
  ends := by simp [ExtTab.init]
  join := fun i => Relation.EqvGen.refl _
  ext := fun _ _ => rfl
  vol := fun _ r _ _ _ => by simp [ExtTab.init, mass, u32]
  minV := fun _ r _ _ _ => by simp [ExtTab.init]

theorem TabInv.joined_iff {K : ExtKind} {L top : Nat} {T : ExtTab} {ins : List (Nat × Nat)}
    (h : TabInv K L top T ins) (i j : Nat) : Joined T.edges i j ↔ T.equ i = T.equ j := by
  constructor
  · intro hj
    induction hj with
    | rel x y hw => obtain ⟨w, hw⟩ := hw; exact (h.ends _ hw).2.2
    | refl => rfl
    | symm x y _ ih => exact ih.symm
    | trans x y z _ _ ih1 ih2 => exact ih1.trans ih2
  · intro e
    have h2 := h.join j
    rw [← e] at h2
    exact (h.join i).trans _ _ _ (h2.symm)

theorem tabInv_insert {K : ExtKind} {L top : Nat} {T : ExtTab} {ins : List (Nat × Nat)}
    (h : TabInv K L top T ins) {v l : Nat} (h1 : 1 ≤ l) (h2 : l ≤ L) (hv : v ≤ T.level) (ht : v ≤ top) :
    TabInv K L top (T.insert K v (T.equ l)) (ins ++ [(v, l)]) := by
  have hf : (T.insert K v (T.equ l)).equ = T.equ ∧ (T.insert K v (T.equ l)).ext = T.ext ∧
      (T.insert K v (T.equ l)).level = T.level ∧ (T.insert K v (T.equ l)).edges = T.edges ∧
      (T.insert K v (T.equ l)).eaten = T.eaten ∧
      (T.insert K v (T.equ l)).area = Function.update T.area (T.equ l) (u32 (T.area (T.equ l) + 1)) := by
    cases K <;> exact ⟨rfl, rfl, rfl, rfl, rfl, rfl⟩
  obtain ⟨f1, f2, f3, f4, f5, f6⟩ := hf
  obtain ⟨r1, r2, r3⟩ := h.rng l h1 h2
  refine ⟨by rw [f1]; exact h.rng, by rw [f1]; exact h.out, ?_, ?_, by rw [f5]; exact h.nodup,
    by rw [f5, f1]; exact h.eaten, by rw [f4, f5, f2]; exact h.weights, by rw [f4, f1]; exact h.ends,
    by rw [f4, f1]; exact h.join, by rw [f1, f2]; exact h.ext, ?_, ?_⟩
  · intro x hx
    rw [f3]
    rcases List.mem_append.mp hx with hx | hx
    · exact h.entry x hx
    · rw [List.mem_singleton] at hx; subst hx; exact ⟨h1, h2, hv, ht⟩
  · intro r a b c
    rw [f1] at c ⊢
    rw [f6, mass_append, mass_single, Function.update_apply]
    by_cases e : r = T.equ l
    · rw [if_pos e, if_pos e.symm, ← e, h.area r a b c, u32_add_left]
    · rw [if_neg e, if_neg (fun x => e x.symm), h.area r a b c]; rfl
  · intro hk r a b c
    subst hk
    simp only [ExtTab.insert] at c ⊢
    obtain ⟨g1, g2⟩ := h.vol rfl r a b c
    rw [mass_append, mass_single, Function.update_apply, Function.update_apply]
    by_cases e : r = T.equ l
    · rw [if_pos e, if_pos e, if_pos e.symm, ← e, g1, g2, u32_add_left]; simp
    · rw [if_neg e, if_neg e, if_neg (fun x => e x.symm), g1, g2]; simp
  · intro hk r a b c
    subst hk
    simp only [ExtTab.insert] at c ⊢
    obtain ⟨g1, g2⟩ := h.minV rfl r a b c
    by_cases e : r = T.equ l
    · by_cases hm : v < T.minV (T.equ l)
      · rw [if_pos hm, ← e, Function.update_self]
        refine ⟨fun x hx hxr => ?_, Or.inr ⟨(v, l), by simp, e.symm, rfl⟩⟩
        rcases List.mem_append.mp hx with hx | hx
        · have := g1 x hx hxr; rw [e] at this; omega
        · rw [List.mem_singleton] at hx; subst hx; exact le_refl _
      · rw [if_neg hm]
        refine ⟨fun x hx hxr => ?_, g2.imp id fun ⟨x, hx, hy⟩ => ⟨x, by simp [hx], hy⟩⟩
        rcases List.mem_append.mp hx with hx | hx
        · exact g1 x hx hxr
        · rw [List.mem_singleton] at hx; subst hx; rw [e]; simp only; omega
    · have hsame : (if v < T.minV (T.equ l) then Function.update T.minV (T.equ l) v else T.minV) r =
          T.minV r := by
        split
        · rw [Function.update_apply, if_neg e]
        · rfl
      rw [hsame]
      refine ⟨fun x hx hxr => ?_, g2.imp id fun ⟨x, hx, hy⟩ => ⟨x, by simp [hx], hy⟩⟩
      rcases List.mem_append.mp hx with hx | hx
      · exact g1 x hx hxr
      · rw [List.mem_singleton] at hx; subst hx; exact absurd hxr.symm e

theorem tabInv_raise {K : ExtKind} {L top : Nat} {T : ExtTab} {ins : List (Nat × Nat)}
    (h : TabInv K L top T ins) {level : Nat} (hl : T.level < level) :
    TabInv K L top (T.raiseAll K L level) ins := by
  have hs := raiseAll_spec K L T level
  generalize T.raiseAll K L level = T' at hs
  obtain ⟨h1, h2, h3, h4, h5, h6, h7, h8⟩ := hs
  refine ⟨by rw [h1]; exact h.rng, by rw [h1]; exact h.out, ?_, by rw [h1, h3]; exact h.area,
    by rw [h7]; exact h.nodup, by rw [h7, h1]; exact h.eaten, by rw [h6, h7, h2]; exact h.weights,
    by rw [h6, h1]; exact h.ends, by rw [h6, h1]; exact h.join, by rw [h1, h2]; exact h.ext, ?_,
    by rw [h1, h4]; exact h.minV⟩
  · intro x hx
    obtain ⟨a, b, c, d⟩ := h.entry x hx
    exact ⟨a, b, by omega, d⟩
  · intro hk r a b c
    rw [h1] at c ⊢
    obtain ⟨g1, g2⟩ := h.vol hk r a b c
    obtain ⟨k1, k2⟩ := (h8 hk r).1 ⟨a, b, c, by omega⟩
    rw [k1, k2, h5, g1, g2, h.area r a b c, u32_add_mul]
    refine ⟨?_, rfl⟩
    rw [mass_shift T.equ ins T.level level r (by omega) fun x hx => (h.entry x hx).2.2.1]

/-- The winner is at least as important as the absorbed basin: larger area, larger volume or lower minimum;
ties are decided by the lower minimum, the lower flood level and the larger area. -/
def Prefers (K : ExtKind) (T : ExtTab) (e d : Nat) : Prop :=
  match K with
  | .area => T.area d < T.area e ∨ T.area d = T.area e ∧ T.minV e ≤ T.minV d
  | .volume => T.vol d < T.vol e ∨ T.vol d = T.vol e ∧ T.flood e ≤ T.flood d
  | .dynamic => T.minV e < T.minV d ∨ T.minV e = T.minV d ∧ T.area d ≤ T.area e

theorem mergeBasins_spec (K : ExtKind) (eb : Nat) (T : ExtTab) (l1 l2 : Nat) (hne : l1 ≠ l2) :
    ∃ e d, ((e = l1 ∧ d = l2) ∨ (e = l2 ∧ d = l1)) ∧ Prefers K T e d ∧
      (T.mergeBasins K eb l1 l2).1 = e ∧
      (T.mergeBasins K eb l1 l2).2 = { T with
        ext := Function.update T.ext d (T.value K d % 2 ^ eb)
        area := Function.update T.area e (u32 (T.area e + T.area d))
        vol := if K = .volume then Function.update T.vol e (u32 (T.vol e + T.vol d)) else T.vol } := by
  by_cases hw : T.firstWins K l1 l2 = true
  · refine ⟨l1, l2, Or.inl ⟨rfl, rfl⟩, ?_, by simp [ExtTab.mergeBasins, hw], ?_⟩
    · cases K <;> simp only [ExtTab.firstWins, Bool.or_eq_true, Bool.and_eq_true, decide_eq_true_eq] at hw <;>
        simp only [Prefers] <;> omega
    · cases K <;> simp [ExtTab.mergeBasins, hw]
  · refine ⟨l2, l1, Or.inr ⟨rfl, rfl⟩, ?_, by simp [ExtTab.mergeBasins, hw], ?_⟩
    · cases K <;> simp only [ExtTab.firstWins, Bool.or_eq_true, Bool.and_eq_true, decide_eq_true_eq] at hw <;>
        simp only [Prefers] <;> omega
    · cases K <;> simp [ExtTab.mergeBasins, hw]

/-- A merge of two labels that are represented by different basins. -/
theorem mergeOne_spec {K : ExtKind} {L top eb : Nat} {T : ExtTab} {ins : List (Nat × Nat)}
    (h : TabInv K L top T ins) {a b : Nat} (ha : 1 ≤ a ∧ a ≤ L) (hb : 1 ≤ b ∧ b ≤ L)
    (hne : T.equ a ≠ T.equ b) :
    ∃ T' e d, T.mergeOne K L eb (a, b) = some T' ∧
      ((e = T.equ a ∧ d = T.equ b) ∨ (e = T.equ b ∧ d = T.equ a)) ∧ Prefers K T e d ∧
      (∀ i, T'.equ i = if T.equ i = d then e else T.equ i) ∧
      T'.ext = Function.update T.ext d (T.value K d % 2 ^ eb) ∧
      T'.area = Function.update T.area e (u32 (T.area e + T.area d)) ∧
      T'.vol = (if K = .volume then Function.update T.vol e (u32 (T.vol e + T.vol d)) else T.vol) ∧
      T'.minV = T.minV ∧ T'.flood = T.flood ∧ T'.level = T.level ∧ T'.eaten = T.eaten ++ [d] ∧
      ((e = T.equ a ∧ T'.edges = T.edges ++ [(a, b, T.value K d % 2 ^ eb)]) ∨
        (e = T.equ b ∧ T'.edges = T.edges ++ [(b, a, T.value K d % 2 ^ eb)])) := by
  obtain ⟨e, d, h1, h2, h3, h4⟩ := mergeBasins_spec K eb T (T.equ a) (T.equ b) hne
  have hde : d ≠ e := by rcases h1 with ⟨x, y⟩ | ⟨x, y⟩ <;> rw [x, y]; exacts [hne.symm, hne]
  have hd : (if e = T.equ a then T.equ b else T.equ a) = d := by
    rcases h1 with ⟨rfl, y⟩ | ⟨rfl, y⟩
    · rw [if_pos rfl, y]
    · rw [if_neg (fun x => hne x.symm), y]
  have hdr : 1 ≤ d ∧ d ≤ L := by
    have := h.rng a ha.1 ha.2
    have := h.rng b hb.1 hb.2
    rcases h1 with ⟨_, rfl⟩ | ⟨_, rfl⟩ <;> omega
  have hrun : T.mergeOne K L eb (a, b) = some
      { (T.mergeBasins K eb (T.equ a) (T.equ b)).2 with
        edges := (T.mergeBasins K eb (T.equ a) (T.equ b)).2.edges ++ [(if e = T.equ a then a else b,
          if e = T.equ a then b else a, (T.mergeBasins K eb (T.equ a) (T.equ b)).2.ext d)]
        equ := updateEqu L (T.mergeBasins K eb (T.equ a) (T.equ b)).2.equ d e
        eaten := (T.mergeBasins K eb (T.equ a) (T.equ b)).2.eaten ++ [d] } := by
    simp only [ExtTab.mergeOne, ExtTab.rd, if_pos ha.2, if_pos hb.2, Option.bind_eq_bind, Option.bind_some,
      if_pos hne, h3, hd]
    rfl
  refine ⟨_, e, d, hrun, h1, h2, ?_, by rw [h4], by rw [h4], by rw [h4], by rw [h4], by rw [h4],
    by rw [h4], by rw [h4], ?_⟩
  · intro i
    simp only [h4]
    rw [updateEqu_apply L _ d e hde]
    by_cases hi : T.equ i = d
    · rw [if_pos hi, if_pos]
      refine ⟨?_, ?_, hi⟩ <;>
      · by_contra hc
        have := h.out i (by omega)
        omega
    · rw [if_neg hi, if_neg (by tauto)]
  · simp only [h4, Function.update_self]
    by_cases he : e = T.equ a
    · left; rw [if_pos he, if_pos he]; exact ⟨he, rfl⟩
    · right; rw [if_neg he, if_neg he]
      exact ⟨by rcases h1 with ⟨x, _⟩ | ⟨x, _⟩; exacts [absurd x he, x], rfl⟩

theorem mergeOne_same {K : ExtKind} {L eb : Nat} {T : ExtTab} {a b : Nat} (ha : a ≤ L) (hb : b ≤ L)
    (he : T.equ a = T.equ b) : T.mergeOne K L eb (a, b) = some T := by
  simp [ExtTab.mergeOne, ExtTab.rd, ha, hb, he]

theorem joined_mono {E E' : List (Nat × Nat × Nat)} (h : ∀ e ∈ E, e ∈ E') {i j : Nat}
    (hj : Joined E i j) : Joined E' i j := by
  induction hj with
  | rel x y hw => obtain ⟨w, hw⟩ := hw; exact .rel _ _ ⟨w, h _ hw⟩
  | refl => exact .refl _
  | symm x y _ ih => exact ih.symm
  | trans x y z _ _ ih1 ih2 => exact ih1.trans _ _ _ ih2

theorem tabInv_merge {K : ExtKind} {L top eb : Nat} {T T' : ExtTab} {ins : List (Nat × Nat)}
    (h : TabInv K L top T ins) {a b : Nat} (ha : 1 ≤ a ∧ a ≤ L) (hb : 1 ≤ b ∧ b ≤ L)
    (hm : T.mergeOne K L eb (a, b) = some T') : TabInv K L top T' ins := by
  by_cases hne : T.equ a = T.equ b
  · rw [mergeOne_same ha.2 hb.2 hne] at hm
    cases hm; exact h
  obtain ⟨T1, e, d, g0, g1, g2, gq, gx, ga, gv, gm, gf, gl, ge, gE⟩ := mergeOne_spec (eb := eb) h ha hb hne
  rw [g0] at hm; cases hm
  have ra := h.rng a ha.1 ha.2
  have rb := h.rng b hb.1 hb.2
  have hde : d ≠ e := by rcases g1 with ⟨x, y⟩ | ⟨x, y⟩ <;> rw [x, y]; exacts [fun x => hne x.symm, hne]
  have re : 1 ≤ e ∧ e ≤ L ∧ T.equ e = e := by rcases g1 with ⟨rfl, _⟩ | ⟨rfl, _⟩ <;> assumption
  have rd : 1 ≤ d ∧ d ≤ L ∧ T.equ d = d := by rcases g1 with ⟨_, rfl⟩ | ⟨_, rfl⟩ <;> assumption
  have hlive : ∀ r, T'.equ r = r ↔ T.equ r = r ∧ r ≠ d := by
    intro r
    rw [gq]
    by_cases hr : T.equ r = d
    · rw [if_pos hr]
      constructor
      · intro x
        rw [← x, re.2.2] at hr; exact absurd hr.symm hde
      · rintro ⟨x, y⟩; rw [x] at hr; exact absurd hr y
    · rw [if_neg hr]
      exact ⟨fun x => ⟨x, fun y => hr (by rw [x, y])⟩, fun x => x.1⟩
  have hmass : ∀ f r, r ≠ d → mass T'.equ f ins r = mass T.equ f ins r +
      if r = e then mass T.equ f ins d else 0 := fun f r hr => mass_merge f hde (fun x _ => gq x.2) r hr
  have hE : ∃ p q, ((p = a ∧ q = b) ∨ (p = b ∧ q = a)) ∧ T'.edges = T.edges ++ [(p, q, T.value K d % 2 ^ eb)] ∧
      T.equ p = e ∧ T.equ q = d := by
    rcases gE with ⟨x, y⟩ | ⟨x, y⟩
    · exact ⟨a, b, Or.inl ⟨rfl, rfl⟩, y, x.symm, by
        rcases g1 with ⟨_, z⟩ | ⟨z, _⟩; exacts [z.symm, absurd (x.symm.trans z) hne]⟩
    · exact ⟨b, a, Or.inr ⟨rfl, rfl⟩, y, x.symm, by
        rcases g1 with ⟨z, _⟩ | ⟨_, z⟩; exacts [absurd (z.symm.trans x) hne, z.symm]⟩
  obtain ⟨p, q, hpq, hE, hp, hq⟩ := hE
  have hsub : ∀ x ∈ T.edges, x ∈ T'.edges := fun x hx => by rw [hE]; simp [hx]
  have hdn : d ∉ T.eaten := by rw [h.eaten]; exact fun x => x rd.2.2
  refine ⟨?_, ?_, by rw [gl]; exact h.entry, ?_, ?_, ?_, ?_, ?_, ?_, ?_, ?_, ?_⟩
  · intro i h1 h2
    obtain ⟨i1, i2, i3⟩ := h.rng i h1 h2
    rw [gq i]
    by_cases hi : T.equ i = d
    · rw [if_pos hi]
      exact ⟨re.1, re.2.1, by rw [gq, re.2.2, if_neg hde.symm]⟩
    · rw [if_neg hi]
      exact ⟨i1, i2, by rw [gq, i3, if_neg hi]⟩
  · intro i hi
    rw [gq, h.out i hi, if_neg]
    rintro rfl; exact hi ⟨rd.1, rd.2.1⟩
  · intro r h1 h2 h3
    obtain ⟨h3, h4⟩ := (hlive r).mp h3
    rw [hmass _ r h4, ga, Function.update_apply]
    by_cases hr : r = e
    · rw [if_pos hr, if_pos hr, ← hr, h.area r h1 h2 h3, h.area d rd.1 rd.2.1 rd.2.2, u32_add]
    · rw [if_neg hr, if_neg hr, h.area r h1 h2 h3]; rfl
  · rw [ge, List.nodup_append]
    refine ⟨h.nodup, by simp, fun x hx y hy => ?_⟩
    rw [List.mem_singleton] at hy; subst hy
    rintro rfl; exact hdn hx
  · intro i
    rw [ge, List.mem_append, List.mem_singleton, h.eaten, ne_eq, ne_eq, hlive i]
    tauto
  · rw [hE, ge, List.map_append, List.map_append, h.weights, gx]
    simp only [List.map_cons, List.map_nil, Function.update_self]
    congr 1
    apply List.map_congr_left
    intro x hx
    rw [Function.update_apply, if_neg]
    rintro rfl; exact hdn hx
  · intro x hx
    rw [hE, List.mem_append, List.mem_singleton] at hx
    rcases hx with hx | rfl
    · obtain ⟨k1, k2, k3⟩ := h.ends x hx
      exact ⟨k1, k2, by rw [gq, gq, k3]⟩
    · refine ⟨?_, ?_, ?_⟩
      · rcases hpq with ⟨rfl, rfl⟩ | ⟨rfl, rfl⟩ <;> assumption
      · rcases hpq with ⟨rfl, rfl⟩ | ⟨rfl, rfl⟩ <;> assumption
      · simp only
        rw [gq, gq, hp, hq, if_pos rfl, if_neg hde.symm]
  · intro i
    have h1 := joined_mono hsub (h.join i)
    rw [gq]
    by_cases hi : T.equ i = d
    · rw [if_pos hi]
      rw [hi] at h1
      have h2 := joined_mono hsub (h.join p)
      have h3 := joined_mono hsub (h.join q)
      rw [hp] at h2; rw [hq] at h3
      have h4 : Joined T'.edges p q := Relation.EqvGen.rel _ _ ⟨T.value K d % 2 ^ eb, by rw [hE]; simp⟩
      exact h1.trans _ _ _ (h3.symm.trans _ _ _ (h4.symm.trans _ _ _ h2))
    · rw [if_neg hi]; exact h1
  · intro r hr
    obtain ⟨h3, h4⟩ := (hlive r).mp hr
    rw [gx, Function.update_apply, if_neg h4]; exact h.ext r h3
  · intro hk r h1 h2 h3
    obtain ⟨h3, h4⟩ := (hlive r).mp h3
    rw [gl, gf, hmass _ r h4, gv, if_pos hk, Function.update_apply]
    refine ⟨?_, (h.vol hk r h1 h2 h3).2⟩
    by_cases hr : r = e
    · rw [if_pos hr, if_pos hr, ← hr, (h.vol hk r h1 h2 h3).1, (h.vol hk d rd.1 rd.2.1 rd.2.2).1, u32_add]
    · rw [if_neg hr, if_neg hr, (h.vol hk r h1 h2 h3).1]; rfl
  · intro hk r h1 h2 h3
    obtain ⟨h3, h4⟩ := (hlive r).mp h3
    rw [gm]
    obtain ⟨k1, k2⟩ := h.minV hk r h1 h2 h3
    have hle : T.minV e ≤ T.minV d := by subst hk; simp only [Prefers] at g2; omega
    refine ⟨fun x hx hr => ?_, k2.imp id fun ⟨x, hx, hy, hz⟩ => ⟨x, hx, ?_, hz⟩⟩
    · rw [gq] at hr
      by_cases hd' : T.equ x.2 = d
      · rw [if_pos hd'] at hr
        rw [← hr]
        exact hle.trans ((h.minV hk d rd.1 rd.2.1 rd.2.2).1 x hx hd')
      · rw [if_neg hd'] at hr; exact k1 x hx hr
    · rw [gq, hy, if_neg h4]

/-! ### Sequences of operations -/

/-- The tables reached by a sequence of operations on basins `1 .. L`: pixels of value `v` inserted in the basin
of label `l`, changes to a higher level, merges. `ins` lists the inserted pixels (value and label). -/
inductive ExtReach (K : ExtKind) (L eb top : Nat) : ExtTab → List (Nat × Nat) → Prop
  | init : ExtReach K L eb top (ExtTab.init top) []
  | insert {T ins v l} : ExtReach K L eb top T ins → 1 ≤ l → l ≤ L → v ≤ T.level → v ≤ top →
      ExtReach K L eb top (T.insert K v (T.equ l)) (ins ++ [(v, l)])
  | raise {T ins level} : ExtReach K L eb top T ins → T.level < level →
      ExtReach K L eb top (T.raiseAll K L level) ins
  | merge {T T' ins a b} : ExtReach K L eb top T ins → 1 ≤ a ∧ a ≤ L → 1 ≤ b ∧ b ≤ L →
      T.mergeOne K L eb (a, b) = some T' → ExtReach K L eb top T' ins

theorem ExtReach.inv {K : ExtKind} {L eb top : Nat} {T : ExtTab} {ins : List (Nat × Nat)}
    (h : ExtReach K L eb top T ins) : TabInv K L top T ins := by
  induction h with
  | init => exact tabInv_init K L top
  | insert _ h1 h2 h3 h4 ih => exact tabInv_insert ih h1 h2 h3 h4
  | raise _ h1 ih => exact tabInv_raise ih h1
  | merge _ ha hb hm ih => exact tabInv_merge ih ha hb hm

end Smil
