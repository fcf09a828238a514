import Verif.DistanceLemmas
import Verif.Residues
import Verif.Flood

/-!
# The generic distance and the choice of the distance function

Morpho/include/private/DMorphoDistance.hpp:69-201.
-/

namespace Smil
section
variable {t1 t2 : PT}

/-- The offsets reached from `cur`, DMorphoDistance.hpp:159-181: unlike in the other queue algorithms the
origin of the element is not skipped. -/
def genOffs (D : Dims) (se : StrElt) (cur : Nat) : List Nat :=
  se.points.filterMap fun b =>
    if Img.In D (reachPt se (coordPt D cur) b) then some (offOf D (reachPt se (coordPt D cur) b)) else none

/-- Output buffer and `next_level`. -/
structure GenSt (t2 : PT) where
  out : Nat → Px t2
  next : List Nat

/-- A neighbour of the current pixel, DMorphoDistance.hpp:178-182. -/
def genVisit (fg : Nat → Bool) (lev : Px t2) (s : GenSt t2) (n : Nat) : GenSt t2 :=
  if s.out n = Px.zero ∧ fg n = true then ⟨Function.update s.out n lev, s.next ++ [n]⟩ else s

/-- The loop over `level`, DMorphoDistance.hpp:155-186. -/
def genLevel (adj : Nat → List Nat) (fg : Nat → Bool) (lev : Px t2) (out : Nat → Px t2) (level : List Nat) :
    GenSt t2 :=
  level.foldl (fun s cur => (adj cur).foldl (genVisit fg lev) s) ⟨out, []⟩

/-- `++cur_level`, DMorphoDistance.hpp:187; `none`: overflow of a signed type as wide as `int`. -/
def genNext (lev : Px t2) : Option (Px t2) :=
  if t2.signed = true ∧ 16 < t2.bits ∧ lev = ⊤ then none else some (t2.wrap (lev.val + 1))

/-- The outer loop, DMorphoDistance.hpp:154-192. `none`: overflow, or fuel exhausted. -/
def genLoop (adj : Nat → List Nat) (fg : Nat → Bool) : Nat → Px t2 → (Nat → Px t2) → List Nat →
    Option (Nat → Px t2)
  | 0, _, _, _ => none
  | fuel + 1, lev, out, level =>
    let s := genLevel adj fg lev out level
    match genNext lev with
    | none => none
    | some lev' => if s.next = [] then some s.out else genLoop adj fg fuel lev' s.out s.next

/-- Lines 114-118, the demi-gradient: `inf(imIn, 1)` minus its erosion. -/
def genSeeds (E : Env (Px t1)) (se : StrElt) (im : Img (Px t1)) : Option (Except Int (Img (Px t1))) :=
  let tmp : Img (Px t1) := ⟨im.dims, fun i => kInf (im.buf i) (t1.wrap 1)⟩
  andThen (erode E false se tmp ⟨im.dims, E.raw⟩) fun e => subImg E tmp e tmp

/-- `distGeneric`, DMorphoDistance.hpp:108-201, for distinct input and output images. Every failing step
returns an error; the seeds are copied to the output type (a conversion) and the positive ones are set to 1. -/
def distGeneric (auto : Bool) (E : Env (Px t1)) (se : StrElt) (im : Img (Px t1)) (dout : Dims) :
    Option (Except Int (Img (Px t2))) :=
  match checkDims auto im.dims dout with
  | .error c => some (.error c)
  | .ok _ =>
    (genSeeds E se im).bind fun s => match s with
    | .error c => some (.error c)
    | .ok s =>
      let seed : Nat → Bool := fun i => t2.wrap (s.buf i).val > Px.zero
      let out : Nat → Px t2 := fun i => if seed i then t2.wrap 1 else t2.wrap (s.buf i).val
      (genLoop (genOffs im.dims se) (fun i => im.buf i > Px.zero) (2 * im.dims.count + 2) (t2.wrap 2) out
        ((List.range im.dims.count).filter seed)).map fun o => .ok ⟨im.dims, o⟩

/-- `DistanceFunctor::distance`, DMorphoDistance.hpp:69-88. -/
def distance (auto : Bool) (E : Env (Px t1)) (se : StrElt) (im : Img (Px t1)) (dout : Dims) :
    Option (Except Int (Img (Px t2))) :=
  if se.size > 1 then distGeneric auto E se im dout
  else match se.seT with
  | .cross => some (distCross auto im dout)
  | .cross3D => distCross3d auto im dout
  | .squ => distSquare auto im dout
  | _ => distGeneric auto E se im dout

end

/-! ### Levels of a graph -/

section
variable (adj : Nat → List Nat) (N : Nat) (fg : Nat → Bool)

/-- A walk of `n` steps. -/
inductive GWalk : Nat → Nat → Nat → Prop
  | nil (z) : GWalk 0 z z
  | snoc {n z c i} : GWalk n z c → i ∈ adj c → GWalk (n + 1) z i

/-- The numbers of steps from a background offset. -/
def GLens (i : Nat) : Set Nat := {n | ∃ z < N, fg z = false ∧ GWalk adj n z i}

/-- `i` is at distance `k` of the background. -/
def GLvl (k i : Nat) : Prop := IsLeast (GLens adj N fg i) k

variable {adj N fg}

theorem GLvl.unique {j k i : Nat} (h1 : GLvl adj N fg j i) (h2 : GLvl adj N fg k i) : j = k :=
  IsLeast.unique h1 h2

theorem glens_exists {i n : Nat} (h : n ∈ GLens adj N fg i) : ∃ k ≤ n, GLvl adj N fg k i := by
  classical
  have hex : ∃ n, n ∈ GLens adj N fg i := ⟨n, h⟩
  exact ⟨Nat.find hex, Nat.find_min' hex h, Nat.find_spec hex, fun m hm => Nat.find_min' hex hm⟩

theorem GLvl.lt (hadj : ∀ i < N, ∀ j ∈ adj i, j < N) {k i : Nat} (h : GLvl adj N fg k i) : i < N := by
  obtain ⟨⟨z, hz, _, hw⟩, _⟩ := h
  clear * - hadj hz hw
  induction hw with
  | nil => exact hz
  | snoc _ hm ih => exact hadj _ (ih hz) _ hm

theorem glvl_zero {i : Nat} (hi : i < N) : GLvl adj N fg 0 i ↔ fg i = false := by
  constructor
  · rintro ⟨⟨z, _, h, hw⟩, _⟩
    cases hw; exact h
  · intro h
    exact ⟨⟨i, hi, h, .nil i⟩, fun _ _ => Nat.zero_le _⟩

theorem glvl_succ {k i : Nat} : GLvl adj N fg (k + 1) i ↔
    (∃ c, GLvl adj N fg k c ∧ i ∈ adj c) ∧ ∀ j ≤ k, ¬ GLvl adj N fg j i := by
  constructor
  · intro h
    refine ⟨?_, fun j hj h' => by have := h.unique h'; omega⟩
    obtain ⟨⟨z, hz, hf, hw⟩, hmin⟩ := h
    cases hw with
    | @snoc _ _ c _ hw hm =>
      obtain ⟨k', hk', h'⟩ := glens_exists (adj := adj) (N := N) (fg := fg) ⟨z, hz, hf, hw⟩
      obtain ⟨z', hz', hf', hw'⟩ := h'.1
      have := hmin ⟨z', hz', hf', .snoc hw' hm⟩
      have : k' = k := by omega
      subst this
      exact ⟨c, h', hm⟩
  · rintro ⟨⟨c, hc, hm⟩, hno⟩
    obtain ⟨z, hz, hf, hw⟩ := hc.1
    obtain ⟨k', hk', h'⟩ := glens_exists (adj := adj) (N := N) (fg := fg) ⟨z, hz, hf, .snoc hw hm⟩
    have : k' = k + 1 := by
      rcases Nat.lt_or_ge k' (k + 1) with hl | hl
      · exact absurd h' (hno k' (by omega))
      · omega
    rwa [this] at h'

end

section
variable {t2 : PT} {adj : Nat → List Nat} {fg : Nat → Bool}

theorem genLevel_flat (lev : Px t2) (out : Nat → Px t2) (level : List Nat) :
    genLevel adj fg lev out level = (level.flatMap adj).foldl (genVisit fg lev) ⟨out, []⟩ := by
  unfold genLevel
  rw [List.foldl_flatMap]

theorem genVisit_fold (lev : Px t2) (hlev : lev ≠ Px.zero) (T : List Nat) (s : GenSt t2) :
    (∀ i, (T.foldl (genVisit fg lev) s).out i =
      if i ∈ T ∧ s.out i = Px.zero ∧ fg i = true then lev else s.out i) ∧
    ∀ i, i ∈ (T.foldl (genVisit fg lev) s).next ↔ i ∈ s.next ∨ (i ∈ T ∧ s.out i = Px.zero ∧ fg i = true) := by
  induction T generalizing s with
  | nil => simp
  | cons a T ih =>
    rw [List.foldl_cons]
    obtain ⟨h1, h2⟩ := ih (genVisit fg lev s a)
    by_cases hc : s.out a = Px.zero ∧ fg a = true
    · have e : genVisit fg lev s a = ⟨Function.update s.out a lev, s.next ++ [a]⟩ := by
        unfold genVisit; rw [if_pos hc]
      rw [e] at h1 h2 ⊢
      constructor
      · intro i
        rw [h1]
        simp only
        by_cases hi : i = a
        · subst hi
          simp [hlev, hc.1, hc.2]
        · simp [hi]
      · intro i
        rw [h2]
        simp only
        by_cases hi : i = a
        · subst hi; simp [hc.1, hc.2]
        · simp [hi]
    · have e : genVisit fg lev s a = s := by unfold genVisit; rw [if_neg hc]
      rw [e] at h1 h2 ⊢
      constructor
      · intro i
        rw [h1]
        by_cases hi : i = a
        · subst hi; simp [hc]
        · simp [hi]
      · intro i
        rw [h2]
        by_cases hi : i = a
        · subst hi; simp [hc]
        · simp [hi]

theorem genVisit_none (lev : Px t2) (T : List Nat) (s : GenSt t2)
    (h : ∀ i ∈ T, ¬ (s.out i = Px.zero ∧ fg i = true)) : T.foldl (genVisit fg lev) s = s := by
  induction T with
  | nil => rfl
  | cons a T ih =>
    rw [List.foldl_cons]
    have e : genVisit fg lev s a = s := by
      unfold genVisit; rw [if_neg (h a List.mem_cons_self)]
    rw [e]
    exact ih fun i hi => h i (List.mem_cons_of_mem _ hi)

/-- Before the loop body for distance `k + 1`. -/
structure GenInv (adj : Nat → List Nat) (N : Nat) (fg : Nat → Bool) (k : Nat) (out : Nat → Px t2)
    (level : List Nat) : Prop where
  done : ∀ i < N, ∀ j ≤ k, GLvl adj N fg j i → (out i).val = j
  todo : ∀ i < N, (∀ j ≤ k, ¬ GLvl adj N fg j i) → out i = Px.zero
  lev : ∀ i, i ∈ level ↔ GLvl adj N fg k i

theorem glvl_below {N : Nat} {k : Nat} (h : ∀ i, ¬ GLvl adj N fg k i) (m i : Nat) : ¬ GLvl adj N fg (k + m) i := by
  induction m generalizing i with
  | zero => exact h i
  | succ m ih =>
    intro hl
    obtain ⟨⟨c, hc, _⟩, _⟩ := glvl_succ.mp hl
    exact ih c hc

theorem genNext_ok (ht : incOk t2) (lev : Px t2) : genNext lev = some (t2.wrap (lev.val + 1)) := by
  unfold genNext
  rw [if_neg]
  rintro ⟨h1, h2, _⟩
  rcases ht with h | h
  · rw [h] at h1; cases h1
  · omega

theorem genLoop_spec {N : Nat} (ht : incOk t2) (hadj : ∀ i < N, ∀ j ∈ adj i, j < N)
    (hmax : ∀ i k, GLvl adj N fg k i → (k : Int) ≤ t2.hi) :
    ∀ (fuel k : Nat) (out : Nat → Px t2) (level : List Nat), GenInv adj N fg k out level →
      ((List.range N).filter fun i => decide (out i = Px.zero ∧ fg i = true)).length < fuel →
      ∃ o, genLoop adj fg fuel (t2.wrap (k + 1)) out level = some o ∧
        ∀ i < N, (∀ k, GLvl adj N fg k i → (o i).val = k) ∧ ((∀ k, ¬ GLvl adj N fg k i) → o i = Px.zero) := by
  intro fuel
  induction fuel with
  | zero => intro k out level _ h; omega
  | succ fuel ih =>
    intro k out level inv hfuel
    unfold genLoop
    simp only [genNext_ok ht]
    have hlo := t2.lo_le_zero
    have hz0 : (Px.zero : Px t2).val = 0 := rfl
    -- the pixels of the next level
    have hQ : ∀ i, (i ∈ level.flatMap adj ∧ out i = Px.zero ∧ fg i = true) ↔ GLvl adj N fg (k + 1) i := by
      intro i
      rw [List.mem_flatMap, glvl_succ]
      constructor
      · rintro ⟨⟨c, hc, hm⟩, h0, hf⟩
        refine ⟨⟨c, (inv.lev c).mp hc, hm⟩, ?_⟩
        intro j hj hl
        have hiN := hl.lt hadj
        have := inv.done i hiN j hj hl
        rw [h0] at this
        have hj0 : j = 0 := by omega
        subst hj0
        rw [(glvl_zero hiN).mp hl] at hf
        exact absurd hf (by simp)
      · rintro ⟨⟨c, hc, hm⟩, hno⟩
        have hiN := hadj c (hc.lt hadj) i hm
        refine ⟨⟨c, (inv.lev c).mpr hc, hm⟩, inv.todo i hiN hno, ?_⟩
        by_contra hf
        exact hno 0 (Nat.zero_le _) ((glvl_zero hiN).mpr (by simpa using hf))
    rw [genLevel_flat]
    by_cases hex : ∃ i, GLvl adj N fg (k + 1) i
    · obtain ⟨i0, hi0⟩ := hex
      have hkh := hmax i0 (k + 1) hi0
      have hw : (t2.wrap ((k : Int) + 1)).val = k + 1 := t2.wrap_of_mem (by omega) (by push_cast at hkh; exact hkh)
      have hw0 : t2.wrap ((k : Int) + 1) ≠ Px.zero := by
        intro e; have := congrArg Px.val e; omega
      obtain ⟨h1, h2⟩ := genVisit_fold (fg := fg) _ hw0 (level.flatMap adj) ⟨out, []⟩
      simp only [hQ, List.not_mem_nil, false_or] at h1 h2
      set s := (level.flatMap adj).foldl (genVisit fg (t2.wrap ((k : Int) + 1))) ⟨out, []⟩
      have hne : s.next ≠ [] := fun e => by
        have := (h2 i0).mpr hi0
        rw [e] at this; simp at this
      rw [if_neg hne, hw]
      have e : (k : Int) + 1 + 1 = ((k + 1 : Nat) : Int) + 1 := by push_cast; ring
      rw [e]
      apply ih (k + 1)
      · refine ⟨?_, ?_, h2⟩
        · intro i hi j hj hl
          rw [h1]
          by_cases hc : GLvl adj N fg (k + 1) i
          · rw [if_pos ((hQ i).mpr hc), hw, hl.unique hc]; push_cast; rfl
          · rw [if_neg (fun h => hc ((hQ i).mp h))]
            have : j ≠ k + 1 := fun e => hc (e ▸ hl)
            exact inv.done i hi j (by omega) hl
        · intro i hi hno
          rw [h1, if_neg (fun h => hno _ (le_refl _) ((hQ i).mp h))]
          exact inv.todo i hi fun j hj => hno j (by omega)
      · have hlt : ((List.range N).filter fun i => decide (s.out i = Px.zero ∧ fg i = true)).length <
            ((List.range N).filter fun i => decide (out i = Px.zero ∧ fg i = true)).length := by
          have hi0N := hi0.lt hadj
          have h0 := (hQ i0).mpr hi0
          have hsub : ((List.range N).filter fun i => decide (s.out i = Px.zero ∧ fg i = true)) =
              ((List.range N).filter fun i => decide (out i = Px.zero ∧ fg i = true)).filter
                fun i => decide (s.out i = Px.zero ∧ fg i = true) := by
            rw [List.filter_filter]
            apply List.filter_congr
            intro i _
            rw [h1]
            by_cases hc : GLvl adj N fg (k + 1) i
            · rw [if_pos ((hQ i).mpr hc)]; simp [hw0]
            · rw [if_neg (fun h => hc ((hQ i).mp h))]; simp
          rw [hsub]
          apply List.length_filter_lt_length_iff_exists.mpr
          refine ⟨i0, ?_, ?_⟩
          · rw [List.mem_filter]
            exact ⟨List.mem_range.mpr hi0N, by simpa using h0.2⟩
          · rw [h1, if_pos ((hQ i0).mpr hi0)]; simp [hw0]
        omega
    · have hno : ∀ i, ¬ GLvl adj N fg (k + 1) i := fun i h => hex ⟨i, h⟩
      rw [genVisit_none _ _ _ (fun i hi h => hno i ((hQ i).mp ⟨hi, h⟩))]
      simp only [if_true]
      refine ⟨out, rfl, ?_⟩
      intro i hi
      constructor
      · intro j hl
        apply inv.done i hi j _ hl
        by_contra hc
        have := glvl_below hno (j - (k + 1)) i
        rw [Nat.add_sub_cancel' (by omega)] at this
        exact this hl
      · intro h
        exact inv.todo i hi fun j _ => h j

end

end Smil
