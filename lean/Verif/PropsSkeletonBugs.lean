import Verif.PropsSkeleton

/-!
# C70: exceptions and examples
-/

namespace Smil
open StrElt

/-- The horizontal element of three points. -/
def exSegSe : StrElt := ⟨false, .generic, 1, [⟨0, 0, 0⟩, ⟨1, 0, 0⟩, ⟨-1, 0, 0⟩]⟩

/-- A line of nine pixels, white at a distance at most `n` of the middle. -/
def exSeg (n : Int) : Img (Px UINT8) := ⟨⟨9, 1, 1⟩, fun i => if |(i : Int) - 4| ≤ n then ⊤ else ⊥⟩

theorem exSeg_in (n : Int) (p : IntPoint) : Img.In (exSeg n).dims p ↔ 0 ≤ p.x ∧ p.x < 9 ∧ p.y = 0 ∧ p.z = 0 := by
  simp only [Img.In, exSeg]
  push_cast
  omega

theorem exSeg_at (n : Int) (p : IntPoint) (hp : Img.In (exSeg n).dims p) :
    (exSeg n).at? p = some (if |p.x - 4| ≤ n then ⊤ else ⊥) := by
  rw [Img.buf_offOf _ p hp]
  obtain ⟨h1, h2, h3, h4⟩ := (exSeg_in n p).mp hp
  have e : offOf (exSeg n).dims p = p.x.toNat := by
    simp [offOf, rasterIndex, h3, h4]
  rw [e]
  simp only [exSeg, Int.toNat_of_nonneg h1]

theorem exSeg_rel (p q : IntPoint) : seRel exSegSe p q ↔ q.y = p.y ∧ q.z = p.z ∧ (q.x = p.x ∨ q.x = p.x + 1 ∨ q.x = p.x - 1) := by
  unfold seRel exSegSe
  simp only [List.mem_cons, List.not_mem_nil, or_false, phys, Bool.false_eq_true, false_and, if_false, add_zero, exists_eq_or_imp,
    exists_eq_left, Prod.mk_add_mk, Prod.mk.injEq]
  omega

theorem exSeg_ero (n : Int) (hn : n ≤ 3) : IsEroBy (seRel exSegSe) (exSeg n) (exSeg (n - 1)) := by
  refine ⟨rfl, fun p hp => ⟨_, exSeg_at (n - 1) p hp, ?_⟩⟩
  obtain ⟨h1, h2, h3, h4⟩ := (exSeg_in n p).mp hp
  by_cases hx : |p.x - 4| ≤ n - 1
  · rw [if_pos hx]
    rw [abs_le] at hx
    refine ⟨?_, fun u _ => le_top⟩
    rintro u ⟨q, hq, hu⟩
    rw [exSeg_rel] at hq
    have hin := Img.at?_eq_some_in _ _ _ hu
    rw [exSeg_at n q hin, if_pos (abs_le.mpr (by omega))] at hu
    cases hu; exact le_refl _
  · rw [if_neg hx]
    refine ⟨fun u _ => bot_le, fun u hu => hu ?_⟩
    have key : ∀ x' : Int, 0 ≤ x' → x' < 9 → ¬ |x' - 4| ≤ n → (x' = p.x ∨ x' = p.x + 1 ∨ x' = p.x - 1) →
        ∃ q, seRel exSegSe p q ∧ (exSeg n).at? q = some ⊥ := by
      intro x' hx0 hx9 hx' hc
      refine ⟨⟨x', 0, 0⟩, (exSeg_rel _ _).mpr ⟨h3.symm, h4.symm, hc⟩, ?_⟩
      rw [exSeg_at n _ ((exSeg_in n _).mpr ⟨hx0, hx9, rfl, rfl⟩), if_neg hx']
    rw [abs_le] at hx
    by_cases hx2 : |p.x - 4| ≤ n
    · rw [abs_le] at hx2
      by_cases hs : p.x - 4 = n
      · exact key (p.x + 1) (by omega) (by omega) (by rw [abs_le]; omega) (by omega)
      · exact key (p.x - 1) (by omega) (by omega) (by rw [abs_le]; omega) (by omega)
    · exact key p.x h1 h2 hx2 (Or.inl rfl)

theorem exSeg_dil (n : Int) (h0 : 0 ≤ n) (hn : n ≤ 3) : IsDilBy (seRel exSegSe) (exSeg n) (exSeg (n + 1)) := by
  refine ⟨rfl, fun p hp => ⟨_, exSeg_at (n + 1) p hp, ?_⟩⟩
  obtain ⟨h1, h2, h3, h4⟩ := (exSeg_in n p).mp hp
  by_cases hx : |p.x - 4| ≤ n + 1
  · rw [if_pos hx]
    refine ⟨fun u _ => le_top, fun u hu => hu ?_⟩
    have key : ∀ x' : Int, 0 ≤ x' → x' < 9 → |x' - 4| ≤ n → (p.x = x' ∨ p.x = x' + 1 ∨ p.x = x' - 1) →
        ∃ q, seRel exSegSe q p ∧ (exSeg n).at? q = some ⊤ := by
      intro x' hx0 hx9 hx' hc
      refine ⟨⟨x', 0, 0⟩, (exSeg_rel _ _).mpr ⟨h3, h4, hc⟩, ?_⟩
      rw [exSeg_at n _ ((exSeg_in n _).mpr ⟨hx0, hx9, rfl, rfl⟩), if_pos hx']
    by_cases hx2 : |p.x - 4| ≤ n
    · exact key p.x h1 h2 hx2 (Or.inl rfl)
    · rw [abs_le] at hx hx2
      by_cases hs : p.x - 4 = n + 1
      · exact key (p.x - 1) (by omega) (by omega) (by rw [abs_le]; omega) (by omega)
      · exact key (p.x + 1) (by omega) (by omega) (by rw [abs_le]; omega) (by omega)
  · rw [if_neg hx]
    rw [abs_le] at hx
    refine ⟨?_, fun u _ => bot_le⟩
    rintro u ⟨q, hq, hu⟩
    rw [exSeg_rel] at hq
    have hin := Img.at?_eq_some_in _ _ _ hu
    rw [exSeg_at n q hin, if_neg (by rw [abs_le]; omega)] at hu
    cases hu; exact le_refl _

theorem exSeg_empty : IsDilBy (seRel exSegSe) (exSeg (-1)) (exSeg (-1)) := by
  have ha : ∀ x : Int, ¬ |x| ≤ -1 := fun x h => by have := abs_nonneg x; omega
  refine ⟨rfl, fun p hp => ⟨_, exSeg_at (-1) p hp, ?_⟩⟩
  rw [if_neg (ha _)]
  refine ⟨?_, fun u _ => bot_le⟩
  rintro u ⟨q, hq, hu⟩
  rw [exSeg_at (-1) q (Img.at?_eq_some_in _ _ _ hu), if_neg (ha _)] at hu
  cases hu; exact le_refl _

theorem exSeg_ok (n : Int) : Accepts exEnv8 (exSeg n) (exSeg n) ∧ SEOk (exSeg n).dims exSegSe := by
  refine ⟨accepts_of_dims exEnv8 rfl rfl, ?_⟩
  have : (exSeg n).dims = ⟨9, 1, 1⟩ := rfl
  rw [this]
  exact ⟨by decide, by decide, by decide, fun h => absurd h (by decide), by decide⟩

/-- **C70**, the defect on a segment of seven pixels and on a single pixel: the third erosion of the segment is its middle, which the opening
removes, and the opening removes the single pixel, so that both belong to the skeleton; the result of the code is empty. -/
theorem C70_skeleton_empty_bug :
    IterRel (IsEroBy (seRel exSegSe)) 3 (exSeg 3) (exSeg 0) ∧ IsOpenBy (seRel exSegSe) 1 (exSeg 0) (exSeg (-1)) ∧
    (exSeg 0).at? ⟨4, 0, 0⟩ = some ⊤ ∧ (exSeg (-1)).at? ⟨4, 0, 0⟩ = some ⊥ ∧
    (∃ r, skeleton exEnv8 exSegSe 2296 (exSeg 3) (exSeg 3) = some (.ok r) ∧ ∀ p, Img.In ⟨9, 1, 1⟩ p → ∃ v, r.at? p = some v ∧ v.val = 0) ∧
    ∃ r, skeleton exEnv8 exSegSe 2296 (exSeg 0) (exSeg 0) = some (.ok r) ∧ ∀ p, Img.In ⟨9, 1, 1⟩ p → ∃ v, r.at? p = some v ∧ v.val = 0 := by
  have e3 := exSeg_ero 3 (by norm_num)
  have e2 := exSeg_ero 2 (by norm_num)
  have e1 := exSeg_ero 1 (by norm_num)
  have e0 := exSeg_ero 0 (by norm_num)
  have em := exSeg_ero (-1) (by norm_num)
  norm_num at e3 e2 e1 e0 em
  have d1 := exSeg_dil 1 (by norm_num) (by norm_num)
  norm_num at d1
  have hm : Img.Same (exSeg (-2)) (exSeg (-1)) := by
    have ha : ∀ x : Int, ¬ |x| ≤ -1 := fun x h => by have := abs_nonneg x; omega
    have hb : ∀ x : Int, ¬ |x| ≤ -2 := fun x h => by have := abs_nonneg x; omega
    have : exSeg (-2) = exSeg (-1) := by unfold exSeg; simp only [ha, hb]
    rw [this]; exact Img.Same.refl _
  have one : ∀ {R : Img (Px UINT8) → Img (Px UINT8) → Prop} {a b}, R a b → IterRel R 1 a b := fun h => ⟨_, h, Img.Same.refl _⟩
  have hf : (((exSeg 3).dims.count : Int) * (UINT8.hi - UINT8.lo)).toNat + 1 ≤ 2296 := by decide
  refine ⟨⟨_, e3, _, e2, _, e1, Img.Same.refl _⟩, ⟨_, one e0, one exSeg_empty⟩, by decide, by decide, ?_, ?_⟩
  · exact C70_skeleton_bug exEnv8 rfl exSegSe (exSeg 3) (exSeg 3) (exSeg 2) (exSeg_ok 3).1 (exSeg_ok 3).2 (one e3) ⟨_, one e2, one d1⟩ 2296 hf
  · exact C70_skeleton_bug exEnv8 rfl exSegSe (exSeg 0) (exSeg 0) (exSeg (-1)) (exSeg_ok 0).1 (exSeg_ok 0).2 (one e0)
      ⟨_, ⟨_, em, hm⟩, one exSeg_empty⟩ 2296 hf

/-- An image where the pixel at the centre has, on the hexagonal grid, a larger and a smaller neighbour. -/
def exPrune : Img (Px UINT8) := ⟨⟨3, 3, 1⟩, fun i => UINT8.wrap ([2, 2, 3, 2, 2, 2, 2, 2, 1].getD i 0)⟩

/-- **C70**, a defect: the default element is hexagonal, and `pruneSkiz` does not shift its points on the odd lines: the centre has a larger
and a smaller neighbour on the grid, and is kept. -/
theorem C70_prune_hex_bug : ∃ r, pruneSkiz exEnv8 false (HexSE 1) exPrune exPrune = some (.ok r) ∧
    HexAdj ⟨1, 1, 0⟩ ⟨2, 0, 0⟩ ∧ (exPrune.at? ⟨2, 0, 0⟩).map Px.val = some 3 ∧
    HexAdj ⟨1, 1, 0⟩ ⟨2, 2, 0⟩ ∧ (exPrune.at? ⟨2, 2, 0⟩).map Px.val = some 1 ∧
    (exPrune.at? ⟨1, 1, 0⟩).map Px.val = some 2 ∧ (r.at? ⟨1, 1, 0⟩).map Px.val = some 2 := by
  obtain ⟨r, hr, hd, hv⟩ := C70_prune exEnv8 (HexSE 1) exPrune exPrune (accepts_of_dims exEnv8 rfl rfl)
  refine ⟨r, hr, by unfold HexAdj; decide, by decide, by unfold HexAdj; decide, by decide, by decide, ?_⟩
  obtain ⟨u, hu, h1, -⟩ := hv ⟨1, 1, 0⟩ (UINT8.wrap 2) (by decide)
  have hno : ∀ b ∈ (HexSE 1).points, ∀ w ∈ exPrune.at? ⟨1 + b.x, 1 + b.y, 0 + b.z⟩, ¬ (UINT8.wrap 2).val < w.val := by decide
  rw [hu, h1 ⟨by decide, by decide, fun h => ?_⟩]
  · decide
  · obtain ⟨⟨b, hb, w, hw, -, hlt⟩, -⟩ := h
    exact hno b hb w hw hlt

/-- C70: the hypotheses are met by a segment, and the skeleton of a segment of three pixels is not empty: there is a level with a residue. -/
example : Accepts exEnv8 (exSeg 1) (exSeg 1) ∧ SEOk (exSeg 1).dims exSegSe ∧ (⟨0, 0, 0⟩ : IntPoint) ∈ exSegSe.points ∧
    (((exSeg 1).dims.count : Int) * (UINT8.hi - UINT8.lo)).toNat + 1 ≤ 2296 ∧
    IterRel (IsEroBy (seRel exSegSe)) 1 (exSeg 1) (exSeg 0) ∧ IsOpenBy (seRel exSegSe) 1 (exSeg 0) (exSeg (-1)) := by
  have e1 := exSeg_ero 1 (by norm_num)
  have e0 := exSeg_ero 0 (by norm_num)
  norm_num at e1 e0
  exact ⟨(exSeg_ok 1).1, (exSeg_ok 1).2, by decide, by decide, ⟨_, e1, Img.Same.refl _⟩,
    ⟨_, ⟨_, e0, Img.Same.refl _⟩, ⟨_, exSeg_empty, Img.Same.refl _⟩⟩⟩

/-- Two white pixels on a black ground. -/
def exTwo : Img (Px UINT8) := ⟨⟨7, 3, 1⟩, fun i => if i = 7 ∨ i = 13 then ⊤ else ⊥⟩

/-- C70: the hypotheses of `C70_skiz` are met by an image with two objects, which are not connected: the skiz then separates them. -/
example : Accepts exEnv8 exTwo exTwo ∧ exTwo.dims.d ≤ 1 ∧ BinImg exTwo ∧ (⊥ : Px UINT8) ≠ ⊤ ∧
    exTwo.at? ⟨0, 1, 0⟩ = some ⊤ ∧ exTwo.at? ⟨6, 1, 0⟩ = some ⊤ ∧ ¬ ConnIn HexAdj {x | exTwo.at? x = some ⊤} ⟨0, 1, 0⟩ ⟨6, 1, 0⟩ := by
  have hb : BinImg exTwo := by
    intro p u hu
    rw [Img.buf_offOf _ p (Img.at?_eq_some_in _ _ _ hu)] at hu
    have := Option.some.inj hu
    simp only [exTwo] at this
    split at this
    · exact Or.inr this.symm
    · exact Or.inl this.symm
  refine ⟨accepts_of_dims exEnv8 rfl rfl, by decide, hb, by decide, by decide, by decide, fun h => ?_⟩
  have key : ∀ y, ConnIn HexAdj {x | exTwo.at? x = some ⊤} ⟨0, 1, 0⟩ y → y.x = 0 := by
    intro y hy
    unfold ConnIn at hy
    induction hy with
    | refl => rfl
    | @tail b c _ h ih =>
      have h2 : exTwo.at? c = some ⊤ := h.2.2
      have hx : c.x ≤ 1 := by
        obtain ⟨-, ⟨-, h | h⟩ | ⟨-, h | h⟩⟩ := h.1
        · omega
        · omega
        · omega
        · split at h <;> omega
      have hin := Img.at?_eq_some_in _ _ _ h2
      rw [Img.buf_offOf _ c hin] at h2
      have h3 := Option.some.inj h2
      obtain ⟨h4, h5, h6, h7, h8, h9⟩ := hin
      simp only [exTwo] at h3 h5 h7 h9
      have h10 : offOf exTwo.dims c = c.x.toNat + 7 * c.y.toNat := by
        have : c.z = 0 := by push_cast at h9; omega
        simp [offOf, rasterIndex, exTwo, this]
      by_contra hne
      have hc : ¬ (offOf exTwo.dims c = 7 ∨ offOf exTwo.dims c = 13) := by rw [h10]; omega
      have h11 : offOf (⟨7, 3, 1⟩ : Dims) c = offOf exTwo.dims c := rfl
      rw [h11, if_neg hc] at h3
      exact absurd h3 (by decide)
  exact absurd (key _ h) (by decide)

end Smil
