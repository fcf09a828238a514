import Verif.Neigh
import Verif.PropsLabel
import Mathlib.Data.Set.Card

/-!
# C40, C54: neighbourhood counts and rank filters
-/

namespace Smil
open StrElt
variable {α β : Type} {t : PT}

theorem foldl_min_le (l : List IntPoint) : ∀ m : Int,
    l.foldl (fun m p => if p.x < m then p.x else m) m ≤ m ∧
    (∀ p ∈ l, l.foldl (fun m p => if p.x < m then p.x else m) m ≤ p.x) ∧
    (l.foldl (fun m p => if p.x < m then p.x else m) m = m ∨
      ∃ p ∈ l, l.foldl (fun m p => if p.x < m then p.x else m) m = p.x) := by
  induction l with
  | nil => intro m; simp
  | cons a l ih =>
    intro m
    rw [List.foldl_cons]
    obtain ⟨h1, h2, h3⟩ := ih (if a.x < m then a.x else m)
    generalize l.foldl (fun m p => if p.x < m then p.x else m) (if a.x < m then a.x else m) = r at *
    refine ⟨by split_ifs at h1 <;> omega, ?_, ?_⟩
    · intro p hp
      rcases List.mem_cons.mp hp with rfl | hp
      · split_ifs at h1 <;> omega
      · exact h2 p hp
    · rcases h3 with h3 | ⟨p, hp, h3⟩
      · split_ifs at h3
        · exact Or.inr ⟨a, by simp, h3⟩
        · exact Or.inl h3
      · exact Or.inr ⟨p, by simp [hp], h3⟩

theorem foldl_max_ge (l : List IntPoint) : ∀ m : Int,
    m ≤ l.foldl (fun m p => if p.x > m then p.x else m) m ∧
    (∀ p ∈ l, p.x ≤ l.foldl (fun m p => if p.x > m then p.x else m) m) ∧
    (l.foldl (fun m p => if p.x > m then p.x else m) m = m ∨
      ∃ p ∈ l, l.foldl (fun m p => if p.x > m then p.x else m) m = p.x) := by
  induction l with
  | nil => intro m; simp
  | cons a l ih =>
    intro m
    rw [List.foldl_cons]
    obtain ⟨h1, h2, h3⟩ := ih (if a.x > m then a.x else m)
    generalize l.foldl (fun m p => if p.x > m then p.x else m) (if a.x > m then a.x else m) = r at *
    refine ⟨by split_ifs at h1 <;> omega, ?_, ?_⟩
    · intro p hp
      rcases List.mem_cons.mp hp with rfl | hp
      · split_ifs at h1 <;> omega
      · exact h2 p hp
    · rcases h3 with h3 | ⟨p, hp, h3⟩
      · split_ifs at h3
        · exact Or.inr ⟨a, by simp, h3⟩
        · exact Or.inl h3
      · exact Or.inr ⟨p, by simp [hp], h3⟩

/-- The precondition of `processLine` on a width: no point further than the width on either side, one
point at least that is not to the left of the origin, and, on the hexagonal grid, the shift of the odd
lines does not go beyond the rightmost point. -/
def RowOk (w : Nat) (se : StrElt) : Prop :=
  (∀ p ∈ se.points, -(w : Int) ≤ p.x ∧ p.x ≤ w) ∧ (∃ p ∈ se.points, 0 ≤ p.x) ∧
  (se.odd = true → ∀ p ∈ se.points, p.y % 2 = 1 → ∃ q ∈ se.points, p.x + 1 ≤ q.x)

instance (w : Nat) (se : StrElt) : Decidable (RowOk w se) := by unfold RowOk; infer_instance

theorem RowOk.bounds {D : Dims} {se : StrElt} (h : RowOk D.w se) (hw : D.w < 2 ^ 31) :
    -(seXmin se) ≤ D.w ∧ midBound D se = D.w - seXmax se ∧ 0 ≤ seXmax se ∧ seXmax se ≤ D.w := by
  obtain ⟨h1, ⟨p, hp, h0⟩, _⟩ := h
  obtain ⟨a1, a2, a3⟩ := foldl_min_le se.points (2 ^ 31 - 1)
  obtain ⟨b1, b2, b3⟩ := foldl_max_ge se.points (-2 ^ 31)
  have hmax : 0 ≤ seXmax se := h0.trans (b2 p hp)
  have hmax2 : seXmax se ≤ D.w := by
    rcases b3 with b3 | ⟨q, hq, b3⟩
    · unfold seXmax at hmax; rw [b3] at hmax; omega
    · unfold seXmax; rw [b3]; exact (h1 q hq).2
  refine ⟨?_, ?_, hmax, hmax2⟩
  · rcases a3 with a3 | ⟨q, hq, a3⟩
    · unfold seXmin; rw [a3]; omega
    · unfold seXmin; rw [a3]; have := (h1 q hq).1; omega
  · unfold midBound
    generalize seXmax se = m at *
    rw [Int.emod_eq_of_lt (by omega) (by omega)]

theorem readRel_reach {se : StrElt} (im : Img α) {x y z : Nat}
    (hq : Img.In im.dims (Img.pt x y z)) (b : IntPoint)
    (hr : Img.In im.dims (reachPt se (Img.pt x y z) b)) :
    readRel im (rasterIndex im.dims.w im.dims.h x y z)
      (b.x + b.y * im.dims.w + b.z * im.dims.w * im.dims.h + oddCorr se y (y + b.y)) =
      im.at? (reachPt se (Img.pt x y z) b) := by
  have e : ((rasterIndex im.dims.w im.dims.h x y z : Nat) : Int) + (b.x + b.y * im.dims.w +
      b.z * im.dims.w * im.dims.h + oddCorr se y (y + b.y)) =
      offOf im.dims (reachPt se (Img.pt x y z) b) := by
    rw [offOf_int hr]
    have := offOf_int hq
    simp only [Img.pt, offOf, Int.toNat_natCast] at this
    rw [this]
    simp only [reachPt, Img.pt]; ring
  unfold readRel
  rw [e]
  have := offOf_lt hr
  rw [if_pos ⟨by omega, by omega⟩, Img.buf_offOf _ _ hr]; simp

/-- The values seen at a pixel are those of the pixels of the image reached by the points of the
element, in their order. -/
theorem pixelVals_eq {se : StrElt} {im : Img α} (h : RowOk im.dims.w se) (hw : im.dims.w < 2 ^ 31)
    {x y z : Nat} (hq : Img.In im.dims (Img.pt x y z)) :
    pixelVals se im x y z =
      some (se.points.filterMap fun b => im.at? (reachPt se (Img.pt x y z) b)) := by
  obtain ⟨hl, hm, hx0, hxw⟩ := h.bounds hw
  obtain ⟨a1, a2, a3⟩ := foldl_min_le se.points (2 ^ 31 - 1)
  obtain ⟨b1, b2, b3⟩ := foldl_max_ge se.points (-2 ^ 31)
  -- every point of the line lists
  have key : ∀ (l : List IntPoint), (∀ b ∈ l, b ∈ se.points) →
      (if (x : Int) < -(seXmin se) ∨ midBound im.dims se ≤ x then
        ((l.filterMap fun p =>
          if 0 ≤ (y : Int) + p.y ∧ (y : Int) + p.y < im.dims.h ∧ 0 ≤ (z : Int) + p.z ∧
              (z : Int) + p.z < im.dims.d then
            some (p.x + oddCorr se y (y + p.y), p.x + p.y * im.dims.w + p.z * im.dims.w * im.dims.h +
              oddCorr se y (y + p.y))
          else none).filter fun q => 0 ≤ (x : Int) + q.1 ∧ (x : Int) + q.1 < im.dims.w).map (·.2)
       else (l.filterMap fun p =>
          if 0 ≤ (y : Int) + p.y ∧ (y : Int) + p.y < im.dims.h ∧ 0 ≤ (z : Int) + p.z ∧
              (z : Int) + p.z < im.dims.d then
            some (p.x + oddCorr se y (y + p.y), p.x + p.y * im.dims.w + p.z * im.dims.w * im.dims.h +
              oddCorr se y (y + p.y))
          else none).map (·.2)).mapM (readRel im (rasterIndex im.dims.w im.dims.h x y z)) =
      some (l.filterMap fun b => im.at? (reachPt se (Img.pt x y z) b)) := by
    intro l
    induction l with
    | nil => intro _; split <;> rfl
    | cons b l ih =>
      intro hb
      have ih := ih fun b hb' => hb b (by simp [hb'])
      have hbm := hb b (by simp)
      have hmin : seXmin se ≤ b.x := a2 b hbm
      have hmax : b.x ≤ seXmax se := b2 b hbm
      rw [List.filterMap_cons, List.filterMap_cons]
      by_cases hy : 0 ≤ (y : Int) + b.y ∧ (y : Int) + b.y < im.dims.h ∧ 0 ≤ (z : Int) + b.z ∧
              (z : Int) + b.z < im.dims.d
      · rw [if_pos hy]
        by_cases hin : Img.In im.dims (reachPt se (Img.pt x y z) b)
        · have hx : 0 ≤ (x : Int) + (b.x + oddCorr se y (y + b.y)) ∧
              (x : Int) + (b.x + oddCorr se y (y + b.y)) < im.dims.w := by
            unfold Img.In reachPt Img.pt at hin
            simp only at hin
            omega
          have hrd := readRel_reach im hq b hin
          rw [Img.at?_some im _ hin] at hrd
          simp only [Img.at?_some im _ hin]
          split at ih
          · rename_i hc
            rw [if_pos hc] 
            simp only [List.filter_cons, hx, and_self, decide_true, if_true, List.map_cons,
              List.mapM_cons]
            rw [hrd, ih]; rfl
          · rename_i hc
            rw [if_neg hc]
            simp only [List.map_cons, List.mapM_cons]
            rw [hrd, ih]; rfl
        · have hx : ¬ (0 ≤ (x : Int) + (b.x + oddCorr se y (y + b.y)) ∧
              (x : Int) + (b.x + oddCorr se y (y + b.y)) < im.dims.w) := by
            intro hx
            apply hin
            unfold Img.In reachPt Img.pt
            simp only
            omega
          simp only [Img.at?_none im _ hin]
          split at ih
          · rename_i hc
            rw [if_pos hc]
            simp only [List.filter_cons, hx, decide_false]
            exact ih
          · rename_i hc
            exfalso
            push Not at hc
            apply hx
            rw [hm] at hc
            have hodd : oddCorr se y (y + b.y) = 0 ∨ (oddCorr se y (y + b.y) = 1 ∧
                b.x + 1 ≤ seXmax se) := by
              unfold oddCorr
              split
              · rename_i ho
                right
                refine ⟨rfl, ?_⟩
                rw [Int.tmod_eq_emod_of_nonneg (by omega)] at ho
                obtain ⟨q, hq', hle⟩ := h.2.2 ho.1.1 b hbm (by omega)
                exact hle.trans (b2 q hq')
              · left; rfl
            constructor
            · rcases hodd with e | ⟨e, _⟩ <;> omega
            · rcases hodd with e | ⟨e, _⟩ <;> omega
      · rw [if_neg hy]
        have hin : ¬ Img.In im.dims (reachPt se (Img.pt x y z) b) := by
          intro hin; apply hy
          unfold Img.In reachPt Img.pt at hin
          simp only at hin
          omega
        simp only [Img.at?_none im _ hin]
        exact ih
  exact key se.points fun _ h => h

/-- The neighbourhood of `p` in the image: the values at the pixels reached by the points of the
element. -/
def nbhd (se : StrElt) (im : Img α) (p : IntPoint) : List α :=
  se.points.filterMap fun b => im.at? (reachPt se p b)

/-- The values of the neighbourhood, geometrically. -/
theorem mem_nbhd {se : StrElt} {im : Img α} {p : IntPoint} {v : α} :
    v ∈ nbhd se im p ↔ ∃ q, seRel se p q ∧ im.at? q = some v := by
  unfold nbhd
  rw [List.mem_filterMap]
  constructor
  · rintro ⟨b, hb, h⟩
    refine ⟨_, ⟨b, hb, ?_⟩, h⟩
    have := Img.at?_eq_some_in _ _ _ h
    unfold Img.In reachPt at this
    simp only at this
    exact phys_reachPt se p b this.2.2.1
  · rintro ⟨q, ⟨b, hb, e⟩, h⟩
    refine ⟨b, hb, ?_⟩
    have hq := Img.at?_eq_some_in _ _ _ h
    have hy : p.y + b.y = q.y := by
      have := congrArg (fun t => t.2.1) e
      simpa [phys] using this
    have hyp : 0 ≤ p.y + b.y := by rw [hy]; unfold Img.In at hq; omega
    rw [phys_inj _ _ _ ((phys_reachPt se p b hyp).symm.trans e)]
    exact h

/-- The computation by neighbourhoods, when it is defined at every pixel. -/
theorem execNeigh_spec {raw : β} {F : List α → Option β} {se : StrElt} {im : Img α}
    (h : RowOk im.dims.w (execSe se)) (hw : im.dims.w < 2 ^ 31)
    (hF : ∀ p, Img.In im.dims p → (F (nbhd (execSe se) im p)).isSome) :
    ∃ r, execNeigh raw false F se im = some r ∧ r.dims = im.dims ∧
      ∀ p, Img.In im.dims p → r.at? p = F (nbhd (execSe se) im p) := by
  have hv : ∀ x y z : Nat, Img.In im.dims (Img.pt x y z) →
      (pixelVals (execSe se) im x y z).bind F = F (nbhd (execSe se) im (Img.pt x y z)) := by
    intro x y z hin
    rw [pixelVals_eq h hw hin]; rfl
  refine ⟨Img.ofFn im.dims fun x y z => ((pixelVals (execSe se) im x y z).bind F).getD raw,
    ?_, ?_, ?_⟩
  · unfold execNeigh
    rw [if_neg (by simp), if_pos]
    refine ⟨?_, ?_⟩
    · obtain ⟨h1, h2, h3, h4⟩ := h.bounds hw
      exact ⟨h1, by omega⟩
    · intro z hz y hy x hx
      have hin := (Img.in_pt im.dims x y z).mpr ⟨hx, hy, hz⟩
      rw [hv x y z hin]
      exact hF _ hin
  · rfl
  · intro p hp
    rw [Img.ofFn_at? _ _ _ hp]
    have e : Img.pt p.x.toNat p.y.toNat p.z.toNat = p := by
      unfold Img.In at hp
      obtain ⟨x, y, z⟩ := p
      simp only [Img.pt, IntPoint.mk.injEq]
      simp only at hp
      omega
    rw [hv _ _ _ (by rw [e]; exact hp), e]
    obtain ⟨v, hv⟩ := Option.isSome_iff_exists.mp (hF p hp)
    rw [hv]; rfl

theorem neighGuarded_spec {auto : Bool} {dout : Dims} {raw : β} {F : List α → Option β}
    {se : StrElt} {im : Img α} (ha : AcceptsD auto im.dims dout)
    (h : RowOk im.dims.w (execSe se)) (hw : im.dims.w < 2 ^ 31)
    (hF : ∀ p, Img.In im.dims p → (F (nbhd (execSe se) im p)).isSome) :
    ∃ r, neighGuarded auto dout raw false F se im = some (.ok r) ∧ r.dims = im.dims ∧
      ∀ p, Img.In im.dims p → r.at? p = F (nbhd (execSe se) im p) := by
  obtain ⟨r, h1, h2⟩ := execNeigh_spec (raw := raw) h hw hF
  refine ⟨r, ?_, h2⟩
  unfold neighGuarded
  rw [checkDims_ok ha]
  simp only [h1]; rfl

theorem countLoop_eq [DecidableEq α] (l : List α) : ∀ (vals : List α) (n : Nat), vals.Nodup →
    n = vals.length → countLoop vals n l = {v | v ∈ vals ∨ v ∈ l}.ncard := by
  induction l with
  | nil =>
    intro vals n hd hn
    unfold countLoop
    have : {v | v ∈ vals ∨ v ∈ ([] : List α)} = (vals.toFinset : Set α) := by ext; simp
    rw [this, Set.ncard_coe_finset, List.toFinset_card_of_nodup hd, hn]
  | cons a l ih =>
    intro vals n hd hn
    unfold countLoop
    split
    · rename_i ha
      rw [ih vals n hd hn]
      congr 1; ext v
      simp only [Set.mem_ofPred_eq, List.mem_cons]
      constructor
      · rintro (h | h) <;> tauto
      · rintro (h | rfl | h) <;> tauto
    · rename_i ha
      rw [ih (vals ++ [a]) (n + 1) ?_ (by simp [hn])]
      · congr 1; ext v
        simp only [Set.mem_ofPred_eq, List.mem_cons, List.mem_append, List.not_mem_nil]
        tauto
      · rw [List.nodup_append]
        refine ⟨hd, by simp, ?_⟩
        intro u hu b hb
        rw [List.mem_singleton] at hb
        rintro rfl; exact ha (hb ▸ hu)

/-! ## C40 -/

/-- **C40** (partial: elements that fit the width, see `RowOk`): `neighbors` writes at every pixel the number of distinct values of the input over the
pixels of the image reached by the element, converted to the output type. -/
theorem C40_neighbors_partial (auto : Bool) (t2 : PT) [DecidableEq α] (se : StrElt) (im : Img α) (dout : Dims)
    (ha : AcceptsD auto im.dims dout) (h : RowOk im.dims.w (execSe se)) (hw : im.dims.w < 2 ^ 31) :
    ∃ r, neighbors auto t2 false se im dout = some (.ok r) ∧ r.dims = im.dims ∧
      ∀ p, Img.In im.dims p → r.at? p =
        some (t2.wrap ({v | ∃ q, seRel (execSe se) p q ∧ im.at? q = some v}.ncard : Nat)) := by
  obtain ⟨r, h1, h2, h3⟩ := neighGuarded_spec (raw := t2.wrap 0)
    (F := fun l => some (t2.wrap (countLoop [] 0 l))) ha h hw (fun _ _ => rfl)
  refine ⟨r, h1, h2, fun p hp => ?_⟩
  rw [h3 p hp, countLoop_eq _ [] 0 (by simp) rfl]
  congr 4
  ext v
  simp only [Set.mem_ofPred_eq, List.not_mem_nil, false_or]
  exact mem_nbhd

/-- **C40** fails on every accepted image when input and output are the same: `_exec` calls itself with
the same arguments for ever. -/
theorem C40_inplace_bug (auto : Bool) (t2 : PT) [DecidableEq α] (se : StrElt) (im : Img α) (dout : Dims)
    (ha : AcceptsD auto im.dims dout) : neighbors auto t2 true se im dout = none := by
  unfold neighbors neighGuarded
  rw [checkDims_ok ha]
  rfl

/-- **C40** fails when every point of the element is to the left of the origin: the middle loop runs
past the end of the line. -/
theorem C40_left_bug (auto : Bool) (t2 : PT) [DecidableEq α] (se : StrElt) (im : Img α) (dout : Dims)
    (ha : AcceptsD auto im.dims dout) (hw : im.dims.w < 2 ^ 31) (he : (execSe se).points ≠ [])
    (hl : ∀ p ∈ (execSe se).points, -2 ^ 31 ≤ p.x ∧ p.x < 0) :
    neighbors auto t2 false se im dout = none := by
  unfold neighbors neighGuarded
  rw [checkDims_ok ha]
  unfold execNeigh
  rw [if_neg (by simp), if_neg]
  · rfl
  · rintro ⟨⟨_, h2⟩, _⟩
    obtain ⟨b1, b2, b3⟩ := foldl_max_ge (execSe se).points (-2 ^ 31)
    unfold midBound at h2
    have hx : seXmax (execSe se) < 0 := by
      rcases b3 with b3 | ⟨q, hq, b3⟩
      · unfold seXmax; rw [b3]; decide
      · unfold seXmax; rw [b3]; exact (hl q hq).2
    change -2 ^ 31 ≤ seXmax (execSe se) at b1
    generalize seXmax (execSe se) = m at *
    rw [Int.emod_eq_of_lt (by omega) (by omega)] at h2
    omega

/-! ## C54 -/

/-- `v` is the element number `k` (from zero) of the list in increasing order. -/
def IsRank [LinearOrder α] (l : List α) (k : Nat) (v : α) : Prop :=
  v ∈ l ∧ l.countP (fun u => decide (u < v)) ≤ k ∧ k < l.countP (fun u => decide (u ≤ v))

/-- There is only one such element. -/
theorem IsRank.unique [LinearOrder α] {l : List α} {k : Nat} {v w : α} (h : IsRank l k v)
    (h' : IsRank l k w) : v = w := by
  have key : ∀ {v w : α}, IsRank l k v → IsRank l k w → ¬ v < w := by
    intro v w h h' hlt
    have : l.countP (fun u => decide (u ≤ v)) ≤ l.countP (fun u => decide (u < w)) :=
      List.countP_mono_left fun u _ hu => by
        simp only [decide_eq_true_eq] at hu ⊢; exact lt_of_le_of_lt hu hlt
    have h1 := h.2.2
    have h2 := h'.2.1
    omega
  exact le_antisymm (not_lt.mp (key h' h)) (not_lt.mp (key h h'))

theorem isRank_sorted [LinearOrder α] {l : List α} {k : Nat} {v : α}
    (h : (sorted l)[k]? = some v) : IsRank l k v := by
  have hp : (sorted l).Perm l := List.perm_insertionSort _ _
  have hs : (sorted l).Pairwise (· ≤ ·) := List.pairwise_insertionSort _ _
  generalize sorted l = s at *
  obtain ⟨hk, rfl⟩ := List.getElem?_eq_some_iff.mp h
  refine ⟨hp.mem_iff.mp (List.getElem_mem hk), ?_, ?_⟩
  · rw [← hp.countP_eq]
    have h1 : (s.drop k).countP (fun u => decide (u < s[k])) = 0 := by
      rw [List.countP_eq_zero]
      intro u hu
      simp only [decide_eq_true_eq, not_lt]
      obtain ⟨j, hj, rfl⟩ := List.mem_iff_getElem.mp hu
      rw [List.getElem_drop]
      rcases Nat.eq_zero_or_pos j with rfl | hj0
      · simp
      · exact (List.pairwise_iff_getElem.mp hs) k (k + j) hk
          (by rw [List.length_drop] at hj; omega) (by omega)
    have h2 : (s.take k).countP (fun u => decide (u < s[k])) ≤ k :=
      List.countP_le_length.trans (by simp)
    have h3 : s.countP (fun u => decide (u < s[k])) =
        (s.take k).countP (fun u => decide (u < s[k])) +
          (s.drop k).countP (fun u => decide (u < s[k])) := by
      rw [← List.countP_append, List.take_append_drop]
    omega
  · rw [← hp.countP_eq]
    have h1 : (s.take (k + 1)).countP (fun u => decide (u ≤ s[k])) = k + 1 := by
      rw [List.countP_eq_length.mpr, List.length_take]
      · omega
      · intro u hu
        simp only [decide_eq_true_eq]
        obtain ⟨j, hj, rfl⟩ := List.mem_iff_getElem.mp hu
        rw [List.getElem_take]
        rw [List.length_take] at hj
        rcases Nat.lt_or_ge j k with hjk | hjk
        · exact (List.pairwise_iff_getElem.mp hs) j k (by omega) hk hjk
        · have : j = k := by omega
          subst this; exact le_rfl
    have h2 : (s.take (k + 1)).countP (fun u => decide (u ≤ s[k])) ≤
        s.countP (fun u => decide (u ≤ s[k])) := (List.take_sublist _ _).countP_le
    omega

theorem sorted_length [LinearOrder α] (l : List α) : (sorted l).length = l.length :=
  (List.perm_insertionSort _ _).length_eq

/-- **C54** (partial: elements that fit the width, no empty neighbourhood): `median` writes at every pixel the element number `n / 2` of the `n` values of the
neighbourhood in increasing order, provided no neighbourhood is empty. -/
theorem C54_median_partial [LinearOrder α] [Inhabited α] (auto : Bool) (se : StrElt) (im : Img α) (dout : Dims)
    (ha : AcceptsD auto im.dims dout) (h : RowOk im.dims.w (execSe se)) (hw : im.dims.w < 2 ^ 31)
    (hne : ∀ p, Img.In im.dims p → nbhd (execSe se) im p ≠ []) :
    ∃ r, median auto false se im dout = some (.ok r) ∧ r.dims = im.dims ∧
      ∀ p, Img.In im.dims p → ∃ v, r.at? p = some v ∧
        IsRank (nbhd (execSe se) im p) ((nbhd (execSe se) im p).length / 2) v := by
  have hF : ∀ p, Img.In im.dims p → ((fun l : List α => (sorted l)[l.length / 2]?)
      (nbhd (execSe se) im p)).isSome := by
    intro p hp
    have := List.length_pos_of_ne_nil (hne p hp)
    simp only
    rw [List.getElem?_eq_getElem (by rw [sorted_length]; omega)]; rfl
  obtain ⟨r, h1, h2, h3⟩ := neighGuarded_spec (raw := default)
    (F := fun l : List α => (sorted l)[l.length / 2]?) ha h hw hF
  refine ⟨r, h1, h2, fun p hp => ?_⟩
  obtain ⟨v, hv⟩ := Option.isSome_iff_exists.mp (hF p hp)
  exact ⟨v, (h3 p hp).trans hv, isRank_sorted hv⟩

/-- **C54** (partial: as above, and indices below the size): `rank`, where `rk n` is the truncation of `n * percentile` as computed in `double`: the
element number `rk n` of the `n` values, as long as it is a valid index. -/
theorem C54_rank_partial [LinearOrder α] [Inhabited α] (auto : Bool) (rk : Nat → Int) (se : StrElt) (im : Img α)
    (dout : Dims) (ha : AcceptsD auto im.dims dout) (h : RowOk im.dims.w (execSe se))
    (hw : im.dims.w < 2 ^ 31) (hne : ∀ p, Img.In im.dims p → nbhd (execSe se) im p ≠ [])
    (hrk : ∀ n, 1 ≤ n → 0 ≤ rk n ∧ rk n < n) :
    ∃ r, rankFilter auto false rk se im dout = some (.ok r) ∧ r.dims = im.dims ∧
      ∀ p, Img.In im.dims p → ∃ v, r.at? p = some v ∧
        IsRank (nbhd (execSe se) im p) (rk (nbhd (execSe se) im p).length).toNat v := by
  have hF : ∀ p, Img.In im.dims p → ((fun l : List α =>
      if 0 ≤ rk l.length then (sorted l)[(rk l.length).toNat]? else none)
      (nbhd (execSe se) im p)).isSome := by
    intro p hp
    have := List.length_pos_of_ne_nil (hne p hp)
    obtain ⟨h1, h2⟩ := hrk _ this
    simp only
    rw [if_pos h1, List.getElem?_eq_getElem (by rw [sorted_length]; omega)]; rfl
  obtain ⟨r, h1, h2, h3⟩ := neighGuarded_spec (raw := default) (F := fun l : List α =>
      if 0 ≤ rk l.length then (sorted l)[(rk l.length).toNat]? else none) ha h hw hF
  refine ⟨r, h1, h2, fun p hp => ?_⟩
  obtain ⟨v, hv⟩ := Option.isSome_iff_exists.mp (hF p hp)
  refine ⟨v, (h3 p hp).trans hv, isRank_sorted ?_⟩
  have := List.length_pos_of_ne_nil (hne p hp)
  simpa only [if_pos (hrk _ this).1] using hv

/-- **C54**: percentile 0 gives the smallest value of the neighbourhood. -/
theorem C54_rank_zero_partial [LinearOrder α] [Inhabited α] (auto : Bool) (se : StrElt) (im : Img α)
    (dout : Dims) (ha : AcceptsD auto im.dims dout) (h : RowOk im.dims.w (execSe se))
    (hw : im.dims.w < 2 ^ 31) (hne : ∀ p, Img.In im.dims p → nbhd (execSe se) im p ≠ []) :
    ∃ r, rankFilter auto false (fun _ => 0) se im dout = some (.ok r) ∧ r.dims = im.dims ∧
      ∀ p, Img.In im.dims p → ∃ v, r.at? p = some v ∧
        IsLeast {u | ∃ q, seRel (execSe se) p q ∧ im.at? q = some u} v := by
  obtain ⟨r, h1, h2, h3⟩ := C54_rank_partial auto (fun _ => 0) se im dout ha h hw hne
    (fun n hn => ⟨le_rfl, by omega⟩)
  refine ⟨r, h1, h2, fun p hp => ?_⟩
  obtain ⟨v, hv, hr⟩ := h3 p hp
  refine ⟨v, hv, mem_nbhd.mp hr.1, fun u hu => ?_⟩
  have hu := mem_nbhd.mpr hu
  by_contra hlt
  have h0 := hr.2.1
  have : 0 < (nbhd (execSe se) im p).countP (fun u => decide (u < v)) :=
    List.countP_pos_iff.mpr ⟨u, hu, by simpa using hlt⟩
  rw [Int.toNat_zero] at h0
  omega

/-- **C54 fails** for the percentile 1 on every accepted image: `n * 1.0` is `n`, one past the end of
the sorted values. -/
theorem C54_rank_one_bug [LinearOrder α] [Inhabited α] (auto : Bool) (se : StrElt) (im : Img α)
    (dout : Dims) (ha : AcceptsD auto im.dims dout) :
    rankFilter auto false (fun n => n) se im dout = none := by
  unfold rankFilter neighGuarded
  rw [checkDims_ok ha]
  unfold execNeigh
  rw [if_neg (by simp), if_neg]
  · rfl
  · rintro ⟨_, h⟩
    have hc := ha.1
    unfold Dims.count at hc
    have hd : 0 < im.dims.d := Nat.pos_of_ne_zero fun e => hc (by rw [e]; simp)
    have hh : 0 < im.dims.h := Nat.pos_of_ne_zero fun e => hc (by rw [e]; simp)
    have hw : 0 < im.dims.w := Nat.pos_of_ne_zero fun e => hc (by rw [e]; simp)
    have := h 0 hd 0 hh 0 hw
    cases hv : pixelVals (execSe se) im 0 0 0 with
    | none => rw [hv] at this; simp at this
    | some l =>
      rw [hv] at this
      simp [sorted_length] at this

/-- **C54**: `median` and `rank` are undefined as soon as one neighbourhood is empty (first element of an
empty vector). -/
theorem C54_empty_bug [LinearOrder α] [Inhabited α] (auto : Bool) (se : StrElt) (im : Img α)
    (dout : Dims) (ha : AcceptsD auto im.dims dout) (h : RowOk im.dims.w (execSe se))
    (hw : im.dims.w < 2 ^ 31) (p : IntPoint) (hp : Img.In im.dims p)
    (he : nbhd (execSe se) im p = []) : median auto false se im dout = none := by
  unfold median neighGuarded
  rw [checkDims_ok ha]
  unfold execNeigh
  rw [if_neg (by simp), if_neg]
  · rfl
  · rintro ⟨_, hall⟩
    have hp' := hp
    unfold Img.In at hp'
    have := hall p.z.toNat (by omega) p.y.toNat (by omega) p.x.toNat (by omega)
    have e : Img.pt p.x.toNat p.y.toNat p.z.toNat = p := by
      obtain ⟨x, y, z⟩ := p
      simp only [Img.pt, IntPoint.mk.injEq]
      simp only at hp'
      omega
    rw [pixelVals_eq h hw (by rw [e]; exact hp), e] at this
    change ((sorted (nbhd (execSe se) im p))[(nbhd (execSe se) im p).length / 2]?).isSome at this
    rw [he] at this
    simp [sorted] at this

/-- **C54** (companion): `mean` is between the smallest and the largest value of the neighbourhood. The
quotient is exact here, computed in `double` in the code. -/
theorem C54_mean_partial (auto : Bool) (se : StrElt) (im : Img (Px t)) (dout : Dims)
    (hs : t.signed = false)
    (ha : AcceptsD auto im.dims dout) (h : RowOk im.dims.w (execSe se)) (hw : im.dims.w < 2 ^ 31)
    (hne : ∀ p, Img.In im.dims p → nbhd (execSe se) im p ≠ []) :
    ∃ r, mean auto false se im dout = some (.ok r) ∧ r.dims = im.dims ∧
      ∀ p, Img.In im.dims p → ∃ v, r.at? p = some v ∧
        v.val * (nbhd (execSe se) im p).length ≤ ((nbhd (execSe se) im p).map Px.val).sum ∧
        ((nbhd (execSe se) im p).map Px.val).sum < (v.val + 1) * (nbhd (execSe se) im p).length ∧
        ∀ u, (∀ q w, seRel (execSe se) p q → im.at? q = some w → w ≤ u) → v ≤ u := by
  have hF : ∀ p, Img.In im.dims p → ((fun l : List (Px t) => if l = [] then none else
      some (t.wrap ((l.map Px.val).sum.tdiv l.length))) (nbhd (execSe se) im p)).isSome := by
    intro p hp
    simp only
    rw [if_neg (hne p hp)]; rfl
  obtain ⟨r, h1, h2, h3⟩ := neighGuarded_spec (raw := Px.zero)
    (F := fun l : List (Px t) => if l = [] then none else
      some (t.wrap ((l.map Px.val).sum.tdiv l.length))) ha h hw hF
  refine ⟨r, h1, h2, fun p hp => ?_⟩
  have h4 := h3 p hp
  simp only [if_neg (hne p hp)] at h4
  have hpos : 0 < (nbhd (execSe se) im p).length := List.length_pos_of_ne_nil (hne p hp)
  have hmem : ∀ w, w ∈ nbhd (execSe se) im p ↔ ∃ q, seRel (execSe se) p q ∧ im.at? q = some w :=
    fun w => mem_nbhd
  generalize nbhd (execSe se) im p = l at *
  have hsum0 : ∀ l : List (Px t), 0 ≤ (l.map Px.val).sum := by
    intro l
    induction l with
    | nil => simp
    | cons a l ih =>
      rw [List.map_cons, List.sum_cons]
      have := a.lo_le
      rw [lo_unsigned hs] at this
      omega
  have hsum : ∀ (b : Int) (l : List (Px t)), (∀ w ∈ l, w.val ≤ b) →
      (l.map Px.val).sum ≤ b * l.length := by
    intro b l
    induction l with
    | nil => simp
    | cons a l ih =>
      intro hb
      rw [List.map_cons, List.sum_cons, List.length_cons]
      have h1 := hb a (by simp)
      have h2 := ih fun w hw => hb w (by simp [hw])
      push_cast
      linarith [mul_add b (l.length : Int) 1]
  have hq0 : 0 ≤ (l.map Px.val).sum.tdiv l.length := Int.tdiv_nonneg (hsum0 l) (by omega)
  have hdiv : (l.map Px.val).sum.tdiv l.length = (l.map Px.val).sum / l.length :=
    Int.tdiv_eq_ediv_of_nonneg (hsum0 l)
  have hle : ∀ b, (∀ w ∈ l, w.val ≤ b) → (l.map Px.val).sum / l.length ≤ b := by
    intro b hb
    have := hsum b l hb
    exact Int.ediv_le_of_le_mul (by omega) this
  rw [hdiv] at hq0 h4
  have hhi : (l.map Px.val).sum / l.length ≤ t.hi := hle _ fun w _ => w.le_hi
  refine ⟨_, h4, ?_⟩
  have hwrap : (t.wrap ((l.map Px.val).sum / l.length)).val = (l.map Px.val).sum / l.length :=
    t.wrap_of_mem (by rw [lo_unsigned hs]; exact hq0) hhi
  rw [hwrap]
  refine ⟨Int.ediv_mul_le _ (by omega), Int.lt_ediv_add_one_mul_self _ (by omega), fun u hu => ?_⟩
  change (t.wrap _).val ≤ u.val
  rw [hwrap]
  refine hle _ fun w hw => ?_
  obtain ⟨q, hq, hqw⟩ := (hmem w).mp hw
  exact hu q w hq hqw

/-! ### Examples -/

/-- C40 and C54: accepted images, square and hexagonal neighbourhoods. -/
example : AcceptsD false (im8 ⟨3, 2, 1⟩ [7, 7, 9, 1, 2, 3]).dims ⟨3, 2, 1⟩ ∧
    RowOk 3 (execSe (SquSE 1)) ∧ RowOk 3 (execSe (HexSE 1)) ∧ RowOk 4 (execSe (HexSE 2)) ∧
    vals8 (neighbors false UINT8 false (SquSE 1) (im8 ⟨3, 2, 1⟩ [7, 7, 9, 1, 2, 3]) ⟨3, 2, 1⟩) =
      [3, 5, 4, 3, 5, 4] ∧
    vals8 (neighbors false UINT8 false (HexSE 1) (im8 ⟨3, 2, 1⟩ [7, 7, 9, 1, 2, 3]) ⟨3, 2, 1⟩) =
      [2, 4, 4, 3, 5, 3] :=
  ⟨⟨by decide, by decide, Or.inl rfl⟩, by decide, by decide, by decide +kernel, by decide +kernel,
    by decide +kernel⟩

/-- The elements of the example have no empty neighbourhood. -/
theorem nbhd_ne_nil {se : StrElt} {im : Img α} (h : ⟨0, 0, 0⟩ ∈ se.points) (p : IntPoint)
    (hp : Img.In im.dims p) : nbhd se im p ≠ [] := by
  have : im.at? p = some (im.px p.x.toNat p.y.toNat p.z.toNat) := Img.at?_some _ _ hp
  have : im.px p.x.toNat p.y.toNat p.z.toNat ∈ nbhd se im p :=
    mem_nbhd.mpr ⟨p, ⟨⟨0, 0, 0⟩, h, by simp [phys]⟩, this⟩
  intro e; rw [e] at this; simp at this

example : (⟨0, 0, 0⟩ : IntPoint) ∈ (execSe (SquSE 1)).points ∧
    vals8 (median false false (SquSE 1) (im8 ⟨3, 2, 1⟩ [7, 7, 9, 1, 2, 3]) ⟨3, 2, 1⟩) =
      [7, 7, 7, 7, 7, 7] ∧
    vals8 (rankFilter false false (fun _ => 0) (SquSE 1) (im8 ⟨3, 2, 1⟩ [7, 7, 9, 1, 2, 3])
      ⟨3, 2, 1⟩) = [1, 1, 2, 1, 1, 2] ∧
    vals8 (mean false false (SquSE 1) (im8 ⟨3, 2, 1⟩ [7, 7, 9, 1, 2, 3]) ⟨3, 2, 1⟩) =
      [4, 4, 5, 4, 4, 5] := by decide +kernel

/-- **C40 fails** on the hexagonal grid for a point whose shift on odd lines goes beyond the rightmost
point of the element: at the last pixel of the odd line the value counted comes from the next line (here
the pixel of value 3), while the neighbourhood has one value. -/
theorem C40_hex_bug :
    vals8 (neighbors false UINT8 false ⟨true, .generic, 1, [⟨0, 0, 0⟩, ⟨0, -1, 0⟩]⟩
      (im8 ⟨2, 2, 1⟩ [1, 2, 3, 4]) ⟨2, 2, 1⟩) = [1, 1, 2, 2] ∧
    nbhd ⟨true, .generic, 1, [⟨0, 0, 0⟩, ⟨0, -1, 0⟩]⟩ (im8 ⟨2, 2, 1⟩ [1, 2, 3, 4]) ⟨1, 1, 0⟩ =
      [UINT8.wrap 4] ∧
    neighbors false UINT8 false ⟨true, .generic, 1, [⟨0, 0, 0⟩, ⟨0, 1, 0⟩]⟩
      (im8 ⟨2, 3, 1⟩ [1, 2, 3, 4, 5, 6]) ⟨2, 3, 1⟩ matches none := by decide +kernel

/-- C40: the hypotheses of the failure with a wide element. -/
example : (execSe ⟨false, .generic, 1, [⟨-1, 0, 0⟩]⟩).points ≠ [] ∧
    (∀ p ∈ (execSe ⟨false, .generic, 1, [⟨-1, 0, 0⟩]⟩).points, -2 ^ 31 ≤ p.x ∧ p.x < 0) ∧
    nbhd (execSe ⟨false, .generic, 1, [⟨1, 0, 0⟩]⟩) (im8 ⟨2, 1, 1⟩ [1, 2]) ⟨1, 0, 0⟩ = [] ∧
    RowOk 2 (execSe ⟨false, .generic, 1, [⟨1, 0, 0⟩]⟩) := by decide

end Smil
