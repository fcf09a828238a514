import Verif.DrawGraph
import Verif.PropsDraw
import Verif.PropsInertia
import Verif.PropsLabel
import Mathlib.Data.List.Forall2

/-!
# C110: a graph drawn on its mosaic
-/

namespace Smil
section
variable {t : PT} {α W : Type}

/-! ### Specification -/

/-- The pixels of the region `n` of a mosaic. -/
def regionPts (mos : Img (Px t)) (n : Int) : List IntPoint :=
  (scanPts mos.dims).filter fun p => decide ((mos.at? p).map (·.val) = some n)

/-- The node is a region of the mosaic; the value zero is the background. -/
def HasRegion (mos : Img (Px t)) (n : Int) : Prop := n ≠ 0 ∧ regionPts mos n ≠ []

/-- `a` is the mean of the numbers, rounded down. -/
def IsMean (l : List Int) (a : Int) : Prop := a * l.length ≤ l.sum ∧ l.sum < (a + 1) * l.length

/-- The centre of a region: the means of the two coordinates of its pixels. -/
def IsCentre (mos : Img (Px t)) (n : Int) (c : IntPoint) : Prop :=
  IsMean ((regionPts mos n).map (·.x)) c.x ∧ IsMean ((regionPts mos n).map (·.y)) c.y ∧ c.z = 0

/-- What is drawn for an edge: a digital segment between the centres of its two regions, nothing for a loop or when a region is missing. -/
def EdgeSeg (mos : Img (Px t)) (e : GEdge W) (l : List IntPoint) : Prop :=
  (e.src ≠ e.tgt → HasRegion mos e.src → HasRegion mos e.tgt →
    ∃ p q, IsCentre mos e.src p ∧ IsCentre mos e.tgt q ∧ (IsSegment p q l ∨ IsSegment q p l)) ∧
  (e.src = e.tgt ∨ ¬ HasRegion mos e.src ∨ ¬ HasRegion mos e.tgt → l = [])

/-! ### Lemmas -/

theorem mean_unique {l : List Int} {a b : Int} (ha : IsMean l a) (hb : IsMean l b) : a = b := by
  unfold IsMean at ha hb
  have h1 : a * l.length < (b + 1) * l.length := lt_of_le_of_lt ha.1 hb.2
  have h2 : b * l.length < (a + 1) * l.length := lt_of_le_of_lt hb.1 ha.2
  have hl : (0 : Int) ≤ l.length := by positivity
  have := lt_of_mul_lt_mul_right h1 hl
  have := lt_of_mul_lt_mul_right h2 hl
  omega

theorem blobPts_region (mos : Img (Px t)) (k : Px t) :
    (blobPts mos k mos).map (·.1) = regionPts mos k.val := by
  unfold blobPts regionPts Img.scan
  induction scanPts mos.dims with
  | nil => rfl
  | cons p l ih =>
    cases hp : mos.at? p with
    | none =>
      rw [List.filterMap_cons_none (by simp [hp]), List.filter_cons_of_neg (by simp [hp]), ih]
    | some v =>
      rw [List.filterMap_cons_some (b := (p, v)) (by simp [hp])]
      by_cases hv : v = k
      · subst hv
        rw [List.filter_cons_of_pos (by simp [hp]), List.filter_cons_of_pos (by simp [hp]), List.map_cons, ih]
      · have hv' : v.val ≠ k.val := fun h => hv (Px.ext h)
        rw [List.filter_cons_of_neg (by simp [hp, hv]), List.filter_cons_of_neg (by simp [hp, hv']), ih]

theorem mem_regionPts (mos : Img (Px t)) (n : Int) (p : IntPoint) :
    p ∈ regionPts mos n ↔ (mos.at? p).map (·.val) = some n := by
  unfold regionPts
  rw [List.mem_filter, decide_eq_true_eq, mem_scanPts, and_iff_right_iff_imp]
  intro h
  obtain ⟨v, hv, _⟩ := Option.map_eq_some_iff.mp h
  exact Img.at?_eq_some_in _ _ _ hv

theorem region_iff (mos : Img (Px t)) (k : Px t) :
    regionPts mos k.val ≠ [] ↔ ∃ p, mos.at? p = some k := by
  constructor
  · intro h
    obtain ⟨p, hp⟩ := List.exists_mem_of_ne_nil _ h
    obtain ⟨v, hv, e⟩ := Option.map_eq_some_iff.mp ((mem_regionPts mos _ p).mp hp)
    exact ⟨p, by rw [hv, Px.ext e]⟩
  · rintro ⟨p, hp⟩
    exact List.ne_nil_of_mem ((mem_regionPts mos k.val p).mpr (by rw [hp]; rfl))

theorem sum_cast (l : List IntPoint) (f : IntPoint → Int) : (l.map fun p => (f p : ℚ)).sum = ((l.map f).sum : Int) := by
  induction l with
  | nil => simp
  | cons p l ih => simp [ih]

theorem blob_mass (mos : Img (Px t)) (k : Px t) :
    massOf (blobPts mos k mos) = k.val * (regionPts mos k.val).length := by
  unfold massOf
  rw [C87_labels, ← blobPts_region]
  simp

theorem blob_bary (mos : Img (Px t)) (k : Px t) (hk : k.val ≠ 0) (f : IntPoint → Int) (g : IntPoint → ℚ) (hg : ∀ p, g p = f p) :
    baryOf (blobPts mos k mos) g = (((regionPts mos k.val).map f).sum : Int) / ((regionPts mos k.val).length : ℚ) := by
  have hk' : (k.val : ℚ) ≠ 0 := by exact_mod_cast hk
  unfold baryOf
  rw [blob_mass, C87_labels, mul_div_mul_left _ _ hk', ← sum_cast, ← blobPts_region, List.map_map]
  congr 2
  exact List.map_congr_left fun e _ => hg e.1

theorem sum_bounds (l : List Int) (m : Int) (h : ∀ a ∈ l, 0 ≤ a ∧ a < m) (hl : l ≠ []) : 0 ≤ l.sum ∧ l.sum < m * l.length := by
  have key : 0 ≤ l.sum ∧ l.sum ≤ (m - 1) * l.length := by
    clear hl
    induction l with
    | nil => simp
    | cons a l ih =>
      have h1 := ih fun b hb => h b (List.mem_cons_of_mem _ hb)
      have h2 := h a List.mem_cons_self
      rw [List.sum_cons, List.length_cons]
      push_cast
      constructor
      · omega
      · have : (m - 1) * (l.length + 1 : Int) = (m - 1) * l.length + (m - 1) := by ring
        omega
  have hp : (0 : Int) < l.length := by exact_mod_cast List.length_pos_of_ne_nil hl
  refine ⟨key.1, ?_⟩
  have : (m - 1) * (l.length : Int) = m * l.length - l.length := by ring
  omega

/-- `int(d)` of the mean of coordinates. -/
theorem dblToInt_mean (l : List Int) (m : Int) (h : ∀ a ∈ l, 0 ≤ a ∧ a < m) (hl : l ≠ []) (hm : m ≤ 2 ^ 31) :
    ∃ a, dblToInt (some ((l.sum : Int) / (l.length : ℚ))) = some a ∧ IsMean l a ∧ 0 ≤ a ∧ a < m := by
  obtain ⟨h0, h1⟩ := sum_bounds l m h hl
  have hp : (0 : Int) < l.length := by exact_mod_cast List.length_pos_of_ne_nil hl
  have hpq : (0 : ℚ) < l.length := by exact_mod_cast hp
  have hq : (0 : ℚ) ≤ (l.sum : Int) / (l.length : ℚ) := div_nonneg (by exact_mod_cast h0) hpq.le
  have hf := Int.floor_le ((l.sum : Int) / (l.length : ℚ))
  have hf' := Int.lt_floor_add_one ((l.sum : Int) / (l.length : ℚ))
  rw [le_div_iff₀ hpq] at hf
  rw [div_lt_iff₀ hpq] at hf'
  have e1 : ⌊(l.sum : Int) / (l.length : ℚ)⌋ * (l.length : Int) ≤ l.sum := by exact_mod_cast hf
  have e2 : l.sum < (⌊(l.sum : Int) / (l.length : ℚ)⌋ + 1) * (l.length : Int) := by exact_mod_cast hf'
  have e0 : 0 ≤ ⌊(l.sum : Int) / (l.length : ℚ)⌋ := Int.floor_nonneg.mpr hq
  have e3 : ⌊(l.sum : Int) / (l.length : ℚ)⌋ < m := lt_of_mul_lt_mul_right (lt_of_le_of_lt e1 h1) hp.le
  refine ⟨⌊(l.sum : Int) / (l.length : ℚ)⌋, ?_, ⟨e1, e2⟩, e0, e3⟩
  unfold dblToInt
  rw [Option.bind_some]
  simp only
  rw [if_neg (not_lt.mpr hq), if_pos ⟨by omega, by omega⟩]

theorem lookup_of_mem {κ σ : Type} [DecidableEq κ] [Preorder κ] (l : List (κ × σ)) (hs : l.Pairwise fun a b => a.1 < b.1) (k : κ) (s : σ) (h : (k, s) ∈ l) :
    l.lookup k = some s := by
  induction l with
  | nil => cases h
  | cons e l ih =>
    obtain ⟨k', s'⟩ := e
    rw [List.pairwise_cons] at hs
    rcases List.mem_cons.mp h with h | h
    · obtain ⟨rfl, rfl⟩ := Prod.mk.injEq .. ▸ h
      simp
    · have := hs.1 _ h
      rw [List.lookup_cons, beq_false_of_ne (ne_of_gt this)]
      exact ih hs.2 h

theorem lookup_none {κ σ : Type} [DecidableEq κ] (l : List (κ × σ)) (k : κ) (h : ∀ s, (k, s) ∉ l) : l.lookup k = none := by
  induction l with
  | nil => rfl
  | cons e l ih =>
    obtain ⟨k', s'⟩ := e
    have hk : k ≠ k' := fun e => h s' (by rw [e]; exact List.mem_cons_self)
    rw [List.lookup_cons, beq_false_of_ne hk]
    exact ih fun s hs => h s (List.mem_cons_of_mem _ hs)

/-- What the map of the barycentres holds for a node. -/
theorem bary_lookup (mos : Img (Px t)) (hw : mos.dims.w ≤ 2 ^ 31) (hh : mos.dims.h ≤ 2 ^ 31) :
    ∃ barys, blobsBarycenter mos (computeBlobs Px.zero true mos) = some barys ∧ ∀ n, t.lo ≤ n → n ≤ t.hi →
      (¬ HasRegion mos n → barys.lookup (t.wrap n) = none) ∧
      (HasRegion mos n → ∃ x y r a b, barys.lookup (t.wrap n) = some (x :: y :: r) ∧ dblToInt x = some a ∧ dblToInt y = some b ∧
        IsCentre mos n ⟨a, b, 0⟩ ∧ Img.In mos.dims ⟨a, b, 0⟩) := by
  obtain ⟨barys, hb, hp⟩ := C87_blobsBarycenter (Px.zero : Px t) true mos mos rfl (by
    intro k hk hx
    rw [blob_mass]
    have h1 : k.val ≠ 0 := fun h => hk rfl (Px.ext h)
    have h2 := List.length_pos_of_ne_nil ((region_iff mos k).mpr hx)
    exact mul_ne_zero (by exact_mod_cast h1) (by exact_mod_cast h2.ne'))
  refine ⟨barys, hb, fun n h1 h2 => ?_⟩
  have hv := t.wrap_of_mem h1 h2
  have hR : HasRegion mos n ↔ (true = true → t.wrap n ≠ Px.zero) ∧ ∃ p, mos.at? p = some (t.wrap n) := by
    unfold HasRegion
    rw [← region_iff, hv]
    refine and_congr ⟨fun h _ e => h ?_, fun h e => h rfl (Px.ext (by rw [hv, e]; rfl))⟩ Iff.rfl
    rw [← hv, e]
    rfl
  constructor
  · intro hn
    exact lookup_none _ _ fun s hs => hn (hR.mpr ((hp.entries _ _).mp hs).1)
  · intro hn
    have hl := lookup_of_mem _ hp.sorted _ _ ((hp.entries (t.wrap n) _).mpr ⟨hR.mp hn, rfl⟩)
    have hz : (t.wrap n).val ≠ 0 := by rw [hv]; exact hn.1
    have hin : ∀ p ∈ regionPts mos n, Img.In mos.dims p := by
      intro p hp
      obtain ⟨v, hv, _⟩ := Option.map_eq_some_iff.mp ((mem_regionPts mos n p).mp hp)
      exact Img.at?_eq_some_in _ _ _ hv
    obtain ⟨a, ha, ma, a0, a1⟩ := dblToInt_mean ((regionPts mos n).map (·.x)) mos.dims.w (by
      intro a ha
      obtain ⟨p, hp, rfl⟩ := List.mem_map.mp ha
      have := hin p hp
      unfold Img.In at this
      omega) (by simpa using hn.2) (by exact_mod_cast hw)
    obtain ⟨b, hb, mb, b0, b1⟩ := dblToInt_mean ((regionPts mos n).map (·.y)) mos.dims.h (by
      intro a ha
      obtain ⟨p, hp, rfl⟩ := List.mem_map.mp ha
      have := hin p hp
      unfold Img.In at this
      omega) (by simpa using hn.2) (by exact_mod_cast hh)
    obtain ⟨p, hp⟩ := List.exists_mem_of_ne_nil _ hn.2
    have hd := hin p hp
    rw [List.length_map] at ha hb
    have ex := blob_bary mos (t.wrap n) hz (·.x) cX fun _ => rfl
    have ey := blob_bary mos (t.wrap n) hz (·.y) cY fun _ => rfl
    rw [hv] at ex ey
    have hI : Img.In mos.dims ⟨a, b, 0⟩ := by
      unfold Img.In at hd ⊢
      dsimp only
      omega
    refine ⟨some (baryOf (blobPts mos (t.wrap n) mos) cX), some (baryOf (blobPts mos (t.wrap n) mos) cY),
      if mos.dims.d > 1 then [some (baryOf (blobPts mos (t.wrap n) mos) cZ)] else [], a, b, ?_, by rw [ex]; exact ha, by rw [ey]; exact hb,
      ⟨ma, mb, rfl⟩, hI⟩
    rw [hl]
    split <;> rfl

theorem drawEdge_ok (mos : Img (Px t)) (barys : List (Px t × List (Option ℚ)))
    (hb : ∀ n, t.lo ≤ n → n ≤ t.hi →
      (¬ HasRegion mos n → barys.lookup (t.wrap n) = none) ∧
      (HasRegion mos n → ∃ x y r a b, barys.lookup (t.wrap n) = some (x :: y :: r) ∧ dblToInt x = some a ∧ dblToInt y = some b ∧
        IsCentre mos n ⟨a, b, 0⟩ ∧ Img.In mos.dims ⟨a, b, 0⟩))
    (v : α) (e : GEdge W) (h1 : t.lo ≤ e.src ∧ e.src ≤ t.hi) (h2 : t.lo ≤ e.tgt ∧ e.tgt ≤ t.hi) (im : Img α) (hd : im.dims = mos.dims) :
    ∃ l r, EdgeSeg mos e l ∧ drawEdge barys v im e = some r ∧ IsPainted im v (· ∈ l) r := by
  have hnil : IsPainted im v (· ∈ ([] : List IntPoint)) im := (IsPainted.nil im v).congr (by simp)
  by_cases hst : e.src = e.tgt
  · exact ⟨[], im, ⟨fun h => absurd hst h, fun _ => rfl⟩, by unfold drawEdge; rw [if_pos hst], hnil⟩
  obtain ⟨n1, y1⟩ := hb e.src h1.1 h1.2
  obtain ⟨n2, y2⟩ := hb e.tgt h2.1 h2.2
  by_cases hs : HasRegion mos e.src
  · obtain ⟨xa, ya, ra, a, b, la, ea, eb, ca, ia⟩ := y1 hs
    by_cases ht : HasRegion mos e.tgt
    · obtain ⟨xc, yc, rc, c, d, lc, ec, ed, cc, ic⟩ := y2 ht
      obtain ⟨l, r, hl, hr, hp⟩ := C67_drawLine_inside im a b c d v (by rw [hd]; exact ia) (by rw [hd]; exact ic)
      refine ⟨l, r, ⟨fun _ _ _ => ⟨_, _, ca, cc, hl⟩, fun h => ?_⟩, ?_, hp⟩
      · rcases h with h | h | h
        exacts [absurd h hst, absurd hs h, absurd ht h]
      · unfold drawEdge
        rw [if_neg hst, la, lc]
        simp only [Option.getD_some, ea, eb, ec, ed, Option.bind_some, hr]
        rfl
    · refine ⟨[], im, ⟨fun _ _ h => absurd h ht, fun _ => rfl⟩, ?_, hnil⟩
      unfold drawEdge
      rw [if_neg hst, la, n2 ht]
      rfl
  · refine ⟨[], im, ⟨fun _ h => absurd h hs, fun _ => rfl⟩, ?_, hnil⟩
    unfold drawEdge
    rw [if_neg hst, n1 hs]
    rfl

theorem foldlM_edges {ι : Type} (v : α) (f : Img α → ι → Option (Img α)) (S : ι → List IntPoint → Prop) (D : Dims) (l : List ι)
    (hf : ∀ i ∈ l, ∀ im : Img α, im.dims = D → ∃ s r, S i s ∧ f im i = some r ∧ IsPainted im v (· ∈ s) r) :
    ∀ im : Img α, im.dims = D → ∃ segs r, List.Forall₂ S l segs ∧ l.foldlM f im = some r ∧ IsPainted im v (fun q => ∃ s ∈ segs, q ∈ s) r := by
  induction l with
  | nil => exact fun im _ => ⟨[], im, .nil, rfl, (IsPainted.nil im v).congr (by simp)⟩
  | cons i l ih =>
    intro im hD
    obtain ⟨s, r, hs, hr, hp⟩ := hf i (by simp) im hD
    obtain ⟨segs, r', hs', hr', hp'⟩ := ih (fun j hj => hf j (by simp [hj])) r (hp.1.trans hD)
    refine ⟨s :: segs, r', .cons hs hs', ?_, (hp.trans hp').congr (by simp)⟩
    rw [List.foldlM_cons, hr]
    exact hr'

/-! ### Properties -/

/-- **C110**. `drawGraph` leaves the picture as it is but for one digital segment for each edge, drawn with the given value between the centres of the two regions: loops and edges of which
an end is not a region of the mosaic draw nothing. The nodes have to be values of the pixels of the mosaic. -/
theorem C110_drawGraph (auto : Bool) (raw : Nat → α) (mos : Img (Px t)) (edges : List (GEdge W)) (out : Img α) (v : α)
    (ha : AcceptsD auto mos.dims out.dims) (hw : mos.dims.w ≤ 2 ^ 31) (hh : mos.dims.h ≤ 2 ^ 31)
    (he : ∀ e ∈ edges, (t.lo ≤ e.src ∧ e.src ≤ t.hi) ∧ t.lo ≤ e.tgt ∧ e.tgt ≤ t.hi) :
    ∃ segs r, List.Forall₂ (EdgeSeg mos) edges segs ∧ drawGraph auto raw mos edges out v = some (.ok r) ∧
      IsPainted (if out.dims = mos.dims then out else ⟨mos.dims, raw⟩) v (fun q => ∃ s ∈ segs, q ∈ s) r := by
  obtain ⟨barys, hb, hl⟩ := bary_lookup mos hw hh
  obtain ⟨segs, r, hs, hr, hp⟩ := foldlM_edges v (drawEdge barys v) (EdgeSeg mos) mos.dims edges
    (fun e hm im hd => drawEdge_ok mos barys hl v e (he e hm).1 (he e hm).2 im hd) (setSize raw mos.dims out)
    (by unfold setSize; split <;> simp_all)
  refine ⟨segs, r, hs, ?_, hp⟩
  unfold drawGraph
  rw [checkDims_ok ha]
  simp only
  rw [hb, Option.bind_some, hr]
  rfl

/-- **C110**, the centre of a region is determined, and it is a point of the first slice of the image. -/
theorem C110_centre (mos : Img (Px t)) (n : Int) (hn : regionPts mos n ≠ []) :
    ∃ c, IsCentre mos n c ∧ Img.In mos.dims c ∧ ∀ c', IsCentre mos n c' → c' = c := by
  have hin : ∀ p ∈ regionPts mos n, Img.In mos.dims p := by
    intro p hp
    obtain ⟨v, hv, _⟩ := Option.map_eq_some_iff.mp ((mem_regionPts mos n p).mp hp)
    exact Img.at?_eq_some_in _ _ _ hv
  have mean : ∀ (l : List Int) (m : Int), (∀ a ∈ l, 0 ≤ a ∧ a < m) → l ≠ [] → ∃ a, IsMean l a ∧ 0 ≤ a ∧ a < m := by
    intro l m h hl
    obtain ⟨h0, h1⟩ := sum_bounds l m h hl
    have hp : (0 : Int) < l.length := by exact_mod_cast List.length_pos_of_ne_nil hl
    refine ⟨l.sum / l.length, ⟨Int.ediv_mul_le _ hp.ne', Int.lt_ediv_add_one_mul_self _ hp⟩, Int.ediv_nonneg h0 hp.le, ?_⟩
    exact Int.ediv_lt_of_lt_mul hp h1
  obtain ⟨a, ma, a0, a1⟩ := mean ((regionPts mos n).map (·.x)) mos.dims.w (by
    intro a ha
    obtain ⟨p, hp, rfl⟩ := List.mem_map.mp ha
    have := hin p hp
    unfold Img.In at this
    omega) (by simpa using hn)
  obtain ⟨b, mb, b0, b1⟩ := mean ((regionPts mos n).map (·.y)) mos.dims.h (by
    intro a ha
    obtain ⟨p, hp, rfl⟩ := List.mem_map.mp ha
    have := hin p hp
    unfold Img.In at this
    omega) (by simpa using hn)
  obtain ⟨p, hp⟩ := List.exists_mem_of_ne_nil _ hn
  have hd := hin p hp
  refine ⟨⟨a, b, 0⟩, ⟨ma, mb, rfl⟩, ?_, ?_⟩
  · unfold Img.In at hd ⊢
    dsimp only
    omega
  · rintro ⟨x, y, z⟩ ⟨hx, hy, hz⟩
    have e1 := mean_unique hx ma
    have e2 := mean_unique hy mb
    dsimp only at e1 e2 hz
    rw [e1, e2, hz]

/-- **C110**, the errors: an image that is not allocated, and another size when the images are not resized. -/
theorem C110_errors (auto : Bool) (raw : Nat → α) (mos : Img (Px t)) (edges : List (GEdge W)) (out : Img α) (v : α) :
    (mos.dims.count = 0 ∨ out.dims.count = 0 → drawGraph auto raw mos edges out v = some (.error errBadAllocation)) ∧
    (mos.dims.count ≠ 0 → out.dims.count ≠ 0 → out.dims ≠ mos.dims → auto = false → drawGraph auto raw mos edges out v = some (.error errBadSize)) := by
  unfold drawGraph checkDims
  refine ⟨fun h => by rw [if_pos h], fun h1 h2 h3 h4 => ?_⟩
  rw [if_neg (by tauto), if_neg h3, h4]
  rfl

/-- **C110, a node outside the pixel type**: the key of the map is a pixel, so the node 257 of a graph drawn on a `UINT8` mosaic is taken for the region 1. No region has the value 257, and
the segment is drawn. -/
theorem C110_alias_bug :
    let mos : Img (Px UINT8) := im8 ⟨3, 1, 1⟩ [1, 0, 2]
    ¬ HasRegion mos 257 ∧
      (drawGraph false (fun _ => 0) mos [⟨257, 2, ()⟩] ⟨⟨3, 1, 1⟩, fun _ => 0⟩ 9).map (fun r => r.toOption.map fun r => (List.range 3).map r.buf) =
        some (some [9, 9, 9]) := by
  refine ⟨?_, by decide +kernel⟩
  rintro ⟨_, h⟩
  exact h (by decide +kernel)

/-- **C110, volumes**: the third coordinate of the centres is dropped. Two regions of the second slice are joined by a segment drawn on the first one. -/
theorem C110_slice_bug :
    let mos : Img (Px UINT8) := im8 ⟨3, 1, 2⟩ [0, 0, 0, 1, 0, 2]
    (∀ n, HasRegion mos n → ∀ p ∈ regionPts mos n, p.z = 1) ∧
      (drawGraph false (fun _ => 0) mos [⟨1, 2, ()⟩] ⟨⟨3, 1, 2⟩, fun _ => 0⟩ 9).map (fun r => r.toOption.map fun r => (List.range 6).map r.buf) =
        some (some [9, 9, 9, 0, 0, 0]) := by
  refine ⟨?_, by decide +kernel⟩
  intro n hn p hp
  have h0 := hn.1
  obtain ⟨h1, h2⟩ := List.mem_filter.mp hp
  rw [show scanPts (im8 ⟨3, 1, 2⟩ [0, 0, 0, 1, 0, 2]).dims = [⟨0, 0, 0⟩, ⟨1, 0, 0⟩, ⟨2, 0, 0⟩, ⟨0, 0, 1⟩, ⟨1, 0, 1⟩, ⟨2, 0, 1⟩] by decide +kernel] at h1
  have hz : ∀ x : Int, x = 0 ∨ x = 1 ∨ x = 2 → ((im8 ⟨3, 1, 2⟩ [0, 0, 0, 1, 0, 2]).at? ⟨x, 0, 0⟩).map (·.val) = some 0 := by
    rintro x (rfl | rfl | rfl) <;> decide +kernel
  have h3 := decide_eq_true_eq.mp h2
  by_contra hc
  have : ∃ x : Int, (x = 0 ∨ x = 1 ∨ x = 2) ∧ p = ⟨x, 0, 0⟩ := by
    simp only [List.mem_cons, List.not_mem_nil, or_false] at h1
    rcases h1 with rfl | rfl | rfl | rfl | rfl | rfl
    · exact ⟨0, by simp, rfl⟩
    · exact ⟨1, by simp, rfl⟩
    · exact ⟨2, by simp, rfl⟩
    all_goals exact absurd rfl hc
  obtain ⟨x, hx, rfl⟩ := this
  rw [hz x hx, Option.some.injEq] at h3
  exact h0 h3.symm

/-! ### The hypotheses hold on -/

/-- Three regions, an edge, a loop, an edge of the background and an edge of a region that does not exist: one segment. -/
example :
    let mos : Img (Px UINT8) := im8 ⟨4, 3, 1⟩ [1, 1, 0, 2, 1, 1, 0, 2, 0, 0, 0, 3]
    let edges : List (GEdge Nat) := [⟨1, 3, 7⟩, ⟨2, 2, 1⟩, ⟨0, 1, 4⟩, ⟨2, 9, 5⟩]
    (AcceptsD false mos.dims ⟨4, 3, 1⟩ ∧ ∀ e ∈ edges, (PT.lo UINT8 ≤ e.src ∧ e.src ≤ PT.hi UINT8) ∧ PT.lo UINT8 ≤ e.tgt ∧ e.tgt ≤ PT.hi UINT8) ∧
    (drawGraph false (fun _ => 0) mos edges ⟨⟨4, 3, 1⟩, fun _ => 0⟩ 9).map (fun r => r.toOption.map fun r => (List.range 12).map r.buf) =
      some (some [9, 0, 0, 0, 0, 9, 9, 0, 0, 0, 0, 9]) :=
  ⟨⟨⟨by decide +kernel, by decide +kernel, .inl rfl⟩, by decide +kernel⟩, by decide +kernel⟩

end
end Smil
