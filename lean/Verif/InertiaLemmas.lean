import Mathlib.Tactic.Ring
import Mathlib.Tactic.FieldSimp
import Mathlib.Tactic.Linarith
import Mathlib.Algebra.Order.Field.Rat
import Verif.Inertia
import Verif.PropsMeasures
import Verif.PropsBlobMeasures

/-!
# Sums over the pixels of a list
-/

namespace Smil
section
variable {t : PT} {κ : Type} [LinearOrder κ]

/-! ### Specification -/

/-- The sum of `f` over pixels, each one weighted by its value. -/
def massSum (l : List (IntPoint × Px t)) (f : IntPoint → ℚ) : ℚ := (l.map fun e => (e.2.val : ℚ) * f e.1).sum

/-- The mass: the sum of the values. -/
def massOf (l : List (IntPoint × Px t)) : ℚ := massSum l fun _ => 1

/-- The coordinate `f` of the barycentre. -/
def baryOf (l : List (IntPoint × Px t)) (f : IntPoint → ℚ) : ℚ := massSum l f / massOf l

/-- The second order moment of the coordinates `f` and `g` about the barycentre. -/
def comoment (l : List (IntPoint × Px t)) (f g : IntPoint → ℚ) : ℚ := massSum l fun p => (f p - baryOf l f) * (g p - baryOf l g)

/-- The coordinates of a point. -/
def cX (p : IntPoint) : ℚ := p.x
@[inherit_doc cX] def cY (p : IntPoint) : ℚ := p.y
@[inherit_doc cX] def cZ (p : IntPoint) : ℚ := p.z

/-! ### Lemmas -/

theorem massSum_nil (f : IntPoint → ℚ) : massSum ([] : List (IntPoint × Px t)) f = 0 := rfl

theorem massSum_cons (e : IntPoint × Px t) (l : List (IntPoint × Px t)) (f : IntPoint → ℚ) :
    massSum (e :: l) f = e.2.val * f e.1 + massSum l f := by
  unfold massSum
  rw [List.map_cons, List.sum_cons]

theorem massSum_add (l : List (IntPoint × Px t)) (f g : IntPoint → ℚ) : massSum l (fun p => f p + g p) = massSum l f + massSum l g := by
  induction l with
  | nil => simp [massSum_nil]
  | cons e l ih => simp only [massSum_cons, ih]; ring

theorem massSum_mul (l : List (IntPoint × Px t)) (c : ℚ) (f : IntPoint → ℚ) : massSum l (fun p => c * f p) = c * massSum l f := by
  induction l with
  | nil => simp [massSum_nil]
  | cons e l ih => simp only [massSum_cons, ih]; ring

theorem massSum_congr (l : List (IntPoint × Px t)) (f g : IntPoint → ℚ) (h : ∀ p, f p = g p) : massSum l f = massSum l g := by
  rw [funext h]

theorem massSum_shift (l : List (IntPoint × Px t)) (f g : IntPoint → ℚ) (c d : ℚ) :
    massSum l (fun p => (f p - c) * (g p - d)) = massSum l (fun p => f p * g p) - d * massSum l f - c * massSum l g + c * d * massOf l := by
  unfold massOf
  induction l with
  | nil => simp [massSum_nil]
  | cons e l ih => simp only [massSum_cons, ih]; ring

theorem comoment_eq (l : List (IntPoint × Px t)) (f g : IntPoint → ℚ) (h : massOf l ≠ 0) :
    comoment l f g = massSum l (fun p => f p * g p) - massSum l g * massSum l f / massOf l := by
  unfold comoment baryOf
  rw [massSum_shift]
  field_simp
  ring

theorem massSum_zero (l : List (IntPoint × Px t)) (f : IntPoint → ℚ) (h : ∀ e ∈ l, e.2.val = 0) : massSum l f = 0 := by
  induction l with
  | nil => rfl
  | cons e l ih =>
    rw [massSum_cons, ih fun e he => h e (List.mem_cons_of_mem _ he), h e List.mem_cons_self]
    simp

theorem massSum_mono (l : List (IntPoint × Px t)) (f g : IntPoint → ℚ) (hv : ∀ e ∈ l, 0 ≤ e.2.val) (h : ∀ e ∈ l, e.2.val ≠ 0 → f e.1 ≤ g e.1) :
    massSum l f ≤ massSum l g := by
  induction l with
  | nil => simp [massSum_nil]
  | cons e l ih =>
    rw [massSum_cons, massSum_cons]
    refine add_le_add ?_ (ih (fun e he => hv e (List.mem_cons_of_mem _ he)) fun e he => h e (List.mem_cons_of_mem _ he))
    by_cases h0 : e.2.val = 0
    · simp [h0]
    · exact mul_le_mul_of_nonneg_left (h e List.mem_cons_self h0) (by exact_mod_cast hv e List.mem_cons_self)

theorem massSum_nonneg (l : List (IntPoint × Px t)) (f : IntPoint → ℚ) (hv : ∀ e ∈ l, 0 ≤ e.2.val) (h : ∀ p, 0 ≤ f p) : 0 ≤ massSum l f := by
  have := massSum_mono l (fun _ => 0) f hv fun e _ _ => h e.1
  refine le_trans (le_of_eq ?_) this
  have := massSum_mul l 0 f
  simpa using this.symm

/-- The mass is an integer. -/
theorem massOf_int (l : List (IntPoint × Px t)) : ∃ z : Int, massOf l = z := by
  unfold massOf
  induction l with
  | nil => exact ⟨0, by simp [massSum_nil]⟩
  | cons e l ih =>
    obtain ⟨z, hz⟩ := ih
    exact ⟨e.2.val + z, by rw [massSum_cons, hz]; push_cast; ring⟩

theorem massOf_small (l : List (IntPoint × Px t)) : massOf l < 1 / 10 ^ 8 ↔ massOf l ≤ 0 := by
  obtain ⟨z, hz⟩ := massOf_int l
  rw [hz]
  constructor
  · intro h
    have : (z : ℚ) < 1 := by
      refine lt_of_lt_of_le h ?_
      norm_num
    have : z < 1 := by exact_mod_cast this
    exact_mod_cast (by omega : z ≤ 0)
  · intro h
    refine lt_of_le_of_lt h ?_
    norm_num

theorem px_nonneg (hs : t.signed = false) (v : Px t) : 0 ≤ v.val := by
  have := v.lo_le
  rw [lo_unsigned hs] at this
  exact this

/-- With an unsigned type the mass is zero only when every pixel is. -/
theorem massOf_pos (hs : t.signed = false) (l : List (IntPoint × Px t)) : 0 ≤ massOf l ∧ (massOf l = 0 → ∀ e ∈ l, e.2.val = 0) := by
  unfold massOf
  refine ⟨massSum_nonneg l _ (fun e _ => px_nonneg hs e.2) fun _ => by norm_num, ?_⟩
  induction l with
  | nil => simp
  | cons e l ih =>
    intro h
    rw [massSum_cons] at h
    have h1 : (0 : ℚ) ≤ massSum l fun _ => 1 := massSum_nonneg l _ (fun e _ => px_nonneg hs e.2) fun _ => by norm_num
    have h2 : (0 : ℚ) ≤ e.2.val := by exact_mod_cast px_nonneg hs e.2
    have h3 : (e.2.val : ℚ) = 0 := by linarith
    have h4 := ih (by linarith)
    intro a ha
    rw [List.mem_cons] at ha
    rcases ha with rfl | ha
    · exact_mod_cast h3
    · exact h4 a ha

/-! ### The vectors of moments -/

/-- The moments of a list of pixels, in the order of the code. -/
def momsOf (im3d : Bool) (l : List (IntPoint × Px t)) : List ℚ :=
  let M := massSum l
  if im3d then [massOf l, M cX, M cY, M cZ, M fun p => cX p * cY p, M fun p => cX p * cZ p, M fun p => cY p * cZ p,
    M fun p => cX p * cX p, M fun p => cY p * cY p, M fun p => cZ p * cZ p]
  else [massOf l, M cX, M cY, M fun p => cX p * cY p, M fun p => cX p * cX p, M fun p => cY p * cY p]

/-- The moments about the barycentre. -/
def cmomsOf (im3d : Bool) (l : List (IntPoint × Px t)) : List ℚ :=
  let C := comoment l
  if im3d then [massOf l, 0, 0, 0, C cX cY, C cX cZ, C cY cZ, C cX cX, C cY cY, C cZ cZ] else [massOf l, 0, 0, C cX cY, C cX cX, C cY cY]

theorem massSum_cast (l : List (IntPoint × Px t)) (g : IntPoint → Int) (f : IntPoint → ℚ) (h : ∀ p, (g p : ℚ) = f p) :
    (((l.map fun e => e.2.val * g e.1).sum : Int) : ℚ) = massSum l f := by
  induction l with
  | nil => rfl
  | cons e l ih =>
    rw [List.map_cons, List.sum_cons, massSum_cons, Int.cast_add, ih, Int.cast_mul, h]

theorem massSum_cast3 (l : List (IntPoint × Px t)) (a b c : Nat) (f : IntPoint → ℚ)
    (h : ∀ p : IntPoint, (p.x : ℚ) ^ a * (p.y : ℚ) ^ b * (p.z : ℚ) ^ c = f p) :
    (((l.map fun e => e.2.val * e.1.x ^ a * e.1.y ^ b * e.1.z ^ c).sum : Int) : ℚ) = massSum l f := by
  rw [← massSum_cast l (fun p => p.x ^ a * p.y ^ b * p.z ^ c) f fun p => by rw [← h p]; push_cast; ring]
  congr 3
  funext e
  ring

theorem momVec_fold (im3d : Bool) (l : List (IntPoint × Px t)) :
    momVec im3d (l.foldl (momStep im3d) (momFn (t := t) im3d).init) = momsOf im3d l := by
  rw [foldl_mom]
  have e := fun a b c f h => massSum_cast3 l a b c f h
  have e0 := e 0 0 0 (fun _ => 1) fun p => by ring
  have e1 := e 1 0 0 cX fun p => by unfold cX; ring
  have e2 := e 0 1 0 cY fun p => by unfold cY; ring
  have e3 := e 0 0 1 cZ fun p => by unfold cZ; ring
  have e4 := e 1 1 0 (fun p => cX p * cY p) fun p => by unfold cX cY; ring
  have e5 := e 1 0 1 (fun p => cX p * cZ p) fun p => by unfold cX cZ; ring
  have e6 := e 0 1 1 (fun p => cY p * cZ p) fun p => by unfold cY cZ; ring
  have e7 := e 2 0 0 (fun p => cX p * cX p) fun p => by unfold cX; ring
  have e8 := e 0 2 0 (fun p => cY p * cY p) fun p => by unfold cY; ring
  have e9 := e 0 0 2 (fun p => cZ p * cZ p) fun p => by unfold cZ; ring
  unfold momVec momsOf massOf
  cases im3d
  · simp only [Bool.false_eq_true, if_false, momFn, zero_add, e0, e1, e2, e4, e7, e8]
  · simp only [if_true, momFn, zero_add, e0, e1, e2, e3, e4, e5, e6, e7, e8, e9]

theorem measMoments_eq (onlyNZ : Bool) (im : Img (Px t)) (h : im.dims.count ≠ 0) :
    (measMoments onlyNZ im).map (fun z : Int => (z : ℚ)) = momsOf (decide (im.dims.d > 1)) im.scan := by
  rw [C17_moments onlyNZ im h]
  have e := fun a b c f h => massSum_cast3 im.scan a b c f h
  have e0 := e 0 0 0 (fun _ => 1) fun p => by ring
  have e1 := e 1 0 0 cX fun p => by unfold cX; ring
  have e2 := e 0 1 0 cY fun p => by unfold cY; ring
  have e3 := e 0 0 1 cZ fun p => by unfold cZ; ring
  have e4 := e 1 1 0 (fun p => cX p * cY p) fun p => by unfold cX cY; ring
  have e5 := e 1 0 1 (fun p => cX p * cZ p) fun p => by unfold cX cZ; ring
  have e6 := e 0 1 1 (fun p => cY p * cZ p) fun p => by unfold cY cZ; ring
  have e7 := e 2 0 0 (fun p => cX p * cX p) fun p => by unfold cX; ring
  have e8 := e 0 2 0 (fun p => cY p * cY p) fun p => by unfold cY; ring
  have e9 := e 0 0 2 (fun p => cZ p * cZ p) fun p => by unfold cZ; ring
  unfold momentOf momsOf massOf
  by_cases hd : im.dims.d > 1
  · simp only [hd, if_true, decide_true, List.map_cons, List.map_nil, e0, e1, e2, e3, e4, e5, e6, e7, e8, e9]
  · simp only [hd, if_false, decide_false, Bool.false_eq_true, List.map_cons, List.map_nil, e0, e1, e2, e4, e7, e8]

/-- What `centerMoments` needs: a positive mass, or no mass at all. -/
def Massive (l : List (IntPoint × Px t)) : Prop := 0 < massOf l ∨ ∀ e ∈ l, e.2.val = 0

theorem massive_unsigned (hs : t.signed = false) (l : List (IntPoint × Px t)) : Massive l := by
  obtain ⟨h1, h2⟩ := massOf_pos hs l
  rcases h1.lt_or_eq with h | h
  · exact Or.inl h
  · exact Or.inr (h2 h.symm)

theorem centerMoments_eq (im3d : Bool) (l : List (IntPoint × Px t)) (h : Massive l) :
    centerMoments (momsOf im3d l) = some (cmomsOf im3d l) := by
  rcases h with h | h
  · have hn : ¬ massOf l < 1 / 10 ^ 8 := by
      rw [massOf_small]
      exact not_le.mpr h
    have h0 : massOf l ≠ 0 := ne_of_gt h
    cases im3d
    · simp only [momsOf, cmomsOf, Bool.false_eq_true, if_false, centerMoments, if_neg hn, comoment_eq l _ _ h0]
    · simp only [momsOf, cmomsOf, if_true, centerMoments, if_neg hn, comoment_eq l _ _ h0]
  · have hz : ∀ f, massSum l f = 0 := fun f => massSum_zero l f h
    have h0 : massOf l = 0 := hz _
    have hn : (0 : ℚ) < 1 / 10 ^ 8 := by norm_num
    cases im3d
    · simp only [momsOf, cmomsOf, Bool.false_eq_true, if_false, centerMoments, if_pos hn, comoment, hz, h0]
      rfl
    · simp only [momsOf, cmomsOf, if_true, centerMoments, if_pos hn, comoment, hz, h0]
      rfl

theorem IsPerBlob.map {σ ρ : Type} {zero : κ} {onlyNZ : Bool} {lab : Img κ} {f : κ → σ} {res : List (κ × σ)} (h : IsPerBlob zero onlyNZ lab f res)
    (g : κ → σ → ρ) : IsPerBlob zero onlyNZ lab (fun k => g k (f k)) (res.map fun e => (e.1, g e.1 e.2)) := by
  refine ⟨List.pairwise_map.mpr h.sorted, fun k s => ?_⟩
  rw [List.mem_map]
  constructor
  · rintro ⟨⟨k', m⟩, hm, he⟩
    rw [Prod.mk.injEq] at he
    obtain ⟨rfl, rfl⟩ := he
    obtain ⟨a, b⟩ := (h.entries k' m).mp hm
    exact ⟨a, by rw [b]⟩
  · rintro ⟨a, b⟩
    exact ⟨(k, f k), (h.entries k _).mpr ⟨a, rfl⟩, by rw [b]⟩

theorem mapM_eq_map {β γ : Type} (f : β → Option γ) (g : β → γ) (l : List β) (h : ∀ b ∈ l, f b = some (g b)) : l.mapM f = some (l.map g) := by
  induction l with
  | nil => rfl
  | cons b l ih =>
    rw [List.mapM_cons, h b List.mem_cons_self, ih fun c hc => h c (List.mem_cons_of_mem _ hc)]
    rfl

/-- The pixels that are mapped by `blobsMoments`. -/
theorem blobsMoments_eq (zero : κ) (onlyNZ central : Bool) (lab : Img κ) (im : Img (Px t)) (hd : im.dims = lab.dims)
    (hm : central = true → ∀ k, (onlyNZ = true → k ≠ zero) → Massive (blobPts lab k im)) :
    ∃ res, blobsMoments central im (computeBlobs zero onlyNZ lab) = some res ∧
      IsPerBlob zero onlyNZ lab (fun k => (if central then cmomsOf else momsOf) (decide (im.dims.d > 1)) (blobPts lab k im)) res := by
  obtain ⟨res, h1, h2⟩ := C19_measure_pos zero onlyNZ lab im hd (momFn (decide (im.dims.d > 1))) (momStep (decide (im.dims.d > 1)))
    (fun s l x y z _ => rfl)
  have h3 := h2.map (fun _ s => momVec (decide (im.dims.d > 1)) s)
  simp only [momVec_fold] at h3
  unfold blobsMoments
  rw [h1, Option.bind_some]
  cases central
  · exact ⟨_, rfl, h3⟩
  · simp only [if_true]
    generalize hr : List.map (fun e => (e.1, momVec (decide (im.dims.d > 1)) e.2)) res = r at h3
    have h4 := h3.map (fun k _ => cmomsOf (decide (im.dims.d > 1)) (blobPts lab k im))
    refine ⟨_, mapM_eq_map _ (fun e => (e.1, cmomsOf (decide (im.dims.d > 1)) (blobPts lab e.1 im))) r ?_, h4⟩
    rintro ⟨k, s⟩ hk
    obtain ⟨a, b⟩ := (h3.entries k s).mp hk
    simp only [b]
    rw [centerMoments_eq _ _ (hm rfl k a.1)]
    rfl

theorem momAt_eq (r : List (κ × List ℚ)) (hs : r.Pairwise fun a b => a.1 < b.1) (k : κ) (s : List ℚ) (h : (k, s) ∈ r) : momAt r k = s := by
  unfold momAt
  induction r with
  | nil => simp at h
  | cons a r ih =>
    rw [List.pairwise_cons] at hs
    rw [List.mem_cons] at h
    rw [List.find?_cons]
    rcases h with rfl | h
    · simp
    · have hlt := hs.1 _ h
      rw [decide_eq_false (ne_of_lt hlt)]
      exact ih hs.2 h

theorem filterMap_eq_map {β γ : Type} (f : β → Option γ) (g : β → γ) (l : List β) (h : ∀ b ∈ l, f b = some (g b)) : l.filterMap f = l.map g := by
  induction l with
  | nil => rfl
  | cons b l ih =>
    rw [List.filterMap_cons, h b List.mem_cons_self, ih fun c hc => h c (List.mem_cons_of_mem _ hc)]
    rfl

/-- `blobsInertiaMatrix` builds each matrix from the moments of its blob. -/
theorem blobsInertia_eq (zero : κ) (onlyNZ central : Bool) (lab : Img κ) (im : Img (Px t)) (hd : im.dims = lab.dims) (hc : im.dims.count ≠ 0)
    (hm : central = true → ∀ k, (onlyNZ = true → k ≠ zero) → Massive (blobPts lab k im)) (g : κ → List ℚ)
    (hg : ∀ k, inertiaOf (decide (im.dims.d > 1)) ((if central then cmomsOf else momsOf) (decide (im.dims.d > 1)) (blobPts lab k im)) = some (g k)) :
    ∃ res, blobsInertiaMatrix central im (computeBlobs zero onlyNZ lab) = some res ∧ IsPerBlob zero onlyNZ lab g res := by
  obtain ⟨r, h1, h2⟩ := blobsMoments_eq zero onlyNZ central lab im hd hm
  unfold blobsInertiaMatrix
  rw [if_neg hc, h1, Option.map_some]
  have hkeys := (C18_computeBlobs zero onlyNZ lab).keys
  refine ⟨_, rfl, ?_⟩
  have hper := perBlob_of (zero := zero) (onlyNZ := onlyNZ) (lab := lab) (fun _ => ()) (fun _ => ()) (fun _ _ _ => rfl)
  have hper := hper.map (fun k _ => g k)
  rw [List.map_map] at hper
  rw [filterMap_eq_map _ (fun b => (b.1, g b.1))]
  · exact hper
  · rintro ⟨k, l⟩ hkl
    have hk' : (onlyNZ = true → k ≠ zero) ∧ ∃ p, lab.at? p = some k := (hkeys k).mp ⟨l, hkl⟩
    have hin := (h2.entries k _).mpr ⟨hk', rfl⟩
    simp only
    rw [momAt_eq r h2.sorted k _ hin, hg k]
    rfl

end
end Smil
