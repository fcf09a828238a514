import Verif.Morpho
import Verif.MorphoSpec
import Verif.StrEltLemmas
import Mathlib.Order.Bounds.Basic
import Mathlib.Order.MinMax

/-! # Lemmas on the generic algorithm -/

namespace Smil
variable {α : Type}

/-- The pixel read by the generic algorithm for the output pixel `p` and the element point `b`. -/
def srcPt (odd : Bool) (p b : IntPoint) : IntPoint :=
  ⟨p.x - (b.x + (if odd && (cOdd (p.y + 1) && cOdd (p.z + 1)) && cOdd (p.y - b.y) then 1 else 0)),
    p.y - b.y, p.z - b.z⟩

/-- The shifts the generic algorithm can perform on lines of `w` pixels. -/
def ShiftOK (w : Nat) (se : StrElt) : Prop :=
  ∀ b ∈ se.points, -(w : Int) ≤ b.x ∧ b.x + (if se.odd && cOdd b.y then 1 else 0) ≤ w

instance (w : Nat) (se : StrElt) : Decidable (ShiftOK w se) := by unfold ShiftOK; infer_instance

theorem at?_pt (im : Img α) (x y z : Int) (h : Img.In im.dims ⟨x, y, z⟩) :
    im.at? ⟨x, y, z⟩ = some (im.px x.toNat y.toNat z.toNat) := Img.at?_some _ _ h

theorem genericTerm_spec (border : α) (im : Img α) (odd : Bool) (s l : Nat) (b : IntPoint)
    (out : Line α) (h1 : -(im.dims.w : Int) ≤ b.x)
    (h2 : b.x + (if odd && cOdd b.y then 1 else 0) ≤ im.dims.w) :
    ∃ t, genericTerm border im odd s l b out = some t ∧ ∀ i, i < im.dims.w →
      t i = (im.at? (srcPt odd (Img.pt i l s) b)).getD border := by
  unfold genericTerm extractLine
  simp only
  by_cases hout : (s : Int) - b.z < 0 ∨ (s : Int) - b.z ≥ im.dims.d ∨ (l : Int) - b.y < 0 ∨
      (l : Int) - b.y ≥ im.dims.h
  · refine ⟨_, by rw [if_pos hout], fun i hi => ?_⟩
    rw [copyLine_apply, if_pos hi, Img.at?_none]
    · rfl
    · unfold Img.In srcPt Img.pt; simp only; omega
  · rw [if_neg hout]
    have hx1 : -(im.dims.w : Int) ≤ b.x + (if oddLine odd l s && cOdd ((l : Int) - b.y) then 1 else 0) := by
      split <;> omega
    have hx2 : b.x + (if oddLine odd l s && cOdd ((l : Int) - b.y) then 1 else 0) ≤ im.dims.w := by
      split
      · rename_i hc
        have : (odd && cOdd b.y) = true := by
          simp only [oddLine, Bool.and_eq_true, StrElt.cOdd_iff] at hc ⊢
          refine ⟨hc.1.1, by omega⟩
        rw [if_pos this] at h2; exact h2
      · split at h2 <;> omega
    obtain ⟨o, ho, hoi⟩ := shiftLine_apply (fun i => im.px i ((l : Int) - b.y).toNat
      ((s : Int) - b.z).toNat) _ im.dims.w out border hx1 hx2
    refine ⟨o, ho, fun i hi => ?_⟩
    rw [hoi i hi]
    have e : srcPt odd (Img.pt i l s) b = ⟨(i : Int) - (b.x + (if oddLine odd l s &&
        cOdd ((l : Int) - b.y) then 1 else 0)), (l : Int) - b.y, (s : Int) - b.z⟩ := rfl
    rw [e]
    generalize b.x + (if oddLine odd l s && cOdd ((l : Int) - b.y) then 1 else 0) = dx at *
    by_cases hin : 0 ≤ (i : Int) - dx ∧ (i : Int) - dx < im.dims.w
    · rw [if_pos hin, at?_pt]
      · rfl
      · unfold Img.In; simp only; omega
    · rw [if_neg hin, Img.at?_none]
      · rfl
      · unfold Img.In; simp only; omega

theorem genericLine_spec (f : α → α → α) (border : α) (im : Img α) (odd : Bool) (s l : Nat)
    (p0 : IntPoint) (ps : List IntPoint)
    (h : ∀ b ∈ p0 :: ps, -(im.dims.w : Int) ≤ b.x ∧ b.x + (if odd && cOdd b.y then 1 else 0) ≤ im.dims.w) :
    ∃ t, genericLine f border im odd s l p0 ps = some t ∧ ∀ i, i < im.dims.w →
      t i = ps.foldl (fun acc b => f acc ((im.at? (srcPt odd (Img.pt i l s) b)).getD border))
        ((im.at? (srcPt odd (Img.pt i l s) p0)).getD border) := by
  unfold genericLine
  simp only
  obtain ⟨t0, ht0, hv0⟩ := genericTerm_spec border im odd s l p0 (fun _ => border)
    (h p0 (by simp)).1 (h p0 (by simp)).2
  rw [ht0, Option.bind_some]
  have main : ∀ (ps : List IntPoint) (acc : Line α) (v : Nat → α),
      (∀ b ∈ ps, -(im.dims.w : Int) ≤ b.x ∧ b.x + (if odd && cOdd b.y then 1 else 0) ≤ im.dims.w) →
      (∀ i, i < im.dims.w → acc i = v i) →
      ∃ t, ps.foldlM (fun acc p => (genericTerm border im odd s l p (fun _ => border)).map
        fun t => zipLineInto f im.dims.w acc t) acc = some t ∧ ∀ i, i < im.dims.w →
        t i = ps.foldl (fun acc b => f acc ((im.at? (srcPt odd (Img.pt i l s) b)).getD border))
          (v i) := by
    intro ps
    induction ps with
    | nil => intro acc v _ hacc; exact ⟨acc, rfl, hacc⟩
    | cons b ps ih =>
      intro acc v hb hacc
      obtain ⟨t, ht, hv⟩ := genericTerm_spec border im odd s l b (fun _ => border)
        (hb b (by simp)).1 (hb b (by simp)).2
      rw [List.foldlM_cons, ht]
      simp only [Option.map_some]
      obtain ⟨r, hr, hri⟩ := ih (zipLineInto f im.dims.w acc t)
        (fun i => f (v i) ((im.at? (srcPt odd (Img.pt i l s) b)).getD border))
        (fun b hb' => hb b (by simp [hb'])) (fun i hi => by
          rw [zipLineInto_apply, if_pos hi, hacc i hi, hv i hi])
      exact ⟨r, hr, hri⟩
  exact main ps t0 (fun i => (im.at? (srcPt odd (Img.pt i l s) p0)).getD border)
    (fun b hb => h b (by simp [hb])) hv0

theorem buildLines_spec (D : Dims) (border : α) (g : Nat → Nat → Option (Line α))
    (V : IntPoint → α)
    (hg : ∀ s l, s < D.d → l < D.h → ∃ t, g s l = some t ∧ ∀ i, i < D.w → t i = V (Img.pt i l s)) :
    ∃ im, buildLines D border g = some im ∧ im.dims = D ∧ ∀ p, Img.In D p → im.at? p = some (V p) := by
  unfold buildLines
  rw [if_pos]
  · refine ⟨_, rfl, rfl, fun p hp => ?_⟩
    rw [Img.ofFn_at? _ _ _ hp]
    unfold Img.In at hp
    obtain ⟨t, ht, htv⟩ := hg p.z.toNat p.y.toNat (by omega) (by omega)
    rw [ht]
    simp only
    rw [htv _ (by omega)]
    congr 2
    cases p with | mk x y z =>
    simp only [Img.pt, IntPoint.mk.injEq]
    simp only at hp
    omega
  · intro s hs l hl
    obtain ⟨t, ht, _⟩ := hg s l hs hl
    rw [ht]; rfl

/-- The value computed by the generic algorithm at `p`. -/
def foldVal (f : α → α → α) (border : α) (se : StrElt) (im : Img α) (p : IntPoint) : List IntPoint → α
  | [] => border
  | p0 :: ps => ps.foldl (fun acc b => f acc ((im.at? (srcPt se.odd p b)).getD border))
      ((im.at? (srcPt se.odd p p0)).getD border)

theorem execGeneric_spec (f : α → α → α) (border : α) (se : StrElt) (im out : Img α)
    (hne : se.points ≠ []) (h : ShiftOK im.dims.w se) :
    ∃ r, execGeneric f border se im out = some r ∧ r.dims = im.dims ∧
      ∀ p, Img.In im.dims p → r.at? p = some (foldVal f border se im p se.points) := by
  unfold execGeneric ShiftOK at *
  match hpts : se.points, hne with
  | p0 :: ps, _ =>
    simp only [foldVal]
    rw [hpts] at h
    refine buildLines_spec im.dims border _ (fun p => ps.foldl (fun acc b => f acc
      ((im.at? (srcPt se.odd p b)).getD border)) ((im.at? (srcPt se.odd p p0)).getD border)) ?_
    intro s l hs hl
    exact genericLine_spec f border im se.odd s l p0 ps h

/-- A left fold of maxima. -/
theorem foldl_max_isLUB [LinearOrder α] (g : IntPoint → α) (ps : List IntPoint) (v : α)
    (S : Set α) (hv : IsLUB S v) :
    IsLUB (S ∪ { u | ∃ b ∈ ps, g b = u }) (ps.foldl (fun acc b => max acc (g b)) v) := by
  induction ps generalizing S v with
  | nil => simpa using hv
  | cons b ps ih =>
    rw [List.foldl_cons]
    have h1 : IsLUB (S ∪ {g b}) (max v (g b)) := hv.union isLUB_singleton
    have := ih (max v (g b)) (S ∪ {g b}) h1
    convert this using 1
    ext u
    simp only [List.mem_cons, Set.mem_union, Set.mem_ofPred_eq, Set.mem_singleton_iff]
    constructor
    · rintro (h | ⟨c, rfl | hc, rfl⟩)
      · exact Or.inl (Or.inl h)
      · exact Or.inl (Or.inr rfl)
      · exact Or.inr ⟨c, hc, rfl⟩
    · rintro ((h | rfl) | ⟨c, hc, rfl⟩)
      · exact Or.inl h
      · exact Or.inr ⟨b, Or.inl rfl, rfl⟩
      · exact Or.inr ⟨c, Or.inr hc, rfl⟩

theorem isLUB_getD [LinearOrder α] [OrderBot α] (o : IntPoint → Option α) (l : List IntPoint) (v : α)
    (h : IsLUB { u | ∃ b ∈ l, (o b).getD ⊥ = u } v) : IsLUB { u | ∃ b ∈ l, o b = some u } v := by
  constructor
  · rintro u ⟨b, hb, hu⟩
    exact h.1 ⟨b, hb, by rw [hu]; rfl⟩
  · intro w hw
    apply h.2
    rintro u ⟨b, hb, rfl⟩
    cases hob : o b with
    | none => exact bot_le
    | some x => exact hw ⟨b, hb, hob⟩

theorem foldVal_max_isLUB [LinearOrder α] [OrderBot α] (se : StrElt) (im : Img α) (p : IntPoint)
    (l : List IntPoint) :
    IsLUB { u | ∃ b ∈ l, im.at? (srcPt se.odd p b) = some u } (foldVal max ⊥ se im p l) := by
  apply isLUB_getD (fun b => im.at? (srcPt se.odd p b))
  match l with
  | [] =>
    simp only [foldVal, List.not_mem_nil, false_and, exists_false, Set.ofPred_false]
    exact isLUB_empty
  | p0 :: ps =>
    simp only [foldVal]
    have := foldl_max_isLUB (fun b => (im.at? (srcPt se.odd p b)).getD ⊥) ps _ _
      (isLUB_singleton (a := (im.at? (srcPt se.odd p p0)).getD ⊥))
    convert this using 1
    ext u
    simp only [List.mem_cons, Set.mem_union, Set.mem_ofPred_eq, Set.mem_singleton_iff]
    constructor
    · rintro ⟨c, rfl | hc, rfl⟩
      · exact Or.inl rfl
      · exact Or.inr ⟨c, hc, rfl⟩
    · rintro (rfl | ⟨c, hc, rfl⟩)
      · exact ⟨p0, Or.inl rfl, rfl⟩
      · exact ⟨c, Or.inr hc, rfl⟩

/-- Duality of the fold: minima are maxima of the opposite order. -/
theorem foldVal_min_isGLB [LinearOrder α] [OrderTop α] (se : StrElt) (im : Img α) (p : IntPoint)
    (l : List IntPoint) :
    IsGLB { u | ∃ b ∈ l, im.at? (srcPt se.odd p b) = some u } (foldVal min ⊤ se im p l) :=
  foldVal_max_isLUB (α := αᵒᵈ) se im p l

/-- On even slices (or on the square grid) the pixel read is the geometric one. -/
theorem srcPt_phys (odd : Bool) (p b q : IntPoint) (hz : odd = true → p.z % 2 = 0) :
    q = srcPt odd p b ↔ phys odd q + phys odd b = phys odd p := by
  cases p with | mk px py pz => cases b with | mk bx b' bz => cases q with | mk qx qy qz =>
  simp only [srcPt, phys, IntPoint.mk.injEq, Prod.mk_add_mk, Prod.mk.injEq]
  cases odd with
  | false => simp; omega
  | true =>
    have h1 := StrElt.cOdd_iff (py + 1)
    have h2 := StrElt.cOdd_iff (py - b')
    have h3 : cOdd (pz + 1) = true := (StrElt.cOdd_iff _).mpr (by have := hz rfl; simp at this; omega)
    simp only [h3, Bool.and_true, Bool.true_and, true_and]
    rcases e1 : cOdd (py + 1) with _ | _ <;> rcases e2 : cOdd (py - b') with _ | _ <;>
      simp only [e1, e2, true_iff, Bool.false_eq_true, false_iff] at h1 h2 <;>
      simp <;> constructor <;> rintro ⟨a1, a2, a3⟩ <;> refine ⟨?_, by omega, by omega⟩ <;>
      (first | (subst a2; split_ifs <;> omega) | (split_ifs at a1 <;> omega))

/-- Conversely, the reading at `transposePt b` is the pixel to which `b` carries `p`. -/
theorem srcPt_transpose_phys (odd : Bool) (p b q : IntPoint) (hz : odd = true → p.z % 2 = 0) :
    q = srcPt odd p (StrElt.transposePt odd b) ↔ phys odd p + phys odd b = phys odd q := by
  rw [srcPt_phys odd p _ q hz, phys_transposePt]
  constructor
  · intro h; rw [← h]; simp
  · intro h; rw [← h]; simp

end Smil
