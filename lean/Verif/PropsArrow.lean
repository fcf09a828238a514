import Verif.Arrow

/-! # C53: arrow images encode the comparison with each neighbour -/

namespace Smil
open StrElt
variable {α : Type} {n : Nat}

/-- The pixel compared with `p` for the element point `b`. -/
def arrowPt (odd : Bool) (p b : IntPoint) : IntPoint :=
  ⟨p.x + b.x + (if (odd && cOdd p.y) && cOdd (p.y + b.y + 1) then 1 else 0), p.y + b.y, p.z + b.z⟩

/-- It is the neighbour of `p` in the direction `b` on the grid of the element, on every slice. -/
theorem arrowPt_phys (odd : Bool) (p b q : IntPoint) :
    q = arrowPt odd p b ↔ phys odd p + phys odd b = phys odd q := by
  cases p with | mk px py pz => cases b with | mk bx b' bz => cases q with | mk qx qy qz =>
  simp only [arrowPt, phys, IntPoint.mk.injEq, Prod.mk_add_mk, Prod.mk.injEq]
  cases odd with
  | false => simp; omega
  | true =>
    have h1 := StrElt.cOdd_iff py
    have h2 := StrElt.cOdd_iff (py + b' + 1)
    simp only [Bool.true_and]
    rcases e1 : cOdd py with _ | _ <;> rcases e2 : cOdd (py + b' + 1) with _ | _ <;>
      simp only [e1, e2, true_iff, Bool.false_eq_true, false_iff] at h1 h2 <;>
      simp <;> constructor <;> rintro ⟨a1, a2, a3⟩ <;> refine ⟨?_, by omega, by omega⟩ <;>
      (first | (subst a2; split_ifs <;> omega) | (split_ifs at a1 <;> omega))

/-- The shifts that the lines allow. -/
def ArrowOK (w : Nat) (se : StrElt) : Prop :=
  ∀ b ∈ se.points, -(w : Int) ≤ b.x ∧ b.x + (if se.odd && cOdd b.y then 1 else 0) ≤ w

instance (w : Nat) (se : StrElt) : Decidable (ArrowOK w se) := by unfold ArrowOK; infer_instance

theorem arrowTerm_spec (border : α) (im : Img α) (odd : Bool) (s l : Nat) (b : IntPoint)
    (out : Line α) (h1 : -(im.dims.w : Int) ≤ b.x)
    (h2 : b.x + (if odd && cOdd b.y then 1 else 0) ≤ im.dims.w) :
    ∃ t, arrowTerm border im odd s l b out = some t ∧ ∀ i, i < im.dims.w →
      t i = (im.at? (arrowPt odd (Img.pt i l s) b)).getD border := by
  unfold arrowTerm extractLine
  simp only
  by_cases hout : (s : Int) + b.z < 0 ∨ (s : Int) + b.z ≥ im.dims.d ∨ (l : Int) + b.y < 0 ∨
      (l : Int) + b.y ≥ im.dims.h
  · refine ⟨_, by rw [if_pos hout], fun i hi => ?_⟩
    rw [copyLine_apply, if_pos hi, Img.at?_none]
    · rfl
    · unfold Img.In arrowPt Img.pt; simp only; omega
  · rw [if_neg hout]
    have hc : ((odd && cOdd (l : Int)) && cOdd ((l : Int) + b.y + 1)) = true → (odd && cOdd b.y) = true := by
      simp only [Bool.and_eq_true, StrElt.cOdd_iff]
      rintro ⟨⟨a, b⟩, c⟩
      exact ⟨a, by omega⟩
    have hx1 : -(im.dims.w : Int) ≤ -b.x - (if (odd && cOdd (l : Int)) && cOdd ((l : Int) + b.y + 1) then 1 else 0) := by
      split
      · rename_i hcc; rw [if_pos (hc hcc)] at h2; omega
      · split at h2 <;> omega
    have hx2 : -b.x - (if (odd && cOdd (l : Int)) && cOdd ((l : Int) + b.y + 1) then 1 else 0) ≤ im.dims.w := by
      split <;> omega
    obtain ⟨o, ho, hoi⟩ := shiftLine_apply (fun i => im.px i ((l : Int) + b.y).toNat
      ((s : Int) + b.z).toNat) _ im.dims.w out border hx1 hx2
    refine ⟨o, ho, fun i hi => ?_⟩
    rw [hoi i hi]
    have e : arrowPt odd (Img.pt i l s) b = ⟨(i : Int) - (-b.x - (if (odd && cOdd (l : Int)) &&
        cOdd ((l : Int) + b.y + 1) then 1 else 0)), (l : Int) + b.y, (s : Int) + b.z⟩ := by
      unfold arrowPt Img.pt
      simp only [IntPoint.mk.injEq, and_true]
      omega
    rw [e]
    generalize -b.x - (if (odd && cOdd (l : Int)) && cOdd ((l : Int) + b.y + 1) then (1 : Int) else 0) = dx at *
    by_cases hin : 0 ≤ (i : Int) - dx ∧ (i : Int) - dx < im.dims.w
    · rw [if_pos hin, at?_pt]
      · rfl
      · unfold Img.In; simp only; omega
    · rw [if_neg hin, Img.at?_none]
      · rfl
      · unfold Img.In; simp only; omega

theorem getLsbD_pow (k j : Nat) : (BitVec.ofNat n (2 ^ k)).getLsbD j = (decide (j < n) && decide (j = k)) := by
  rw [BitVec.getLsbD_ofNat, Nat.testBit_two_pow]
  congr 1
  exact decide_eq_decide.mpr eq_comm

theorem arrowLine_spec (cmp : α → α → Bool) (border : α) (im : Img α) (odd : Bool) (s l : Nat) :
    ∀ (pts : List IntPoint) (k : Nat) (acc : Line (BitVec n)), k + pts.length ≤ 64 →
      (∀ b ∈ pts, -(im.dims.w : Int) ≤ b.x ∧ b.x + (if odd && cOdd b.y then 1 else 0) ≤ im.dims.w) →
      ∃ t, (pts.zipIdx k).foldlM (arrowStep cmp border im odd s l) acc = some t ∧
        ∀ i, i < im.dims.w → ∀ j, (t i).getLsbD j = ((acc i).getLsbD j || (decide (j < n) &&
          decide (∃ h : k ≤ j ∧ j - k < pts.length, cmp (im.px i l s)
            ((im.at? (arrowPt odd (Img.pt i l s) (pts[j - k]'h.2))).getD border) = true))) := by
  intro pts
  induction pts with
  | nil =>
    intro k acc _ _
    exact ⟨acc, rfl, fun i _ j => by simp⟩
  | cons b pts ih =>
    intro k acc hk hb
    obtain ⟨t, ht, hv⟩ := arrowTerm_spec border im odd s l b (fun _ => border) (hb b (by simp)).1
      (hb b (by simp)).2
    simp only [List.length_cons] at hk
    obtain ⟨r, hr, hri⟩ := ih (k + 1) (fun i => if i < im.dims.w then
        acc i ||| (if cmp (im.px i l s) (t i) then BitVec.ofNat n (2 ^ k) else 0) else acc i) (by omega)
      (fun c hc => hb c (by simp [hc]))
    refine ⟨r, ?_, fun i hi j => ?_⟩
    · rw [List.zipIdx_cons, List.foldlM_cons]
      have : arrowStep cmp border im odd s l acc (b, k) = some (fun i => if i < im.dims.w then
        acc i ||| (if cmp (im.px i l s) (t i) then BitVec.ofNat n (2 ^ k) else 0) else acc i) := by
        unfold arrowStep
        rw [if_pos (by simp only; omega)]
        simp only [ht, Option.map_some]
      rw [this]
      exact hr
    · rw [hri i hi j, if_pos hi, hv i hi, BitVec.getLsbD_or]
      rw [Bool.or_assoc]
      congr 1
      rw [Bool.eq_iff_iff]
      simp only [Bool.or_eq_true, Bool.and_eq_true, decide_eq_true_eq]
      constructor
      · rintro (h | ⟨hn, ⟨h1, h2⟩, h3⟩)
        · split at h
          · rename_i hc
            rw [getLsbD_pow] at h
            simp only [Bool.and_eq_true, decide_eq_true_eq] at h
            obtain ⟨hn, rfl⟩ := h
            refine ⟨hn, ⟨le_rfl, by simp⟩, ?_⟩
            simpa using hc
          · simp at h
        · refine ⟨hn, ⟨by omega, by simp only [List.length_cons]; omega⟩, ?_⟩
          have e : j - k = (j - (k + 1)) + 1 := by omega
          simpa only [e, List.getElem_cons_succ] using h3
      · rintro ⟨hn, ⟨h1, h2⟩, h3⟩
        rcases Nat.eq_or_lt_of_le h1 with rfl | h1
        · left
          have h3' : cmp (im.px i l s) ((im.at? (arrowPt odd (Img.pt i l s) b)).getD border) = true := by
            simpa using h3
          rw [if_pos h3', getLsbD_pow]
          simp [hn]
        · right
          have e : j - k = (j - (k + 1)) + 1 := by omega
          simp only [List.length_cons] at h2
          refine ⟨hn, ⟨by omega, by omega⟩, ?_⟩
          simpa only [e, List.getElem_cons_succ] using h3

/-- The value stored at `p`: bit `k` tells whether the comparison holds between the pixel and its `k`-th
neighbour, the outside of the image counting as `border`; no other bit is set. -/
def IsArrow (cmp : α → α → Bool) (border : α) (se : StrElt) (im : Img α) (out : Img (BitVec n)) : Prop :=
  out.dims = im.dims ∧ ∀ p a, im.at? p = some a → ∃ v, out.at? p = some v ∧
    ∀ k, v.getLsbD k = true ↔ k < n ∧ ∃ b q, se.points[k]? = some b ∧
      phys se.odd p + phys se.odd b = phys se.odd q ∧ cmp a ((im.at? q).getD border) = true

theorem arrowSingle_spec (cmp : α → α → Bool) (border : α) (raw : Nat → α) (se : StrElt) (im : Img α)
    (out : Img (BitVec n)) (hne : se.points ≠ []) (h64 : se.points.length ≤ 64)
    (hok : ArrowOK im.dims.w se) :
    ∃ r, arrowSingle cmp border raw false se im out = some r ∧ IsArrow cmp border se im r := by
  have key : ∀ s l, ∃ t : Line (BitVec n), arrowLine cmp border im se.odd s l se.points = some t ∧
      ∀ i, i < im.dims.w → ∀ j, (t i).getLsbD j = (decide (j < n) && decide (∃ h : j < se.points.length,
        cmp (im.px i l s) ((im.at? (arrowPt se.odd (Img.pt i l s) (se.points[j]'h))).getD border) = true)) := by
    intro s l
    obtain ⟨t, ht, hv⟩ := arrowLine_spec (n := n) cmp border im se.odd s l se.points 0 (fun _ => 0) (by omega) hok
    refine ⟨t, ht, fun i hi j => ?_⟩
    rw [hv i hi j]
    simp
  obtain ⟨r, hr, hd, hv⟩ := buildLines_spec im.dims (0 : BitVec n)
    (fun s l => arrowLine cmp border im se.odd s l se.points)
    (fun p => ((arrowLine cmp border im se.odd p.z.toNat p.y.toNat se.points).getD (fun _ => 0)) p.x.toNat)
    (by
      intro s l _ _
      obtain ⟨t, ht, -⟩ := key s l
      refine ⟨t, ht, fun i hi => ?_⟩
      simp only [Img.pt, Int.toNat_natCast, ht, Option.getD_some])
  refine ⟨r, ?_, hd, fun p a ha => ?_⟩
  · unfold arrowSingle
    simp only [Bool.false_eq_true, if_false]
    match hp : se.points, hne with
    | p0 :: ps, _ => simp only [hp] at hr ⊢; exact hr
  · have hp := Img.at?_eq_some_in _ _ _ ha
    rw [Img.at?_some im p hp] at ha
    cases ha
    refine ⟨_, hv p hp, fun k => ?_⟩
    obtain ⟨t, ht, htv⟩ := key p.z.toNat p.y.toNat
    have hp' := hp
    unfold Img.In at hp'
    have ep : Img.pt p.x.toNat p.y.toNat p.z.toNat = p := by
      cases p with | mk x y z =>
      simp only at hp'
      simp only [Img.pt, IntPoint.mk.injEq]
      omega
    rw [ht, Option.getD_some, htv _ (by omega) k, ep]
    simp only [Bool.and_eq_true, decide_eq_true_eq]
    constructor
    · rintro ⟨hk, h, hc⟩
      exact ⟨hk, _, _, List.getElem?_eq_getElem h, (arrowPt_phys _ _ _ _).mp rfl, hc⟩
    · rintro ⟨hk, b, q, hb, hq, hc⟩
      obtain ⟨h, rfl⟩ := List.getElem?_eq_some_iff.mp hb
      rw [(arrowPt_phys _ _ _ _).mpr hq] at hc
      exact ⟨hk, h, hc⟩

/-- The comparison that an operation names. -/
def CmpFor [LinearOrder α] (op : String) (cmp : α → α → Bool) : Prop :=
  (op = "==" ∧ ∀ a b, cmp a b = true ↔ a = b) ∨ (op = ">" ∧ ∀ a b, cmp a b = true ↔ a > b) ∨
  (op = ">=" ∧ ∀ a b, cmp a b = true ↔ a ≥ b) ∨ (op = "<" ∧ ∀ a b, cmp a b = true ↔ a < b) ∨
  (op = "<=" ∧ ∀ a b, cmp a b = true ↔ a ≤ b)

theorem CmpFor.arrowOp [LinearOrder α] {op : String} {cmp : α → α → Bool} (h : CmpFor op cmp) :
    Smil.arrowOp op = some cmp := by
  have key : ∀ (P : α → α → Prop) [∀ a b, Decidable (P a b)], (∀ a b, cmp a b = true ↔ P a b) →
      (fun a b => decide (P a b)) = cmp := by
    intro P _ hP
    funext a b
    rw [Bool.eq_iff_iff, decide_eq_true_eq, hP]
  rcases h with ⟨rfl, h⟩ | ⟨rfl, h⟩ | ⟨rfl, h⟩ | ⟨rfl, h⟩ | ⟨rfl, h⟩ <;> rw [← key _ h] <;> rfl

/-- **C53**: for an output type of `n` bits and an element of at most 64 points, bit `k < n` of the arrow
image says whether the comparison holds with neighbour `k`. Missing from the full claim: a neighbour outside
the image is not skipped, it is compared as a pixel of value `border`. -/
theorem C53_arrow_partial [LinearOrder α] (auto : Bool) (raw : Nat → α) (border : α) (op : String)
    (cmp : α → α → Bool) (hop : CmpFor op cmp) (se : StrElt) (hs : se.size ≤ 1)
    (im : Img α) (out : Img (BitVec n)) (ha : im.alloc = true) (hd : out.dims = im.dims ∨ auto = true)
    (hne : se.points ≠ []) (h64 : se.points.length ≤ 64) (hok : ArrowOK im.dims.w se) :
    ∃ r, arrow auto raw border op se im out = some (.ok r) ∧ IsArrow cmp border se im r := by
  unfold arrow
  rw [hop.arrowOp]
  simp only
  rw [if_neg (by rw [ha]; simp)]
  unfold arrowExec
  rw [if_neg (show ¬ se.size > 1 by omega)]
  by_cases hdd : out.dims = im.dims
  · rw [if_pos hdd]
    obtain ⟨r, hr, hv⟩ := arrowSingle_spec cmp border raw se im out hne h64 hok
    exact ⟨r, by rw [hr]; rfl, hv⟩
  · rw [if_neg hdd, if_pos (hd.resolve_left hdd)]
    obtain ⟨r, hr, hv⟩ := arrowSingle_spec cmp border raw se im ⟨im.dims, out.buf⟩ hne h64 hok
    exact ⟨r, by rw [hr]; rfl, hv⟩

/-- **C53**, elements of size greater than one (output of another type than the input): the bits are
those of the points of the homothetic element, in its order. -/
theorem C53_arrow_size_partial [LinearOrder α] (auto : Bool) (raw : Nat → α) (border : α) (op : String)
    (cmp : α → α → Bool) (hop : CmpFor op cmp) (se : StrElt) (hs : 1 < se.size)
    (im : Img α) (out : Img (BitVec n)) (ha : im.alloc = true) (hd : out.dims = im.dims)
    (hne : (se.homothety se.size).points ≠ []) (h64 : (se.homothety se.size).points.length ≤ 64)
    (hok : ArrowOK im.dims.w (se.homothety se.size)) :
    ∃ r, arrow auto raw border op se im out = some (.ok r) ∧ IsArrow cmp border (se.homothety se.size) im r := by
  unfold arrow
  rw [hop.arrowOp]
  simp only
  rw [if_neg (by rw [ha]; simp), if_pos hd]
  unfold arrowExec
  rw [if_pos hs]
  obtain ⟨r, hr, hv⟩ := arrowSingle_spec cmp border raw _ im out hne h64 hok
  exact ⟨r, by rw [hr]; rfl, hv⟩

/-- **C53**, the claim in full for `<` with the default border value (the minimum): no arrow leaves the
image, bit `k` is set exactly when neighbour `k` is in the image and is greater. -/
theorem C53_arrow_low [LinearOrder α] [OrderBot α] (auto : Bool) (raw : Nat → α) (se : StrElt)
    (hs : se.size ≤ 1) (im : Img α) (out : Img (BitVec n)) (ha : im.alloc = true)
    (hd : out.dims = im.dims ∨ auto = true) (hne : se.points ≠ []) (h64 : se.points.length ≤ 64)
    (hok : ArrowOK im.dims.w se) :
    ∃ r, arrow auto raw ⊥ "<" se im out = some (.ok r) ∧ r.dims = im.dims ∧
      ∀ p a, im.at? p = some a → ∃ v, r.at? p = some v ∧ ∀ k, v.getLsbD k = true ↔ k < n ∧
        ∃ b q c, se.points[k]? = some b ∧ phys se.odd p + phys se.odd b = phys se.odd q ∧
          im.at? q = some c ∧ a < c := by
  obtain ⟨r, hr, hv⟩ := C53_arrow_partial (n := n) auto raw ⊥ "<" (fun a b => decide (a < b))
    (.inr (.inr (.inr (.inl ⟨rfl, fun _ _ => decide_eq_true_iff⟩)))) se hs im out ha hd
    hne h64 hok
  refine ⟨r, hr, hv.1, fun p a hpa => ?_⟩
  obtain ⟨v, hv1, hv2⟩ := hv.2 p a hpa
  refine ⟨v, hv1, fun k => ?_⟩
  rw [hv2 k]
  constructor
  · rintro ⟨hk, b, q, hb, hq, hc⟩
    refine ⟨hk, b, q, ?_⟩
    cases hq' : im.at? q with
    | none => rw [hq'] at hc; simp at hc
    | some c => rw [hq'] at hc; exact ⟨c, hb, hq, rfl, by simpa using hc⟩
  · rintro ⟨hk, b, q, c, hb, hq, hc, hlt⟩
    exact ⟨hk, b, q, hb, hq, by rw [hc]; simpa using hlt⟩

/-- **C53**, away from the sides: where all the neighbours are in the image the claim holds in full for every
operation. -/
theorem C53_arrow_interior [LinearOrder α] (auto : Bool) (raw : Nat → α) (border : α) (op : String)
    (cmp : α → α → Bool) (hop : CmpFor op cmp) (se : StrElt) (hs : se.size ≤ 1)
    (im : Img α) (out : Img (BitVec n)) (ha : im.alloc = true) (hd : out.dims = im.dims ∨ auto = true)
    (hne : se.points ≠ []) (h64 : se.points.length ≤ 64) (hok : ArrowOK im.dims.w se) :
    ∃ r, arrow auto raw border op se im out = some (.ok r) ∧
      ∀ p a, im.at? p = some a →
        (∀ b ∈ se.points, ∀ q, phys se.odd p + phys se.odd b = phys se.odd q → Img.In im.dims q) →
        ∃ v, r.at? p = some v ∧ ∀ k, v.getLsbD k = true ↔ k < n ∧
          ∃ b q c, se.points[k]? = some b ∧ phys se.odd p + phys se.odd b = phys se.odd q ∧
            im.at? q = some c ∧ cmp a c = true := by
  obtain ⟨r, hr, hv⟩ := C53_arrow_partial (n := n) auto raw border op cmp hop se hs im out ha hd hne h64 hok
  refine ⟨r, hr, fun p a hpa hin => ?_⟩
  obtain ⟨v, hv1, hv2⟩ := hv.2 p a hpa
  refine ⟨v, hv1, fun k => ?_⟩
  rw [hv2 k]
  constructor
  · rintro ⟨hk, b, q, hb, hq, hc⟩
    have hqi := Img.at?_some im q (hin b (List.mem_of_getElem? hb) q hq)
    refine ⟨hk, b, q, _, hb, hq, hqi, ?_⟩
    rw [hqi] at hc; exact hc
  · rintro ⟨hk, b, q, c, hb, hq, hc, hlt⟩
    exact ⟨hk, b, q, hb, hq, by rw [hc]; exact hlt⟩

/-- **C53**: an unknown operation is refused, as are unallocated inputs and outputs of another size that
cannot be resized. -/
theorem C53_errors [LinearOrder α] (auto : Bool) (raw : Nat → α) (border : α) (op : String) (se : StrElt)
    (im : Img α) (out : Img (BitVec n)) :
    (op ∉ ["==", ">", ">=", "<", "<="] → arrow auto raw border op se im out = some (.error (-100))) ∧
    (op ∈ ["==", ">", ">=", "<", "<="] → im.alloc = false →
      arrow auto raw border op se im out = some (.error errBadAllocation)) ∧
    (op ∈ ["==", ">", ">=", "<", "<="] → im.alloc = true → out.dims ≠ im.dims → auto = false →
      arrow auto raw border op se im out = some (.error errBadSize)) := by
  have hop : op ∈ ["==", ">", ">=", "<", "<="] → ∃ cmp, arrowOp (α := α) op = some cmp := by
    intro h
    simp only [List.mem_cons, List.not_mem_nil, or_false] at h
    rcases h with rfl | rfl | rfl | rfl | rfl <;> exact ⟨_, rfl⟩
  refine ⟨fun h => ?_, fun h ha => ?_, fun h ha hd hau => ?_⟩
  · simp only [List.mem_cons, List.not_mem_nil, or_false, not_or] at h
    unfold arrow arrowOp
    rw [if_neg h.1, if_neg h.2.1, if_neg h.2.2.1, if_neg h.2.2.2.1, if_neg h.2.2.2.2]
  · obtain ⟨cmp, hc⟩ := hop h
    unfold arrow; rw [hc]; simp only; rw [if_pos ha]
  · obtain ⟨cmp, hc⟩ := hop h
    unfold arrow; rw [hc]; simp only; rw [if_neg (by rw [ha]; simp), if_neg hd, if_neg (by rw [hau]; simp)]

/-! ### Examples and witnesses -/

/-- Values of a result. -/
def arrowVals (r : Option (Except Int (Img (BitVec n)))) : Option (List Nat) :=
  match r with
  | some (.ok im) => some ((List.range im.dims.count).map fun i => (im.buf i).toNat)
  | _ => none

/-- A line of pixels. -/
def arrowIm (l : List Nat) : Img (Fin 256) := ⟨⟨l.length, 1, 1⟩, fun i => Fin.ofNat 256 (l.getD i 0)⟩
/-- A line of words. -/
def arrowOut (k : Nat) : Img (BitVec n) := ⟨⟨k, 1, 1⟩, fun _ => 0⟩

/-- The hypotheses are met by the horizontal segment; `<` gives the arrows towards greater pixels. -/
example : (arrowIm [3, 5, 5, 2]).alloc = true ∧ (HorizSE 1).points ≠ [] ∧ (HorizSE 1).points.length ≤ 64 ∧
    ArrowOK 4 (HorizSE 1) ∧ (HorizSE 1).points = [⟨0, 0, 0⟩, ⟨1, 0, 0⟩, ⟨-1, 0, 0⟩] ∧
    arrowVals (arrow true (fun _ => 0) 0 "<" (HorizSE 1) (arrowIm [3, 5, 5, 2]) (arrowOut (n := 8) 4)) =
      some [2, 0, 0, 4] := by decide +kernel

/-- With `>` and the default border value 0, arrows leave the image on both sides. -/
theorem C53_border_bug :
    arrowVals (arrow true (fun _ => 0) 0 ">" (HorizSE 1) (arrowIm [3, 5, 5, 2]) (arrowOut (n := 8) 4)) =
      some [4, 4, 2, 2] ∧
    (arrowIm [3, 5, 5, 2]).at? ⟨-1, 0, 0⟩ = none ∧ (4 : BitVec 8).getLsbD 2 = true ∧
    (HorizSE 1).points[2]? = some ⟨-1, 0, 0⟩ := by decide +kernel

/-- With an 8 bit output the comparison with the ninth point of the square is lost: the arrows towards the
last neighbour are never set. -/
theorem C53_ninth_bug : (SquSE 1).points.length = 9 ∧
    ∀ (r : Img (BitVec 8)) (p : IntPoint) v, r.at? p = some v → v.getLsbD 8 = false := by
  refine ⟨by decide, fun r p v _ => BitVec.getLsbD_of_ge _ _ (by omega)⟩

/-- In place (same type, element with a kernel type) the result does not depend on the input: the copy that is
read has the size of the input and arbitrary contents. -/
theorem C53_inplace_bug (cmp : BitVec n → BitVec n → Bool) (border : BitVec n) (raw : Nat → BitVec n)
    (se : StrElt) (hs : isInplaceSafe se = true) (h1 : se.size = 1) (hne : se.points ≠ [])
    (im im' : Img (BitVec n)) (hd : im'.dims = im.dims) :
    arrowExecSame cmp border raw true se im im = arrowExecSame cmp border raw true se im' im' := by
  unfold arrowExecSame arrowSingle
  rw [h1, hs]
  simp only [Bool.and_self, if_true, hd, arrowIter, Nat.sub_self]
  match hp : se.points, hne with
  | p0 :: ps, _ => rfl

/-- With an output of the same type, an element of size 2 gives the arrow image of the arrow image (here for a
generic horizontal segment and `<`), not the comparison with the points of the homothetic element. -/
theorem C53_size_bug :
    ((arrowExecSame (fun a b => decide (a.toNat < b.toNat)) 0 (fun _ => 0) false
        ⟨false, .generic, 2, [⟨1, 0, 0⟩, ⟨-1, 0, 0⟩]⟩
        (⟨⟨4, 1, 1⟩, fun i => BitVec.ofNat 8 ([3, 5, 6, 2].getD i 0)⟩ : Img (BitVec 8)) (arrowOut 4)).map
          fun r => (List.range 4).map fun i => (r.buf i).toNat) = some [0, 0, 3, 0] ∧
    ((arrowExecSame (fun a b => decide (a.toNat < b.toNat)) 0 (fun _ => 0) false
        ⟨false, .generic, 1, [⟨1, 0, 0⟩, ⟨-1, 0, 0⟩]⟩
        (⟨⟨4, 1, 1⟩, fun i => BitVec.ofNat 8 ([3, 5, 6, 2].getD i 0)⟩ : Img (BitVec 8)) (arrowOut 4)).map
          fun r => (List.range 4).map fun i => (r.buf i).toNat) = some [1, 1, 0, 2] := by
  decide +kernel

end Smil
