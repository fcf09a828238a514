import Verif.HitOrMiss
import Verif.PropsMorphoAlgebra

/-! # Lemmas on hit-or-miss, thinning and thickening -/

namespace Smil
open StrElt
variable {t : PT}

/-- The elements covered: at least one point, no kernel of its own (the elements built by the
constructors of `CompStrElt` and by its rotations), one iteration, not wider than the image; on
the hexagonal grid one slice. -/
structure HmtOK (D : Dims) (se : StrElt) : Prop where
  ne : se.points ≠ []
  gen : se.seT = .generic
  one : se.size = 1
  shift : ShiftOK D.w se.transpose
  slice : se.odd = true → D.d ≤ 1

/-- A decidable form of `HmtOK`. -/
def hmtOK (D : Dims) (se : StrElt) : Bool :=
  decide (se.points ≠ []) && decide (se.seT = .generic) && decide (se.size = 1) &&
  decide (ShiftOK D.w se.transpose) && (!se.odd || decide (D.d ≤ 1))

theorem hmtOK_iff {D : Dims} {se : StrElt} (h : hmtOK D se = true) : HmtOK D se := by
  unfold hmtOK at h
  simp only [Bool.and_eq_true, decide_eq_true_eq, Bool.or_eq_true, Bool.not_eq_true'] at h
  obtain ⟨⟨⟨⟨h1, h2⟩, h3⟩, h4⟩, h5⟩ := h
  exact ⟨h1, h2, h3, h4, fun ho => h5.resolve_left (by rw [ho]; simp)⟩

/-- All the readings of the element placed at `p` are at least `u`; outside the image `border` is
read. -/
def ReadsAbove (border : Px t) (se : StrElt) (g : IntPoint → Option (Px t)) (p : IntPoint) (u : Px t) :
    Prop :=
  ∀ b ∈ se.points, ∃ q, phys se.odd p + phys se.odd b = phys se.odd q ∧ u ≤ (g q).getD border

theorem le_foldl_min {β : Type} (g : β → Px t) (l : List β) (v u : Px t) :
    u ≤ l.foldl (fun acc b => min acc (g b)) v ↔ u ≤ v ∧ ∀ b ∈ l, u ≤ g b := by
  induction l generalizing v with
  | nil => simp
  | cons a l ih =>
    rw [List.foldl_cons, ih, le_min_iff]
    simp only [List.forall_mem_cons]
    tauto

theorem le_foldVal (border : Px t) (se : StrElt) (im : Img (Px t)) (p : IntPoint) (l : List IntPoint)
    (hl : l ≠ []) (u : Px t) :
    u ≤ foldVal min border se im p l ↔ ∀ b ∈ l, u ≤ (im.at? (srcPt se.odd p b)).getD border := by
  match l, hl with
  | p0 :: ps, _ =>
    simp only [foldVal, List.forall_mem_cons]
    exact le_foldl_min (fun b => (im.at? (srcPt se.odd p b)).getD border) ps _ u

theorem erodeB_spec (E : Env (Px t)) (border : Px t) (se : StrElt) (im out : Img (Px t))
    (h : Accepts E im out) (hse : HmtOK im.dims se) :
    ∃ r, erodeB E false border se im out = some (.ok r) ∧ r.dims = im.dims ∧
      ∀ p, Img.In im.dims p → ∃ v, r.at? p = some v ∧ ∀ u, u ≤ v ↔ ReadsAbove border se im.at? p u := by
  obtain ⟨o, ho, hd⟩ := checkSize_ok E im out h
  obtain ⟨t1, t2, t3, t4, t5, -⟩ := C22_transpose se
  have hne : se.transpose.points ≠ [] := by
    obtain ⟨b, hb⟩ := List.exists_mem_of_ne_nil _ hse.ne
    intro e
    have : transposePt se.odd b ∈ se.transpose.points := by
      rw [transpose_mem, transposePt_invol]; exact hb
    rw [e] at this; cases this
  obtain ⟨r, h1, h2, h3⟩ := execGeneric_spec min border se.transpose im o hne hse.shift
  refine ⟨r, ?_, h2, fun p hp => ⟨_, h3 p hp, fun u => ?_⟩⟩
  · unfold erodeB guarded
    rw [ho]
    have : execMorph E min border false se.transpose im o = some r := by
      unfold execMorph
      rw [t5, hse.one, if_neg (by decide), t4, hse.gen, if_neg (by decide), if_neg, if_pos ⟨rfl, rfl⟩]
      · unfold execSingle
        simp only [t4, hse.gen, kernelOf]
        exact h1
      · unfold isInplaceSafe; rw [t4, hse.gen]; simp
    simp only [this]; rfl
  · have hz : se.odd = true → p.z % 2 = 0 := by
      intro hodd
      have := hse.slice hodd
      unfold Img.In at hp
      omega
    rw [le_foldVal _ _ _ _ _ hne, t3]
    constructor
    · intro ha b hb
      refine ⟨srcPt se.odd p (transposePt se.odd b), (srcPt_transpose_phys se.odd p b _ hz).mp rfl, ?_⟩
      apply ha
      rw [transpose_mem, transposePt_invol]; exact hb
    · intro ha b hb
      rw [transpose_mem] at hb
      obtain ⟨q, hq, hu⟩ := ha _ hb
      rw [← srcPt_transpose_phys se.odd p _ q hz, transposePt_invol] at hq
      rw [← hq]; exact hu

theorem invImg_ok (E : Env (Px t)) (hs : t.signed = false ∨ t.bits ≤ 16) (a o : Img (Px t))
    (h : Accepts E a o) : ∃ r, invImg E a o = some (.ok r) ∧ Img.IsMap Px.compl a r := by
  obtain ⟨o', ho, hd⟩ := checkSize_ok E a o h
  obtain ⟨r, hr⟩ := Img.mapK_total kInv a (fun p u _ => by rw [kInv_eq hs]; rfl)
  have e : invImg E a o = some (.ok r) := by
    unfold invImg guarded; rw [ho]; simp only [hr]; rfl
  exact ⟨r, e, invImg_map hs e⟩

/-- The readings required of a position: the foreground points are at least `u`, and the background
points have a complement at least `u`. -/
def GrayHit (border : Px t) (fg bg : StrElt) (im : Img (Px t)) (p : IntPoint) (u : Px t) : Prop :=
  ReadsAbove border fg im.at? p u ∧ ReadsAbove border bg (fun q => (im.at? q).map Px.compl) p u

/-- `out` is the hit-or-miss transform of `im`. -/
def IsHit (border : Px t) (fg bg : StrElt) (im out : Img (Px t)) : Prop :=
  out.dims = im.dims ∧ ∀ p, Img.In im.dims p →
    ∃ v, out.at? p = some v ∧ ∀ u, u ≤ v ↔ GrayHit border fg bg im p u

theorem isMap_at? {β γ : Type} {F : β → γ} {a : Img β} {r : Img γ} (h : Img.IsMap F a r) (q : IntPoint) :
    r.at? q = (a.at? q).map F := by
  by_cases hq : Img.In a.dims q
  · rw [h.2 q _ (Img.at?_some a q hq), Img.at?_some a q hq]; rfl
  · rw [Img.at?_none a q hq, Img.at?_none r q (by rw [h.1]; exact hq)]; rfl

theorem hitOrMiss_spec (E : Env (Px t)) (hs : t.signed = false ∨ t.bits ≤ 16) (border : Px t)
    (fg bg : StrElt) (im out : Img (Px t)) (h : Accepts E im out) (hf : HmtOK im.dims fg)
    (hb : HmtOK im.dims bg) :
    ∃ r, hitOrMiss E false border fg bg im out = some (.ok r) ∧ IsHit border fg bg im r := by
  obtain ⟨o, ho, hd⟩ := checkSize_ok E im out h
  obtain ⟨m, hm, hmap⟩ := invImg_ok E hs im ⟨im.dims, E.raw⟩ (accepts_of_dims E h.1 rfl)
  have hma : m.alloc = true := alloc_of_dims hmap.1 h.1
  obtain ⟨e1, he1, hd1, hv1⟩ := erodeB_spec E border bg m o (accepts_of_dims E hma (hd.trans hmap.1.symm))
    (by rw [hmap.1]; exact hb)
  obtain ⟨e2, he2, hd2, hv2⟩ := erodeB_spec E border fg im m (accepts_of_dims E h.1 hmap.1) hf
  have hz := zipF_map2 (kInf : Px t → Px t → Px t) (a := e2) (b := e1)
    (hd1.trans (hmap.1.trans hd2.symm))
  refine ⟨Img.zipF kInf e2 e1, ?_, hz.1.trans hd2, fun p hp => ?_⟩
  · unfold hitOrMiss
    rw [ho]
    simp only [hm, andThen, Option.bind_some, he1, Bool.false_eq_true, if_false, he2]
  · obtain ⟨v2, a2, b2⟩ := hv2 p hp
    obtain ⟨v1, a1, b1⟩ := hv1 p (by rw [hmap.1]; exact hp)
    refine ⟨_, hz.2.2 p _ _ a2 a1, fun u => ?_⟩
    rw [kInf_eq_min, le_min_iff, b2, b1]
    unfold GrayHit
    have : m.at? = fun q => (im.at? q).map Px.compl := funext fun q => isMap_at? hmap q
    rw [this]

/-- `out` is the thinning of `im`: the minimum of the image and of the complement of the transform. -/
def IsThin (fg bg : StrElt) (im out : Img (Px t)) : Prop :=
  out.dims = im.dims ∧ ∃ hm, IsHit ⊥ fg bg im hm ∧
    ∀ p a v, im.at? p = some a → hm.at? p = some v → out.at? p = some (min a v.compl)

/-- `out` is the thickening of `im`. -/
def IsThick (fg bg : StrElt) (im out : Img (Px t)) : Prop :=
  out.dims = im.dims ∧ ∃ hm, IsHit ⊥ fg bg im hm ∧
    ∀ p a v, im.at? p = some a → hm.at? p = some v → out.at? p = some (max a v)

theorem thin_spec (E : Env (Px t)) (hs : t.signed = false ∨ t.bits ≤ 16)
    (fg bg : StrElt) (im out : Img (Px t)) (h : Accepts E im out) (hf : HmtOK im.dims fg)
    (hb : HmtOK im.dims bg) : ∃ r, thin E fg bg im out = some (.ok r) ∧ IsThin fg bg im r := by
  obtain ⟨o, ho, hd⟩ := checkSize_ok E im out h
  obtain ⟨m, hm, hhit⟩ := hitOrMiss_spec E hs ⊥ fg bg im ⟨im.dims, E.raw⟩ (accepts_of_dims E h.1 rfl) hf hb
  have hma : m.alloc = true := alloc_of_dims hhit.1 h.1
  obtain ⟨n, hn, hmap⟩ := invImg_ok E hs m m (accepts_of_dims E hma rfl)
  have hz := zipF_map2 (kInf : Px t → Px t → Px t) (a := im) (b := n) (hmap.1.trans hhit.1)
  refine ⟨Img.zipF kInf im n, ?_, hz.1, m, hhit, fun p a v ha hv => ?_⟩
  · unfold thin
    rw [ho]
    simp only [hm, andThen, Option.bind_some, hn]
  · rw [hz.2.2 p _ _ ha (hmap.2 p v hv), kInf_eq_min]

theorem thick_spec (E : Env (Px t)) (hs : t.signed = false ∨ t.bits ≤ 16)
    (fg bg : StrElt) (im out : Img (Px t)) (h : Accepts E im out) (hf : HmtOK im.dims fg)
    (hb : HmtOK im.dims bg) : ∃ r, thick E fg bg im out = some (.ok r) ∧ IsThick fg bg im r := by
  obtain ⟨o, ho, hd⟩ := checkSize_ok E im out h
  obtain ⟨m, hm, hhit⟩ := hitOrMiss_spec E hs ⊥ fg bg im ⟨im.dims, E.raw⟩ (accepts_of_dims E h.1 rfl) hf hb
  have hz := zipF_map2 (kSup : Px t → Px t → Px t) (a := im) (b := m) hhit.1
  refine ⟨Img.zipF kSup im m, ?_, hz.1, m, hhit, fun p a v ha hv => ?_⟩
  · unfold thick
    rw [ho]
    simp only [hm, andThen, Option.bind_some]
  · rw [hz.2.2 p _ _ ha hv, kSup_eq_max]

theorem IsThin.le {fg bg : StrElt} {im out : Img (Px t)} (h : IsThin fg bg im out) : Img.Le out im := by
  obtain ⟨hd, hm, hh, hv⟩ := h
  refine ⟨hd, fun p u v hu hv' => ?_⟩
  obtain ⟨w, hw, -⟩ := hh.2 p (Img.at?_eq_some_in _ _ _ hv')
  rw [hv p v w hv' hw] at hu
  cases hu
  exact min_le_left _ _

theorem IsThick.le {fg bg : StrElt} {im out : Img (Px t)} (h : IsThick fg bg im out) : Img.Le im out := by
  obtain ⟨hd, hm, hh, hv⟩ := h
  refine ⟨hd.symm, fun p u v hu hv' => ?_⟩
  obtain ⟨w, hw, -⟩ := hh.2 p (Img.at?_eq_some_in _ _ _ hu)
  rw [hv p u w hu hw] at hv'
  cases hv'
  exact le_max_left _ _

/-- A sequence of steps, one for each composite element. -/
inductive Chain (R : CompStrElt → Img (Px t) → Img (Px t) → Prop) :
    List CompStrElt → Img (Px t) → Img (Px t) → Prop
  | nil (a) : Chain R [] a a
  | cons {c cs a b r} : R c a b → Chain R cs b r → Chain R (c :: cs) a r

theorem Chain.le {R : CompStrElt → Img (Px t) → Img (Px t) → Prop}
    (hR : ∀ c a b, R c a b → Img.Le b a) {cs : List CompStrElt} {a b : Img (Px t)}
    (h : Chain R cs a b) : Img.Le b a := by
  induction h with
  | nil a => exact Img.Le.refl a
  | cons h _ ih => exact ih.trans (hR _ _ _ h)

theorem Chain.ge {R : CompStrElt → Img (Px t) → Img (Px t) → Prop}
    (hR : ∀ c a b, R c a b → Img.Le a b) {cs : List CompStrElt} {a b : Img (Px t)}
    (h : Chain R cs a b) : Img.Le a b := by
  induction h with
  | nil a => exact Img.Le.refl a
  | cons h _ ih => exact (hR _ _ _ h).trans ih

theorem seqOps_spec (op : CompStrElt → Img (Px t) → Option (Except Int (Img (Px t))))
    (R : CompStrElt → Img (Px t) → Img (Px t) → Prop) (D : Dims) (hRd : ∀ c a b, R c a b → b.dims = a.dims)
    (cs : List CompStrElt) (hop : ∀ c ∈ cs, ∀ a : Img (Px t), a.dims = D → ∃ r, op c a = some (.ok r) ∧ R c a r) :
    ∀ a : Img (Px t), a.dims = D → ∃ r, seqOps op cs a = some (.ok r) ∧ Chain R cs a r := by
  induction cs with
  | nil => intro a _; exact ⟨a, rfl, .nil a⟩
  | cons c cs ih =>
    intro a ha
    obtain ⟨b, hb, hR⟩ := hop c (by simp) a ha
    obtain ⟨r, hr, hch⟩ := ih (fun c hc => hop c (by simp [hc])) b ((hRd _ _ _ hR).trans ha)
    refine ⟨r, ?_, .cons hR hch⟩
    simp only [seqOps, hb, andThen, Option.bind_some]
    exact hr

/-- The relation of a thinning by a composite element. -/
def ThinBy (c : CompStrElt) (a b : Img (Px t)) : Prop := IsThin c.fg c.bg a b
/-- The relation of a thickening by a composite element. -/
def ThickBy (c : CompStrElt) (a b : Img (Px t)) : Prop := IsThick c.fg c.bg a b

theorem thinList_spec (E : Env (Px t)) (hs : t.signed = false ∨ t.bits ≤ 16) (cs : List CompStrElt)
    (im out : Img (Px t)) (h : Accepts E im out)
    (hc : ∀ c ∈ cs, HmtOK im.dims c.fg ∧ HmtOK im.dims c.bg) :
    ∃ r, thinList E cs im out = some (.ok r) ∧ Chain ThinBy cs im r := by
  obtain ⟨o, ho, hd⟩ := checkSize_ok E im out h
  obtain ⟨r, hr, hch⟩ := seqOps_spec (fun c a => thin E c.fg c.bg a a) ThinBy im.dims (fun _ _ _ h => h.1) cs
    (fun c hcm a ha => thin_spec E hs c.fg c.bg a a (accepts_of_dims E (alloc_of_dims ha h.1) rfl)
      (by rw [ha]; exact (hc c hcm).1) (by rw [ha]; exact (hc c hcm).2)) im rfl
  refine ⟨r, ?_, hch⟩
  unfold thinList; rw [ho]; exact hr

theorem thickList_spec (E : Env (Px t)) (hs : t.signed = false ∨ t.bits ≤ 16) (cs : List CompStrElt)
    (im out : Img (Px t)) (h : Accepts E im out)
    (hc : ∀ c ∈ cs, HmtOK im.dims c.fg ∧ HmtOK im.dims c.bg) :
    ∃ r, thickList E cs im out = some (.ok r) ∧ Chain ThickBy cs im r := by
  obtain ⟨o, ho, hd⟩ := checkSize_ok E im out h
  obtain ⟨r, hr, hch⟩ := seqOps_spec (fun c a => thick E c.fg c.bg a a) ThickBy im.dims (fun _ _ _ h => h.1) cs
    (fun c hcm a ha => thick_spec E hs c.fg c.bg a a (accepts_of_dims E (alloc_of_dims ha h.1) rfl)
      (by rw [ha]; exact (hc c hcm).1) (by rw [ha]; exact (hc c hcm).2)) im rfl
  refine ⟨r, ?_, hch⟩
  unfold thickList; rw [ho]; exact hr

/-- The loop until stability: the result is reached by steps and does not change any more. -/
inductive Steps (R : Img (Px t) → Img (Px t) → Prop) : Img (Px t) → Img (Px t) → Prop
  | refl (a) : Steps R a a
  | step {a b r} : R a b → Steps R b r → Steps R a r

theorem vol_lower (a : Img (Px t)) : a.dims.count * t.lo ≤ a.vol := by
  unfold Img.vol
  have : ∀ n : Nat, (n : Int) * t.lo ≤ ((List.range n).map fun i => (a.buf i).val).sum := by
    intro n
    induction n with
    | zero => simp
    | succ n ih =>
      rw [List.range_succ, List.map_append, List.sum_append]
      simp only [List.map_cons, List.map_nil, List.sum_cons, List.sum_nil]
      have := (a.buf n).lo_le
      push_cast
      rw [add_mul]; omega
  exact this _

theorem vol_upper (a : Img (Px t)) : a.vol ≤ a.dims.count * t.hi := by
  unfold Img.vol
  have : ∀ n : Nat, ((List.range n).map fun i => (a.buf i).val).sum ≤ (n : Int) * t.hi := by
    intro n
    induction n with
    | zero => simp
    | succ n ih =>
      rw [List.range_succ, List.map_append, List.sum_append]
      simp only [List.map_cons, List.map_nil, List.sum_cons, List.sum_nil]
      have := (a.buf n).le_hi
      push_cast
      rw [add_mul]; omega
  exact this _

theorem untilStable_spec (op : Img (Px t) → Option (Except Int (Img (Px t))))
    (R : Img (Px t) → Img (Px t) → Prop) (D : Dims) (g : Img (Px t) → Int) (lb : Int)
    (hg : ∀ a b, a.vol = b.vol ↔ g a = g b) (hlb : ∀ a : Img (Px t), a.dims = D → lb ≤ g a)
    (hRd : ∀ a b, R a b → b.dims = a.dims) (hRg : ∀ a b, R a b → g b ≤ g a)
    (hop : ∀ a : Img (Px t), a.dims = D → ∃ r, op a = some (.ok r) ∧ R a r) :
    ∀ (fuel : Nat) (a : Img (Px t)), a.dims = D → (g a - lb).toNat < fuel →
      ∃ b r, untilStable op fuel a = some (.ok r) ∧ Steps R a b ∧ R b r ∧ r.vol = b.vol := by
  intro fuel
  induction fuel with
  | zero => intro a _ h; omega
  | succ n ih =>
    intro a ha hf
    obtain ⟨b, hb, hR⟩ := hop a ha
    by_cases hv : b.vol = a.vol
    · refine ⟨a, b, ?_, .refl a, hR, hv⟩
      simp only [untilStable, hb, andThen, Option.bind_some, if_pos hv]
    · have hbd := (hRd _ _ hR).trans ha
      have h1 := hRg _ _ hR
      have h2 : g b ≠ g a := fun e => hv ((hg _ _).mpr e)
      have h3 := hlb b hbd
      obtain ⟨b', r, hr, hs, hR', hv'⟩ := ih b hbd (by omega)
      refine ⟨b', r, ?_, .step hR hs, hR', hv'⟩
      simp only [untilStable, hb, andThen, Option.bind_some, if_neg hv]
      exact hr

end Smil
