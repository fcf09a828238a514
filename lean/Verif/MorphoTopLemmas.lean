import Verif.MorphoTop
import Verif.KernelDil

/-! # Lemmas on the entry points of dilation and erosion -/

namespace Smil
open StrElt
variable {α : Type}

/-- The points announced by the element types that have a kernel of their own. -/
def builtinPts : SeType → List IntPoint
  | .hex => hexIndices
  | .squ => squPlane 0
  | .cross => [⟨0, 0, 0⟩, ⟨1, 0, 0⟩, ⟨-1, 0, 0⟩, ⟨0, -1, 0⟩, ⟨0, 1, 0⟩]
  | .horiz => [⟨0, 0, 0⟩, ⟨1, 0, 0⟩, ⟨-1, 0, 0⟩]
  | .vert => [⟨0, 0, 0⟩, ⟨0, -1, 0⟩, ⟨0, 1, 0⟩]
  | .cube => squPlane 0 ++ squPlane (-1) ++ squPlane 1
  | _ => []

/-- The elements the code handles on images of dimensions `D`: at least one point; an element
whose type has a kernel has the points of that type and the image has two lines where the kernel
reads two; other elements are not wider than the image; hexagonal elements are used on images of
one slice; the composed polyhedron is excluded. -/
structure SEOk (D : Dims) (se : StrElt) : Prop where
  ne : se.points ≠ []
  notRh : se.seT ≠ .rhombicuboctahedron
  slice : se.odd = true → D.d ≤ 1
  special : isInplaceSafe se = true → (∀ p, p ∈ se.points ↔ p ∈ builtinPts se.seT) ∧
    (se.odd = true ↔ se.seT = .hex) ∧ (needsTwoLines se.seT = true → 2 ≤ D.h)
  shift : isInplaceSafe se = false → ShiftOK D.w se ∧ ShiftOK D.w se.transpose

/-- A decidable form of `SEOk`. -/
def seOk (D : Dims) (se : StrElt) : Bool :=
  decide (se.points ≠ []) && decide (se.seT ≠ .rhombicuboctahedron) &&
  (!se.odd || decide (D.d ≤ 1)) &&
  (if isInplaceSafe se then
    (se.points.all fun p => builtinPts se.seT |>.contains p) &&
    ((builtinPts se.seT).all fun p => se.points.contains p) &&
    decide (se.odd = true ↔ se.seT = .hex) && (!needsTwoLines se.seT || decide (2 ≤ D.h))
  else decide (ShiftOK D.w se) && decide (ShiftOK D.w se.transpose))

theorem seOk_iff (D : Dims) (se : StrElt) : seOk D se = true → SEOk D se := by
  intro h
  unfold seOk at h
  simp only [Bool.and_eq_true, decide_eq_true_eq, Bool.or_eq_true, Bool.not_eq_true'] at h
  obtain ⟨⟨⟨h1, h2⟩, h3⟩, h4⟩ := h
  refine ⟨h1, h2, fun ho => ?_, fun hs => ?_, fun hs => ?_⟩
  · rcases h3 with h3 | h3
    · rw [ho] at h3; cases h3
    · exact h3
  · rw [if_pos hs] at h4
    simp only [Bool.and_eq_true, decide_eq_true_eq, Bool.or_eq_true, Bool.not_eq_true',
      List.all_eq_true, List.contains_iff_mem] at h4
    obtain ⟨⟨⟨a, b⟩, c⟩, d⟩ := h4
    refine ⟨fun p => ⟨a p, b p⟩, c, fun hn => ?_⟩
    rcases d with d | d
    · rw [hn] at d; cases d
    · exact d
  · rw [hs] at h4
    simpa using h4

theorem builtin_transpose (t : SeType) (p : IntPoint) :
    transposePt (decide (t = .hex)) p ∈ builtinPts t ↔ p ∈ builtinPts t := by
  have key : ∀ t, ∀ p ∈ builtinPts t, transposePt (decide (t = .hex)) p ∈ builtinPts t := by
    intro t; cases t <;> decide
  constructor
  · intro h
    have := key t _ h
    rwa [transposePt_invol] at this
  · exact key t p

theorem SEOk.transpose {D : Dims} {se : StrElt} (h : SEOk D se) : SEOk D se.transpose := by
  obtain ⟨t1, t2, t3, t4, t5, -⟩ := C22_transpose se
  have hsafe : isInplaceSafe se.transpose = isInplaceSafe se := by
    unfold isInplaceSafe; rw [t4]
  refine ⟨?_, by rw [t4]; exact h.notRh, by rw [t3]; exact h.slice, ?_, ?_⟩
  · obtain ⟨p, hp⟩ := List.exists_mem_of_ne_nil _ h.ne
    intro e
    have : transposePt se.odd p ∈ se.transpose.points := by
      rw [transpose_mem, transposePt_invol]; exact hp
    rw [e] at this
    simp at this
  · intro hs
    rw [hsafe] at hs
    obtain ⟨a, b, c⟩ := h.special hs
    rw [t3, t4]
    refine ⟨fun p => ?_, b, c⟩
    rw [transpose_mem, a]
    have : se.odd = decide (se.seT = .hex) := by
      by_cases e : se.seT = .hex
      · rw [b.mpr e]; simp [e]
      · have : se.odd = false := by
          cases ho : se.odd
          · rfl
          · exact absurd (b.mp ho) e
        rw [this]; simp [e]
    rw [this]
    exact builtin_transpose _ _
  · intro hs
    rw [hsafe] at hs
    obtain ⟨a, b⟩ := h.shift hs
    refine ⟨b, ?_⟩
    intro q hq
    rw [t2] at hq
    have := a q hq
    rw [(C22_transpose se.transpose).2.2.1, t3]
    exact this

theorem SEOk.resize {D : Dims} {se : StrElt} (h : SEOk D se) (n : Nat) : SEOk D (se.resize n) := by
  refine ⟨h.ne, h.notRh, h.slice, h.special, fun hs => ⟨(h.shift hs).1, ?_⟩⟩
  intro q hq
  have hm : q ∈ se.transpose.points := by rw [transpose_mem] at hq ⊢; exact hq
  have := (h.shift hs).2 q hm
  rw [(C22_transpose se).2.2.1] at this
  rw [(C22_transpose (se.resize n)).2.2.1]
  exact this

theorem mem_squPlane (z : Int) (p : IntPoint) :
    p ∈ squPlane z ↔ p.z = z ∧ -1 ≤ p.x ∧ p.x ≤ 1 ∧ -1 ≤ p.y ∧ p.y ≤ 1 := by
  obtain ⟨px, py, pz⟩ := p
  simp only [squPlane, List.mem_cons, List.not_mem_nil, or_false, IntPoint.mk.injEq]
  constructor
  · omega
  · rintro ⟨rfl, h1, h2, h3, h4⟩
    have hx : px = -1 ∨ px = 0 ∨ px = 1 := by omega
    have hy : py = -1 ∨ py = 0 ∨ py = 1 := by omega
    rcases hx with rfl | rfl | rfl <;> rcases hy with rfl | rfl | rfl <;> simp

/-! ### Built-in neighbourhoods -/

theorem seRel_even (se : StrElt) (ho : se.odd = false) (q p : IntPoint) :
    seRel se q p ↔ (⟨p.x - q.x, p.y - q.y, p.z - q.z⟩ : IntPoint) ∈ se.points := by
  unfold seRel
  rw [ho]
  have : ∀ b : IntPoint, phys false q + phys false b = phys false p ↔
      b = ⟨p.x - q.x, p.y - q.y, p.z - q.z⟩ := by
    intro b
    cases b with | mk bx b' bz =>
    simp only [phys, Prod.mk_add_mk, Prod.mk.injEq, IntPoint.mk.injEq]
    simp; omega
  simp only [this]
  constructor
  · rintro ⟨b, hb, rfl⟩; exact hb
  · intro h; exact ⟨_, h, rfl⟩

theorem IsDilBy.congr' [Preorder α] {N N' : IntPoint → IntPoint → Prop} {im out : Img α}
    (hd : IsDilBy N im out) (h : ∀ q p, Img.In im.dims q → Img.In im.dims p → (N q p ↔ N' q p)) :
    IsDilBy N' im out := hd.congr h

/-- The relation computed by the kernel of a type. -/
def kernelRel : SeType → IntPoint → IntPoint → Prop
  | .hex => nHex
  | .squ => nSqu
  | .cross => nCross
  | .horiz => nHoriz
  | .vert => nVert
  | .cube => nCube
  | _ => fun _ _ => False

theorem kernelRel_iff (se : StrElt) (hs : isInplaceSafe se = true)
    (hp : ∀ p, p ∈ se.points ↔ p ∈ builtinPts se.seT) (ho : se.odd = true ↔ se.seT = .hex)
    (q p : IntPoint) : kernelRel se.seT q p ↔ seRel se q p := by
  obtain ⟨px, py, pz⟩ := p
  obtain ⟨qx, qy, qz⟩ := q
  cases ht : se.seT <;> rw [ht] at hp ho <;> simp [isInplaceSafe, ht] at hs <;> simp at ho
  case hex =>
    unfold seRel
    rw [ho]
    simp only [hp, builtinPts, hexIndices, kernelRel, nHex, List.mem_cons, List.not_mem_nil, or_false]
    simp only [exists_eq_or_imp, exists_eq_left, phys, Prod.mk_add_mk, Prod.mk.injEq, true_and]
    constructor
    · rintro ⟨rfl, h⟩
      rcases h with ⟨rfl, h1, h2⟩ | ⟨h1, h2⟩
      · have : qx = px ∨ qx = px - 1 ∨ qx = px + 1 := by omega
        rcases this with rfl | rfl | rfl
        · left; simp
        · right; left; simp; split <;> omega
        · right; right; right; right; left; simp; split <;> omega
      · rcases h1 with rfl | rfl <;> rcases h2 with ⟨h2, rfl | rfl⟩ | ⟨h2, rfl | rfl⟩
        all_goals simp
        all_goals split_ifs <;> omega
    · intro h
      refine ⟨by omega, ?_⟩
      rcases h with h | h | h | h | h | h | h <;> obtain ⟨h1, h2, h3⟩ := h <;> simp at h1 <;>
        split_ifs at h1 <;> omega
  all_goals
    rw [seRel_even se ho, hp]
    simp only [builtinPts, mem_squPlane, kernelRel, nSqu, nCube, nCross, nVert, nHoriz,
      List.mem_cons, List.not_mem_nil, or_false, IntPoint.mk.injEq, List.mem_append]
    omega

/-! ### One copy of the element -/

theorem kLoad_store (border : α) (kd : Nat) (im out : Img α) (g : KMem α) :
    Img.Same (kStore im.dims 0 (kLoad border 0 kd im out g)) im := by
  rw [Img.same_iff_px]
  refine ⟨rfl, fun x y z hx hy hz => ?_⟩
  unfold kStore
  exact Img.ofFn_px im.dims _ x y z hx hy

theorem kThreads_le (nt h : Nat) : kThreads nt h ≤ max nt 1 := by unfold kThreads; omega

theorem vertKernel_bound (ks kd : Nat) (D : Dims) (nt : Nat) :
    ∀ ph ∈ vertKernel ks kd D (kThreads nt D.h), ∀ t, max nt 1 ≤ t → ph t = [] := by
  intro ph hph t ht
  have := kThreads_le nt D.h
  simp only [vertKernel, vertSlice, List.mem_flatMap, List.mem_cons, List.not_mem_nil, or_false] at hph
  obtain ⟨z, _, rfl | rfl | rfl⟩ := hph <;> exact if_neg (by omega)

theorem crossKernel_bound (ks kd : Nat) (D : Dims) (nt : Nat) :
    ∀ ph ∈ crossKernel ks kd D (kThreads nt D.h), ∀ t, max nt 1 ≤ t → ph t = [] := by
  intro ph hph t ht
  have := kThreads_le nt D.h
  simp only [crossKernel, crossSlice, List.mem_flatMap, List.mem_cons, List.not_mem_nil, or_false] at hph
  obtain ⟨z, _, rfl | rfl | rfl⟩ := hph <;> exact if_neg (by omega)

theorem horizKernel_bound (ks kd : Nat) (D : Dims) (nt : Nat) (own : Nat → Nat)
    (ho : ∀ l, own l < nt) :
    ∀ ph ∈ horizKernel ks kd D own, ∀ t, nt ≤ t → ph t = [] := by
  intro ph hph t ht
  simp only [horizKernel, List.mem_singleton] at hph
  subst hph
  simp only [List.flatMap_eq_nil_iff]
  intro l _
  rw [if_neg]
  have := ho l; omega

theorem depthKernel_bound (ks kd : Nat) (D : Dims) (nt : Nat) (own : Nat → Nat)
    (ho : ∀ l, own l < nt) :
    ∀ ph ∈ depthKernel ks kd D own, ∀ t, nt ≤ t → ph t = [] := by
  intro ph hph t ht
  simp only [depthKernel, List.mem_singleton] at hph
  subst hph
  simp only [List.flatMap_eq_nil_iff]
  intro l _
  rw [if_neg]
  have := ho l; omega

theorem hexKernel_bound (ks kd : Nat) (D : Dims) (nt : Nat) (hn : 1 ≤ nt) :
    ∀ ph ∈ hexKernel ks kd D, ∀ t, nt ≤ t → ph t = [] := by
  intro ph hph t ht
  simp only [hexKernel, List.mem_map] at hph
  obtain ⟨z, _, rfl⟩ := hph
  exact if_neg (by omega)

theorem kernelOf_bound (t : SeType) (nt ks kd : Nat) (D : Dims) (phs : List Phase)
    (h : kernelOf t nt ks kd D = some phs) : ∀ ph ∈ phs, ∀ t, max nt 1 ≤ t → ph t = [] := by
  have ho : ∀ l, l % max nt 1 < max nt 1 := fun l => Nat.mod_lt _ (by omega)
  have hs : ∀ ph ∈ squKernel ks kd D (kThreads nt D.h) (fun l => l % max nt 1),
      ∀ t, max nt 1 ≤ t → ph t = [] := by
    intro ph hph
    simp only [squKernel, List.mem_append] at hph
    rcases hph with hph | hph
    · exact vertKernel_bound _ _ _ _ ph hph
    · exact horizKernel_bound _ _ _ _ _ ho ph hph
  cases t <;> simp only [kernelOf, reduceCtorEq, Option.some.injEq] at h <;> subst h
  · exact hexKernel_bound _ _ _ _ (by omega)
  · exact hs
  · exact crossKernel_bound _ _ _ _
  · exact horizKernel_bound _ _ _ _ _ ho
  · exact vertKernel_bound _ _ _ _
  · intro ph hph
    simp only [cubeKernel, List.mem_append] at hph
    rcases hph with hph | hph
    · exact hs ph hph
    · exact depthKernel_bound _ _ _ _ _ ho ph hph

theorem kernelOf_isSome (se : StrElt) (nt ks kd : Nat) (D : Dims) :
    (kernelOf se.seT nt ks kd D).isSome = isInplaceSafe se := by
  unfold isInplaceSafe
  cases se.seT <;> rfl

section
variable [LinearOrder α] [OrderBot α]

theorem kernelOf_dil (t : SeType) (nt ks kd : Nat) (D : Dims) (phs : List Phase)
    (h : kernelOf t nt ks kd D = some phs) (hw : 1 ≤ D.w) (hd : 1 ≤ D.d)
    (hh : needsTwoLines t = true → 2 ≤ D.h) (hx : t = .hex → D.d ≤ 1) (m m' : KMem α)
    (hrun : KRun max ⊥ D.w phs m m') (hB : ∀ x, x < D.w → m (.border, x) = ⊥) :
    IsDilBy (kernelRel t) (kStore D ks m) (kStore D kd m') := by
  cases t <;> simp only [kernelOf, reduceCtorEq, Option.some.injEq] at h <;> subst h
  · exact (hexKernel_dil D ks kd m m' hw (hh rfl) (hx rfl) hrun hB).1
  · exact (squKernel_dil D ks kd m m' nt _ hw (hh rfl) hrun hB).1
  · exact (crossKernel_dil D ks kd m m' nt hw (hh rfl) hrun hB).1
  · exact (horizKernel_dil D ks kd m m' _ hw hrun).1
  · exact (vertKernel_dil D ks kd m m' nt (hh rfl) hrun hB).1
  · exact (cubeKernel_dil D ks kd m m' nt _ _ hw (hh rfl) hd hrun hB).1

omit [LinearOrder α] [OrderBot α] in
theorem Img.alloc_pos {im : Img α} (h : im.alloc = true) :
    1 ≤ im.dims.w ∧ 1 ≤ im.dims.h ∧ 1 ≤ im.dims.d := by
  unfold Img.alloc Dims.count at h
  simp only [ne_eq, decide_eq_true_eq] at h
  refine ⟨?_, ?_, ?_⟩ <;> by_contra hc <;> apply h <;> simp <;> omega

/-- The generic algorithm computes the dilation. -/
theorem execGeneric_dil (se : StrElt) (im out : Img α) (hne : se.points ≠ [])
    (hsh : ShiftOK im.dims.w se) (hsl : se.odd = true → im.dims.d ≤ 1) :
    ∃ r, execGeneric max ⊥ se im out = some r ∧ IsDilBy (seRel se) im r := by
  obtain ⟨r, h1, h2, h3⟩ := execGeneric_spec max ⊥ se im out hne hsh
  refine ⟨r, h1, h2, fun p hp => ⟨_, h3 p hp, ?_⟩⟩
  have := foldVal_max_isLUB se im p se.points
  convert this using 1
  ext u
  have hz : se.odd = true → p.z % 2 = 0 := by
    intro ho
    have := hsl ho
    unfold Img.In at hp
    omega
  constructor
  · rintro ⟨q, ⟨b, hb, e⟩, hu⟩
    exact ⟨b, hb, by rw [← (srcPt_phys se.odd p b q hz).mpr e]; exact hu⟩
  · rintro ⟨b, hb, hu⟩
    exact ⟨_, ⟨b, hb, (srcPt_phys se.odd p b _ hz).mp rfl⟩, hu⟩

/-- One copy of the element, in place or not. -/
theorem execSingle_dil (E : Env α) (inPl : Bool) (se : StrElt) (im out : Img α)
    (ha : im.alloc = true) (hse : SEOk im.dims se) :
    ∃ r, execSingle E max ⊥ inPl se im out = some r ∧ IsDilBy (seRel se) im r := by
  obtain ⟨hw, hh, hd⟩ := Img.alloc_pos ha
  unfold execSingle
  simp only
  generalize hkd : (if inPl = true then 0 else 1) = kd
  cases hk : kernelOf se.seT E.nt 0 kd im.dims with
  | none =>
    have hs : isInplaceSafe se = false := by
      rw [← kernelOf_isSome se E.nt 0 kd im.dims, hk]; rfl
    exact execGeneric_dil se im out hse.ne (hse.shift hs).1 hse.slice
  | some phs =>
    have hs : isInplaceSafe se = true := by
      rw [← kernelOf_isSome se E.nt 0 kd im.dims, hk]; rfl
    obtain ⟨a, b, c⟩ := hse.special hs
    simp only
    rw [if_neg (by rintro ⟨h1, h2⟩; have := c h1; omega)]
    refine ⟨_, rfl, ?_⟩
    have hrun := kExec_run max ⊥ im.dims.w (max E.nt 1) phs (kLoad ⊥ 0 kd im out E.mem)
      (kernelOf_bound _ _ _ _ _ _ hk)
    have := kernelOf_dil se.seT E.nt 0 kd im.dims phs hk hw hd c
      (fun e => hse.slice (b.mpr e)) _ _ hrun (fun x _ => rfl)
    refine (this.of_same (kLoad_store _ _ _ _ _) (Img.Same.refl _)).congr' ?_
    intro q p _ _
    exact kernelRel_iff se hs a b q p

end

end Smil
