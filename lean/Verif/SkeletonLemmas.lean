import Verif.Skeleton
import Verif.HexTopo
import Verif.PropsHitOrMiss
import Verif.PropsCoords
import Verif.DrawLemmas

/-! Lemmas for the skeletons (C70). -/

namespace Smil
variable {t s : PT}
open StrElt

/-- Two pixels are neighbours on the hexagonal grid: in the same line the next ones; in the two adjacent lines the pixel of the same abscissa
and, as the odd lines are shifted by half a pixel to the right, the one before it for an even line and after it for an odd line. -/
def HexAdj (p q : IntPoint) : Prop :=
  q.z = p.z ∧ ((q.y = p.y ∧ (q.x = p.x + 1 ∨ q.x = p.x - 1)) ∨
    ((q.y = p.y + 1 ∨ q.y = p.y - 1) ∧ (q.x = p.x ∨ q.x = if p.y % 2 = 0 then p.x - 1 else p.x + 1)))

/-- The directions of the grid in half pixels, by rotation: two consecutive ones. -/
def hexPairs : List ((Int × Int × Int) × (Int × Int × Int)) :=
  [((2, 0, 0), (1, -1, 0)), ((1, -1, 0), (-1, -1, 0)), ((-1, -1, 0), (-2, 0, 0)), ((-2, 0, 0), (-1, 1, 0)), ((-1, 1, 0), (1, 1, 0)),
    ((1, 1, 0), (2, 0, 0))]

theorem hexAdj_phys (p q : IntPoint) : HexAdj p q ↔ HexDir (2, 0, 0) (1, -1, 0) (phys true q - phys true p) := by
  have e1 : ∀ y : Int, (if y % 2 = 1 then (1 : Int) else 0) = y % 2 := fun y => by split_ifs <;> omega
  have e2 : (if p.y % 2 = 0 then p.x - 1 else p.x + 1) = p.x - 1 + 2 * (p.y % 2) := by split_ifs <;> omega
  simp only [HexDir, HexAdj, phys, Prod.mk_sub_mk, Prod.neg_mk, Prod.mk.injEq, true_and, e1, e2]
  constructor
  · rintro ⟨hz, ⟨hy, hx | hx⟩ | ⟨hy | hy, hx | hx⟩⟩ <;> rcases Int.emod_two_eq_zero_or_one p.y with hp | hp <;>
    first
    | (left; refine ⟨?_, ?_, ?_⟩ <;> omega)
    | (right; left; refine ⟨?_, ?_, ?_⟩ <;> omega)
    | (right; right; left; refine ⟨?_, ?_, ?_⟩ <;> omega)
    | (right; right; right; left; refine ⟨?_, ?_, ?_⟩ <;> omega)
    | (right; right; right; right; left; refine ⟨?_, ?_, ?_⟩ <;> omega)
    | (right; right; right; right; right; refine ⟨?_, ?_, ?_⟩ <;> omega)
  · rintro (⟨h1, h2, h3⟩ | ⟨h1, h2, h3⟩ | ⟨h1, h2, h3⟩ | ⟨h1, h2, h3⟩ | ⟨h1, h2, h3⟩ | ⟨h1, h2, h3⟩) <;> refine ⟨by omega, ?_⟩
    · left; constructor <;> omega
    · right; constructor <;> omega
    · right; constructor <;> omega
    · left; constructor <;> omega
    · right; constructor <;> omega
    · right; constructor <;> omega

theorem hexAdj_dir : ∀ ab ∈ hexPairs, ∀ p q, HexAdj p q ↔ HexDir ab.1 ab.2 (phys true q - phys true p) := by
  intro ab hab p q
  rw [hexAdj_phys]
  generalize phys true q - phys true p = v
  unfold hexPairs at hab
  simp only [List.mem_cons, List.not_mem_nil, or_false] at hab
  rcases hab with rfl | rfl | rfl | rfl | rfl | rfl <;> simp only [HexDir, Prod.mk_sub_mk, Prod.neg_mk] <;> norm_num <;> tauto

theorem hex_reach (p : IntPoint) : ∀ ab ∈ hexPairs, ∀ v, HexDir ab.1 ab.2 v → ∃ x, phys true p + v = phys true x := by
  intro ab hab v hv
  have hv' : HexDir (2, 0, 0) (1, -1, 0) v := by
    unfold hexPairs at hab
    simp only [List.mem_cons, List.not_mem_nil, or_false] at hab
    revert hv
    rcases hab with rfl | rfl | rfl | rfl | rfl | rfl <;> simp only [HexDir, Prod.mk_sub_mk, Prod.neg_mk] <;> norm_num <;> tauto
  have e1 : ∀ y : Int, (if y % 2 = 1 then (1 : Int) else 0) = y % 2 := fun y => by split_ifs <;> omega
  have go : ∀ v1 v2 : Int, (v1 + v2) % 2 = 0 → ∃ x, phys true p + (v1, v2, 0) = phys true x := by
    intro v1 v2 hv
    refine ⟨⟨p.x + (v1 + p.y % 2 - (p.y + v2) % 2) / 2, p.y + v2, p.z⟩, ?_⟩
    simp only [phys, true_and, e1, Prod.mk_add_mk, add_zero, Prod.mk.injEq, and_true]
    omega
  rcases hv' with h | h | h | h | h | h <;> rw [h]
  · exact go 2 0 (by decide)
  · exact go 1 (-1) (by decide)
  · exact go (-1) (-1) (by decide)
  · exact go (-2) 0 (by decide)
  · exact go (-1) 1 (by decide)
  · exact go 1 1 (by decide)

/-- The template `HMT_hL` in the directions `a`, `b`. -/
def IsL (c : CompStrElt) (a b : Int × Int × Int) : Prop :=
  c.fg.odd = true ∧ c.bg.odd = true ∧ c.fg.points.map (phys true) = [a, b] ∧ c.bg.points.map (phys true) = [-a, -b]

/-- The template `HMT_hM` in the directions `a`, `b`. -/
def IsM (c : CompStrElt) (a b : Int × Int × Int) : Prop :=
  c.fg.odd = true ∧ c.bg.odd = true ∧ c.fg.points.map (phys true) = [a] ∧ c.bg.points.map (phys true) = [b - a, -a, -b]

instance (c a b) : Decidable (IsL c a b) := by unfold IsL; infer_instance
instance (c a b) : Decidable (IsM c a b) := by unfold IsM; infer_instance

theorem hmtL_some : ∃ cl, HMT_hL 6 = some cl ∧ (∀ c ∈ cl, ∃ ab ∈ hexPairs, IsL c ab.1 ab.2) ∧
    ∀ c ∈ cl, c.fg.points ≠ [] ∧ c.bg.points ≠ [] ∧ c.fg.seT = .generic ∧ c.bg.seT = .generic ∧ c.fg.size = 1 ∧ c.bg.size = 1 ∧
      ShiftOK 1 c.fg.transpose ∧ ShiftOK 1 c.bg.transpose := by
  have h : (HMT_hL 6).isSome := by decide
  obtain ⟨cl, hcl⟩ := Option.isSome_iff_exists.mp h
  have h2 : ∀ cl ∈ HMT_hL 6, (∀ c ∈ cl, ∃ ab ∈ hexPairs, IsL c ab.1 ab.2) ∧
    ∀ c ∈ cl, c.fg.points ≠ [] ∧ c.bg.points ≠ [] ∧ c.fg.seT = .generic ∧ c.bg.seT = .generic ∧ c.fg.size = 1 ∧ c.bg.size = 1 ∧
      ShiftOK 1 c.fg.transpose ∧ ShiftOK 1 c.bg.transpose := by decide
  exact ⟨cl, hcl, h2 cl hcl⟩

theorem hmtM_some : ∃ cl, HMT_hM 6 = some cl ∧ (∀ c ∈ cl, ∃ ab ∈ hexPairs, IsM c ab.1 ab.2) ∧
    (∀ ab ∈ hexPairs, ∃ c ∈ cl, IsM c ab.1 ab.2) ∧
    ∀ c ∈ cl, c.fg.points ≠ [] ∧ c.bg.points ≠ [] ∧ c.fg.seT = .generic ∧ c.bg.seT = .generic ∧ c.fg.size = 1 ∧ c.bg.size = 1 ∧
      ShiftOK 1 c.fg.transpose ∧ ShiftOK 1 c.bg.transpose := by
  have h : (HMT_hM 6).isSome := by decide
  obtain ⟨cl, hcl⟩ := Option.isSome_iff_exists.mp h
  have h2 : ∀ cl ∈ HMT_hM 6, (∀ c ∈ cl, ∃ ab ∈ hexPairs, IsM c ab.1 ab.2) ∧
    (∀ ab ∈ hexPairs, ∃ c ∈ cl, IsM c ab.1 ab.2) ∧
    ∀ c ∈ cl, c.fg.points ≠ [] ∧ c.bg.points ≠ [] ∧ c.fg.seT = .generic ∧ c.bg.seT = .generic ∧ c.fg.size = 1 ∧ c.bg.size = 1 ∧
      ShiftOK 1 c.fg.transpose ∧ ShiftOK 1 c.bg.transpose := by decide
  exact ⟨cl, hcl, h2 cl hcl⟩

/-- Homotopy is seen through an injective map. -/
theorem connIn_image {V W : Type} {A : V → V → Prop} {B : W → W → Prop} (f : V → W) (hf : Function.Injective f)
    (hAB : ∀ x y, A x y ↔ B (f x) (f y)) (S : Set V) (x y : V) : ConnIn B (f '' S) (f x) (f y) ↔ ConnIn A S x y := by
  constructor
  · intro h
    have key : ∀ w, ConnIn B (f '' S) (f x) w → ∀ v, f v = w → ConnIn A S x v := by
      intro w hw
      unfold ConnIn at hw
      induction hw with
      | refl => intro v hv; rw [hf hv]; exact .refl
      | tail _ h ih =>
        intro v hv
        obtain ⟨h1, ⟨u, hu, rfl⟩, u', hu', h3⟩ := h
        rw [← hv] at h3
        have := hf h3; subst this
        subst hv
        exact Relation.ReflTransGen.tail (ih u rfl) ⟨(hAB _ _).mpr h1, hu, hu'⟩
    exact key _ h y rfl
  · intro h
    unfold ConnIn at h
    induction h with
    | refl => exact .refl
    | tail _ h ih => exact Relation.ReflTransGen.tail ih ⟨(hAB _ _).mp h.1, ⟨_, h.2.1, rfl⟩, ⟨_, h.2.2, rfl⟩⟩

theorem homotopic_of_image {V W : Type} {A : V → V → Prop} {B : W → W → Prop} (f : V → W) (hf : Function.Injective f)
    (hAB : ∀ x y, A x y ↔ B (f x) (f y)) {D X X' : Set V} (h : Homotopic B (f '' D) (f '' X) (f '' X')) : Homotopic A D X X' := by
  have hd : ∀ Y : Set V, f '' D \ f '' Y = f '' (D \ Y) := fun Y => (Set.image_sdiff hf D Y).symm
  have mem : ∀ {Y : Set V} {x}, f x ∈ f '' Y → x ∈ Y := fun {Y x} h => by obtain ⟨y, hy, e⟩ := h; rwa [← hf e]
  refine ⟨fun x hx => mem (h.sub ⟨x, hx, rfl⟩), fun x hx => ?_, fun x hx y hy hc => ?_, fun x hx => ?_, fun x hx y hy hc => ?_⟩
  · obtain ⟨_, ⟨y, hy, rfl⟩, hc⟩ := h.fgEx (f x) ⟨x, hx, rfl⟩
    exact ⟨y, hy, (connIn_image f hf hAB X x y).mp hc⟩
  · exact (connIn_image f hf hAB X' x y).mp (h.fgInj _ ⟨x, hx, rfl⟩ _ ⟨y, hy, rfl⟩ ((connIn_image f hf hAB X x y).mpr hc))
  · have := h.bgEx
    rw [hd, hd] at this
    obtain ⟨_, ⟨y, hy, rfl⟩, hc⟩ := this (f x) ⟨x, hx, rfl⟩
    exact ⟨y, hy, (connIn_image f hf hAB _ x y).mp hc⟩
  · have := h.bgInj
    rw [hd, hd] at this
    exact (connIn_image f hf hAB _ x y).mp (this _ ⟨x, hx, rfl⟩ _ ⟨y, hy, rfl⟩ ((connIn_image f hf hAB _ x y).mpr hc))

/-- The set and the frame of a binary image. -/
def pxSet (v : Px t) (im : Img (Px t)) : Set IntPoint := {p | im.at? p = some v}
/-- The frame. -/
def frameOf (im : Img (Px t)) : Set IntPoint := {p | Img.In im.dims p}

theorem covers_bot (hn : (⊥ : Px t) ≠ ⊤) (w : Px t) (o : Option (Px t)) : Covers ⊥ w o ↔ o = some w := by
  cases o with
  | none => simp [Covers, hn]
  | some u => simp [Covers]

theorem bin_bg (hn : (⊥ : Px t) ≠ ⊤) {im : Img (Px t)} (hbin : BinImg im) : frameOf im \ pxSet ⊤ im = pxSet ⊥ im := by
  ext p
  simp only [pxSet, frameOf, Set.mem_sdiff, Set.mem_ofPred_eq]
  constructor
  · rintro ⟨h1, h2⟩
    have ha := Img.at?_some im p h1
    rcases hbin p _ ha with h | h
    · rw [ha, h]
    · rw [h] at ha; exact absurd ha h2
  · intro h
    refine ⟨Img.at?_eq_some_in _ _ _ h, fun hc => ?_⟩
    rw [h] at hc; exact hn (Option.some.inj hc)

/-- A template point on a value. -/
theorem hit_iff (hn : (⊥ : Px t) ≠ ⊤) (im : Img (Px t)) (w : Px t) (v : Int × Int × Int) :
    (∃ q, v = phys true q ∧ Covers ⊥ w (im.at? q)) ↔ v ∈ phys true '' pxSet w im := by
  simp only [Set.mem_image, pxSet, Set.mem_ofPred_eq, covers_bot hn]
  constructor
  · rintro ⟨q, rfl, h⟩; exact ⟨q, h, rfl⟩
  · rintro ⟨q, h, rfl⟩; exact ⟨q, rfl, h⟩

theorem all_map {α β : Type} (f : α → β) (P : β → Prop) (l : List α) : (∀ b ∈ l, P (f b)) ↔ ∀ v ∈ l.map f, P v := by simp

theorem matches_hex (hn : (⊥ : Px t) ≠ ⊤) {c : CompStrElt} (h1 : c.fg.odd = true) (h2 : c.bg.odd = true) (im : Img (Px t)) (p : IntPoint) :
    Matches ⊥ c.fg c.bg im p ↔ (∀ v ∈ c.fg.points.map (phys true), phys true p + v ∈ phys true '' pxSet ⊤ im) ∧
      ∀ v ∈ c.bg.points.map (phys true), phys true p + v ∈ phys true '' pxSet ⊥ im := by
  unfold Matches
  rw [h1, h2]
  simp only [hit_iff hn]
  rw [← all_map (phys true) (fun v => phys true p + v ∈ phys true '' pxSet ⊤ im),
    ← all_map (phys true) (fun v => phys true p + v ∈ phys true '' pxSet ⊥ im)]

theorem physT_inj : Function.Injective (phys true) := fun p q h => phys_inj true p q h

theorem image_bg (hn : (⊥ : Px t) ≠ ⊤) {im : Img (Px t)} (hbin : BinImg im) :
    phys true '' pxSet ⊥ im = phys true '' frameOf im \ phys true '' pxSet ⊤ im := by
  rw [← bin_bg hn hbin, Set.image_sdiff physT_inj]

theorem matches_L (hn : (⊥ : Px t) ≠ ⊤) {c : CompStrElt} {a b : Int × Int × Int} (hc : IsL c a b) {im : Img (Px t)} (hbin : BinImg im)
    (p : IntPoint) : Matches ⊥ c.fg c.bg im p ↔ MatchL (phys true '' frameOf im) (phys true '' pxSet ⊤ im) a b (phys true p) := by
  obtain ⟨h1, h2, h3, h4⟩ := hc
  rw [matches_hex hn h1 h2, h3, h4, image_bg hn hbin]
  simp only [List.forall_mem_cons, List.not_mem_nil, IsEmpty.forall_iff, implies_true, and_true, MatchL, ← sub_eq_add_neg]
  tauto

theorem matches_M (hn : (⊥ : Px t) ≠ ⊤) {c : CompStrElt} {a b : Int × Int × Int} (hc : IsM c a b) {im : Img (Px t)} (hbin : BinImg im)
    (p : IntPoint) : Matches ⊥ c.fg c.bg im p ↔ MatchM (phys true '' frameOf im) (phys true '' pxSet ⊤ im) a b (phys true p) := by
  obtain ⟨h1, h2, h3, h4⟩ := hc
  rw [matches_hex hn h1 h2, h3, h4, image_bg hn hbin]
  simp only [List.forall_mem_cons, List.not_mem_nil, IsEmpty.forall_iff, implies_true, and_true, MatchM, ← sub_eq_add_neg,
    add_sub_assoc]

theorem image_thin {im r : Img (Px t)} {M : Set (Int × Int × Int)} (P : IntPoint → Prop)
    (h : ∀ p, r.at? p = some ⊤ ↔ im.at? p = some ⊤ ∧ ¬ P p) (hP : ∀ p, P p ↔ phys true p ∈ M) :
    {v | v ∈ phys true '' pxSet ⊤ im ∧ ¬ v ∈ M} = phys true '' pxSet ⊤ r := by
  ext v
  simp only [Set.mem_ofPred_eq, Set.mem_image, pxSet]
  constructor
  · rintro ⟨⟨p, hp, rfl⟩, hv⟩
    exact ⟨p, (h p).mpr ⟨hp, fun hc => hv ((hP p).mp hc)⟩, rfl⟩
  · rintro ⟨p, hp, rfl⟩
    exact ⟨⟨p, ((h p).mp hp).1, rfl⟩, fun hc => ((h p).mp hp).2 ((hP p).mpr hc)⟩

/-- One thinning by a template keeps the topology. -/
theorem thin_homotopic (hn : (⊥ : Px t) ≠ ⊤) {c : CompStrElt} {ab : (Int × Int × Int) × (Int × Int × Int)} (hab : ab ∈ hexPairs)
    (hc : IsL c ab.1 ab.2 ∨ IsM c ab.1 ab.2) {im r : Img (Px t)} (hbin : BinImg im) (h : IsThin c.fg c.bg im r) :
    Homotopic HexAdj (frameOf im) (pxSet ⊤ im) (pxSet ⊤ r) := by
  have hr := (isThin_binary hn hbin h).2
  have hAB := hexAdj_dir ab hab
  apply homotopic_of_image (phys true) physT_inj (B := fun x y => HexDir ab.1 ab.2 (y - x)) hAB
  rcases hc with hc | hc
  · rw [← image_thin (M := {v | MatchL (phys true '' frameOf im) (phys true '' pxSet ⊤ im) ab.1 ab.2 v}) _ hr (matches_L hn hc hbin)]
    exact matchL_homotopic (fun _ _ => Iff.rfl) _ _
  · rw [← image_thin (M := {v | MatchM (phys true '' frameOf im) (phys true '' pxSet ⊤ im) ab.1 ab.2 v}) _ hr (matches_M hn hc hbin)]
    exact matchM_homotopic (fun _ _ => Iff.rfl) _ _

theorem chain_homotopic (hn : (⊥ : Px t) ≠ ⊤) {cs : List CompStrElt} {a b : Img (Px t)} (h : Chain ThinBy cs a b)
    (hcs : ∀ c ∈ cs, ∃ ab ∈ hexPairs, IsL c ab.1 ab.2 ∨ IsM c ab.1 ab.2) (ha : BinImg a) :
    Homotopic HexAdj (frameOf a) (pxSet ⊤ a) (pxSet ⊤ b) := by
  induction h with
  | nil a => exact Homotopic.refl _ _
  | @cons c cs a b r h _ ih =>
    obtain ⟨ab, hab, hc⟩ := hcs c (by simp)
    have h1 := thin_homotopic hn hab hc ha h
    have h2 := ih (fun c hc => hcs c (by simp [hc])) (isThin_binary hn ha h).1
    have e : frameOf b = frameOf a := by unfold frameOf; rw [h.1]
    rw [e] at h2
    exact h1.trans h2

theorem steps_homotopic (hn : (⊥ : Px t) ≠ ⊤) {cs : List CompStrElt} {a b : Img (Px t)} (h : Steps (Chain ThinBy cs) a b)
    (hcs : ∀ c ∈ cs, ∃ ab ∈ hexPairs, IsL c ab.1 ab.2 ∨ IsM c ab.1 ab.2) (ha : BinImg a) :
    BinImg b ∧ b.dims = a.dims ∧ Homotopic HexAdj (frameOf a) (pxSet ⊤ a) (pxSet ⊤ b) := by
  induction h with
  | refl a => exact ⟨ha, rfl, Homotopic.refl _ _⟩
  | @step a b r h _ ih =>
    have hd : b.dims = a.dims := h.dims fun _ _ _ h => h.1
    obtain ⟨h1, h2, h3⟩ := ih (chain_thin_binary hn h ha)
    have e : frameOf b = frameOf a := by unfold frameOf; rw [hd]
    rw [e] at h3
    exact ⟨h1, h2.trans hd, (chain_homotopic hn h hcs ha).trans h3⟩

/-- One level of the skeleton: `e` is the erosion of `f`, `d` what the opening removes from it. -/
def IsSkelLevel (se : StrElt) (f e d : Img (Px t)) : Prop :=
  IterRel (IsEroBy (seRel se)) se.size f e ∧ ∃ o, IsOpenBy (seRel se) se.size e o ∧ d.dims = e.dims ∧
    ∀ p u v, e.at? p = some u → o.at? p = some v → ∃ w, d.at? p = some w ∧ w.val = u.val - v.val

theorem IsSkelLevel.dims {se : StrElt} {f e d : Img (Px t)} (h : IsSkelLevel se f e d) : e.dims = f.dims ∧ d.dims = f.dims := by
  obtain ⟨h1, o, h2, h3, -⟩ := h
  exact ⟨iterEro_dims h1, h3.trans (iterEro_dims h1)⟩

theorem skel_level (E : Env (Px t)) (hs : t.signed = false) (se : StrElt) (f tmp : Img (Px t)) (ha : f.alloc = true)
    (hse : SEOk f.dims se) (htd : tmp.dims = f.dims) : ∃ e o d, erode E true se f f = some (.ok e) ∧ morphOpen E false se e tmp = some (.ok o) ∧
      subImg E e o o = some (.ok d) ∧ IsSkelLevel se f e d := by
  obtain ⟨e, he, hE⟩ := erode_spec E true se f f (accepts_of_dims E ha rfl) hse
  have hed := iterEro_dims hE
  obtain ⟨o, ho, hO⟩ := open_spec E false se e tmp (accepts_of_dims E (alloc_of_dims hed ha) (htd.trans hed.symm)) (hed ▸ hse)
  obtain ⟨d, hd, hdd, hv⟩ := subImg_exact hs (accepts_of_dims E (alloc_of_dims hed ha) (open_dims hO)) (open_antiext hO)
  exact ⟨e, o, d, he, ho, hd, hE, o, hO, hdd, hv⟩

theorem equImgs_iff {a b : Img (Px t)} (hd : a.dims = b.dims) : equImgs a b = true ↔ Img.Same a b := by
  unfold equImgs
  rw [decide_eq_true_eq]
  constructor
  · intro h
    refine ⟨hd, fun p => ?_⟩
    by_cases hp : Img.In a.dims p
    · have e1 := a.buf_offOf p hp
      have e2 := b.buf_offOf p (hd ▸ hp)
      rw [← hd] at e2
      rw [e1, e2, h _ (offOf_lt hp)]
    · rw [Img.at?_none _ _ hp, Img.at?_none _ _ (hd ▸ hp)]
  · intro h i hi
    obtain ⟨p, hp, hi'⟩ := Img.buf_at? a i hi
    have := h.2 p
    rw [hp] at this
    have hp2 := Img.at?_buf b p _ this.symm
    obtain ⟨j, -, hj, hji⟩ := hp2
    have : j = i := by rw [← hd, hi'] at hji; exact hji
    subst this
    exact hj.symm

/-- The levels from `f`. -/
def IsSkelLevels (se : StrElt) (f : Img (Px t)) (K : Nat) (S : Nat → Img (Px t)) : Prop :=
  ∃ e : Nat → Img (Px t), e 0 = f ∧ ∀ k, k < K → IsSkelLevel se (e k) (e (k + 1)) (S (k + 1))

theorem skelLevels_cons {se : StrElt} {f e d : Img (Px t)} {K : Nat} {S : Nat → Img (Px t)} (h : IsSkelLevel se f e d)
    (hS : IsSkelLevels se e K S) : IsSkelLevels se f (K + 1) (fun k => if k ≤ 1 then d else S (k - 1)) := by
  obtain ⟨es, h0, h1⟩ := hS
  refine ⟨fun k => if k = 0 then f else es (k - 1), rfl, fun k hk => ?_⟩
  rcases k with _ | k
  · simpa [h0] using h
  · have := h1 k (by omega)
    simpa using this

theorem skelLevels_one {se : StrElt} {f e d : Img (Px t)} (h : IsSkelLevel se f e d) : IsSkelLevels se f 1 (fun _ => d) :=
  ⟨fun k => if k = 0 then f else e, rfl, fun k hk => by obtain rfl : k = 0 := by omega
                                                        simpa using h⟩

theorem levels_dims {se : StrElt} {f : Img (Px t)} {K : Nat} {S : Nat → Img (Px t)} (h : IsSkelLevels se f K S) :
    ∀ k, 1 ≤ k → k ≤ K → (S k).dims = f.dims := by
  obtain ⟨e, h0, h1⟩ := h
  have hd : ∀ k, k ≤ K → (e k).dims = f.dims := by
    intro k
    induction k with
    | zero => intro _; rw [h0]
    | succ k ih => intro hk; rw [(h1 k (by omega)).dims.1, ih (by omega)]
  intro k hk hkK
  obtain ⟨j, rfl⟩ : ∃ j, k = j + 1 := ⟨k - 1, by omega⟩
  rw [(h1 j (by omega)).dims.2, hd j (by omega)]

theorem skelLoop_spec (E : Env (Px t)) (hs : t.signed = false) (se : StrElt) : ∀ (fuel : Nat) (ero tmp out : Img (Px t)), ero.alloc = true →
    SEOk ero.dims se → tmp.dims = ero.dims → out.dims = ero.dims → ero.dims.count * t.hi - out.vol < fuel →
    ∃ K S r, 1 ≤ K ∧ IsSkelLevels se ero K S ∧ skelLoop E se fuel ero tmp out = some (.ok r) ∧ r.dims = ero.dims ∧
      (∀ p b, out.at? p = some b → ∃ v, r.at? p = some v ∧
        ∀ u, v ≤ u ↔ b ≤ u ∧ ∀ k w, 1 ≤ k → k ≤ K → (S k).at? p = some w → w ≤ u) ∧
      (∀ p b w, out.at? p = some b → (S K).at? p = some w → w ≤ b ∨ ∃ k w', 1 ≤ k ∧ k < K ∧ (S k).at? p = some w' ∧ w ≤ w') ∧
      (∀ k, 1 ≤ k → k < K → ∃ p b w, out.at? p = some b ∧ (S k).at? p = some w ∧ b < w ∧
        ∀ j w', 1 ≤ j → j < k → (S j).at? p = some w' → w' < w) := by
  intro fuel
  induction fuel with
  | zero =>
    intro ero tmp out ha hse htd hod hf
    have := vol_upper out
    rw [hod] at this
    push_cast at hf; omega
  | succ fuel ih =>
    intro ero tmp out ha hse htd hod hf
    obtain ⟨e, o, d, he, ho, hd, hlev⟩ := skel_level E hs se ero tmp ha hse htd
    have hdd := hlev.dims.2
    set sup := Img.zipF kSup out d with hsup
    have hmap : Img.IsMap2 kSup out d sup := zipF_map2 kSup (hdd.trans hod.symm)
    have hsd : sup.dims = out.dims := hmap.1
    have hdat : ∀ p b, out.at? p = some b → ∃ w, d.at? p = some w := fun p b hb =>
      ⟨_, Img.at?_some d p ((hdd.trans hod.symm) ▸ Img.at?_eq_some_in _ _ _ hb)⟩
    have hoat : ∀ p w, d.at? p = some w → ∃ b, out.at? p = some b := fun p b hb =>
      ⟨_, Img.at?_some out p ((hod.trans hdd.symm) ▸ Img.at?_eq_some_in _ _ _ hb)⟩
    have hsat : ∀ p b w, out.at? p = some b → d.at? p = some w → sup.at? p = some (max b w) := fun p b w hb hw => by
      rw [hmap.2.2 p b w hb hw, kSup_eq_max]
    have hle : Img.Le out sup := ⟨hsd.symm, fun p u v hu hv => by
      obtain ⟨w, hw⟩ := hdat p u hu
      rw [hsat p u w hu hw] at hv; cases hv; exact le_max_left _ _⟩
    have estep : skelLoop E se (fuel + 1) ero tmp out = if equImgs sup out then some (.ok sup) else skelLoop E se fuel e sup sup := by
      rw [skelLoop]
      simp only [he, ho, hd, andThen, Option.bind_some]
      rfl
    rw [estep]
    by_cases heq : equImgs sup out = true
    · rw [if_pos heq]
      have hsame := (equImgs_iff hsd).mp heq
      refine ⟨1, fun _ => d, sup, le_refl _, skelLevels_one hlev, rfl, hsd.trans hod, fun p b hb => ?_, fun p b w hb hw => ?_,
        fun k h1 h2 => by omega⟩
      · obtain ⟨w, hw⟩ := hdat p b hb
        refine ⟨max b w, hsat p b w hb hw, fun u => ⟨fun h => ⟨le_trans (le_max_left _ _) h, fun k w' _ _ hw' => ?_⟩, fun h => ?_⟩⟩
        · rw [hw] at hw'; cases hw'; exact le_trans (le_max_right _ _) h
        · exact max_le h.1 (h.2 1 w (le_refl _) (le_refl _) hw)
      · have := hsame.2 p
        rw [hsat p b w hb hw, hb] at this
        exact Or.inl (max_eq_left_iff.mp (Option.some.inj this))
    · rw [if_neg heq]
      have hned : ¬ Img.Same sup out := fun h => heq ((equImgs_iff hsd).mpr h)
      have hed := hlev.dims.1
      have hv : out.vol < sup.vol := by
        rcases lt_or_eq_of_le (vol_le hle) with h | h
        · exact h
        · exact absurd (vol_strict hle h).symm hned
      obtain ⟨K, S, r, hK, hlevs, hr, hrd, hval, hstop, hgrow⟩ := ih e sup sup (alloc_of_dims hed ha) (hed ▸ hse) (hsd.trans (hod.trans hed.symm))
        (hsd.trans (hod.trans hed.symm)) (by rw [hed]; push_cast at hf; omega)
      refine ⟨K + 1, _, r, by omega, skelLevels_cons hlev hlevs, hr, hrd.trans hed, fun p b hb => ?_, fun p b w hb hw => ?_, fun k h1 h2 => ?_⟩
      · obtain ⟨w, hw⟩ := hdat p b hb
        obtain ⟨v, hv, hu⟩ := hval p _ (hsat p b w hb hw)
        refine ⟨v, hv, fun u => ?_⟩
        rw [hu u]
        constructor
        · rintro ⟨h1, h2⟩
          refine ⟨le_trans (le_max_left _ _) h1, fun k w' hk hkK hw' => ?_⟩
          by_cases hk1 : k ≤ 1
          · rw [if_pos hk1, hw] at hw'; cases hw'; exact le_trans (le_max_right _ _) h1
          · rw [if_neg hk1] at hw'
            exact h2 (k - 1) w' (by omega) (by omega) hw'
        · rintro ⟨h1, h2⟩
          refine ⟨max_le h1 (h2 1 w (le_refl _) (by omega) (by rw [if_pos (le_refl _)]; exact hw)), fun k w' hk hkK hw' => ?_⟩
          exact h2 (k + 1) w' (by omega) (by omega) (by rw [if_neg (by omega)]; exact hw')
      · rw [if_neg (by omega)] at hw
        obtain ⟨w1, hw1⟩ := hdat p b hb
        rcases hstop p _ w (hsat p b w1 hb hw1) hw with h | ⟨k, w', hk1, hk2, hk3, hk4⟩
        · rcases le_max_iff.mp h with h | h
          · exact Or.inl h
          · exact Or.inr ⟨1, w1, le_refl _, by omega, by rw [if_pos (le_refl _)]; exact hw1, h⟩
        · exact Or.inr ⟨k + 1, w', by omega, by omega, by rw [if_neg (by omega)]; exact hk3, hk4⟩
      · by_cases hk : k ≤ 1
        · by_contra hno
          apply hned
          refine Img.Le.antisymm ⟨hsd, fun p u v hu hv => ?_⟩ hle
          obtain ⟨w, hw⟩ := hdat p v hv
          rw [hsat p v w hv hw] at hu; cases hu
          refine max_le (le_refl _) (le_of_not_gt fun hlt => hno ⟨p, v, w, hv, ?_, hlt, fun j w' hj1 hj2 _ => by omega⟩)
          rw [if_pos hk]; exact hw
        · obtain ⟨p, b, w, hb, hw, hbw, hj⟩ := hgrow (k - 1) (by omega) (by omega)
          obtain ⟨b0, hb0⟩ : ∃ b0, out.at? p = some b0 := ⟨_, Img.at?_some out p (hsd ▸ Img.at?_eq_some_in _ _ _ hb)⟩
          obtain ⟨w1, hw1⟩ := hdat p b0 hb0
          rw [hsat p b0 w1 hb0 hw1] at hb; cases hb
          refine ⟨p, b0, w, hb0, by rw [if_neg hk]; exact hw, lt_of_le_of_lt (le_max_left _ _) hbw, fun j w' hj1 hj2 hw' => ?_⟩
          by_cases hj' : j ≤ 1
          · rw [if_pos hj', hw1] at hw'; cases hw'; exact lt_of_le_of_lt (le_max_right _ _) hbw
          · rw [if_neg hj'] at hw'
            exact hj (j - 1) w' (by omega) (by omega) hw'

/-- When the erosion changes nothing there is no residue. -/
theorem residue_zero {se : StrElt} (hr : ∀ p, seRel se p p) {f e d : Img (Px t)} (h : IsSkelLevel se f e d) (hsame : Img.Same f e) :
    ∀ p w, d.at? p = some w → w.val = 0 := by
  obtain ⟨h1, o, ⟨m, h2, h3⟩, h4, h5⟩ := h
  have hme : Img.Same e m := IterRel.unique (fun _ _ _ _ => isEroBy_unique) hsame h1 h2
  have hge : Img.Le e o := (Img.Le.of_same (Img.Same.symm hme) (Img.Same.refl o) (dil_ext hr _ h3))
  have hle := open_antiext ⟨m, h2, h3⟩
  have heo : Img.Same e o := Img.Le.antisymm hge hle
  intro p w hw
  have hin := Img.at?_eq_some_in _ _ _ hw
  have hu := Img.at?_some e p (h4 ▸ hin)
  have hv := heo.2 p
  rw [hu] at hv
  obtain ⟨w', hw', he⟩ := h5 p _ _ hu hv.symm
  rw [hw] at hw'; cases hw'
  rw [he, sub_self]

theorem wrap_succ (s : PT) (n : Int) : s.wrap ((s.wrap n).val + 1) = s.wrap (n + 1) := by
  apply s.wrap_congr
  have := s.wrap_dvd n
  obtain ⟨c, hc⟩ := this
  exact ⟨-c, by rw [mul_neg, ← hc]; ring⟩

theorem extLoop_spec (E : Env (Px t)) (hs : t.signed = false) (hs2 : s.signed = false ∨ s.bits ≤ 16) (se : StrElt) (hr : ∀ p, seRel se p p) :
    ∀ (fuel n : Nat) (ero tmp : Img (Px t)) (out : Img (Px s)), ero.alloc = true →
    SEOk ero.dims se → tmp.dims = ero.dims → out.dims = ero.dims → ero.vol - ero.dims.count * t.lo < fuel →
    ∃ K S r, 1 ≤ K ∧ IsSkelLevels se ero K S ∧ extValLoop E se fuel ero tmp (s.wrap (n + 1)) out = some (.ok r) ∧ r.dims = ero.dims ∧
      (∀ p b, out.at? p = some b → ∃ v, r.at? p = some v ∧
        ((∀ k w, 1 ≤ k → k ≤ K → (S k).at? p = some w → w.val = 0) → v = b) ∧
        ∀ k w, 1 ≤ k → k ≤ K → (S k).at? p = some w → w.val ≠ 0 →
          (∀ j w', k < j → j ≤ K → (S j).at? p = some w' → w'.val = 0) → v = s.wrap (n + k)) ∧
      ((∀ p b, out.at? p = some b → b.val ≤ n) → n + K ≤ s.hi →
        (∀ p w, (S K).at? p = some w → w.val = 0) ∧ ∀ k, 1 ≤ k → k < K → ∃ p w, (S k).at? p = some w ∧ w.val ≠ 0) := by
  intro fuel
  induction fuel with
  | zero =>
    intro n ero tmp out ha hse htd hod hf
    have := vol_lower ero
    push_cast at hf; omega
  | succ fuel ih =>
    intro n ero tmp out ha hse htd hod hf
    obtain ⟨e, o, d, he, ho, hd, hlev⟩ := skel_level E hs se ero tmp ha hse htd
    have hdd := hlev.dims.2
    have hed := hlev.dims.1
    set out' := Img.zipF (fun (v : Px t) (w : Px s) => kTest v (s.wrap (n + 1)) w) d out with hout'
    have hmap : Img.IsMap2 (fun (v : Px t) (w : Px s) => kTest v (s.wrap (n + 1)) w) d out out' := zipF_map2 _ (hod.trans hdd.symm)
    have hsd : out'.dims = out.dims := hmap.1.trans (hdd.trans hod.symm)
    have hdat : ∀ p b, out.at? p = some b → ∃ w, d.at? p = some w := fun p b hb =>
      ⟨_, Img.at?_some d p ((hdd.trans hod.symm) ▸ Img.at?_eq_some_in _ _ _ hb)⟩
    have hoat : ∀ p w, d.at? p = some w → ∃ b, out.at? p = some b := fun p b hb =>
      ⟨_, Img.at?_some out p ((hod.trans hdd.symm) ▸ Img.at?_eq_some_in _ _ _ hb)⟩
    have hz : ∀ p b w, out.at? p = some b → d.at? p = some w → w.val = 0 → out'.at? p = some b := fun p b w hb hw h0 => by
      rw [hmap.2.2 p w b hw hb]; simp [kTest, Px.truthy, h0]
    have hnz : ∀ p b w, out.at? p = some b → d.at? p = some w → w.val ≠ 0 → out'.at? p = some (s.wrap (n + 1)) := fun p b w hb hw h0 => by
      rw [hmap.2.2 p w b hw hb]; simp [kTest, Px.truthy, h0]
    have estep : extValLoop E se (fuel + 1) ero tmp (s.wrap (n + 1)) out =
        if equImgs out' out then some (.ok out') else extValLoop E se fuel e d (s.wrap ((n + 1 : Nat) + 1)) out' := by
      rw [extValLoop]
      simp only [he, ho, hd, Option.bind_some, genNext_ok (show incOk s from hs2), wrap_succ]
      push_cast
      rfl
    rw [estep]
    by_cases heq : equImgs out' out = true
    · rw [if_pos heq]
      have hsame := (equImgs_iff hsd).mp heq
      refine ⟨1, fun _ => d, out', le_refl _, skelLevels_one hlev, rfl, hsd.trans hod, fun p b hb => ?_, fun hb hK => ⟨fun p w hw => ?_, fun k h1 h2 => by omega⟩⟩
      · obtain ⟨w, hw⟩ := hdat p b hb
        by_cases h0 : w.val = 0
        · refine ⟨b, hz p b w hb hw h0, fun _ => rfl, fun k w' _ _ hw' hne => ?_⟩
          rw [hw] at hw'; cases hw'; exact absurd h0 hne
        · refine ⟨_, hnz p b w hb hw h0, fun h => absurd (h 1 w (le_refl _) (le_refl _) hw) h0, fun k w' h1 h2 _ _ _ => ?_⟩
          obtain rfl : k = 1 := by omega
          rfl
      · by_contra h0
        obtain ⟨b, hb'⟩ := hoat p w hw
        have h1 := hsame.2 p
        rw [hnz p b w hb' hw h0, hb'] at h1
        have h2 := congrArg Px.val (Option.some.inj h1)
        have h3 := hb p b hb'
        push_cast at hK
        rw [s.wrap_of_mem (by have := s.lo_nonpos; omega) (by omega)] at h2
        omega
    · rw [if_neg heq]
      have hned : ¬ Img.Same out' out := fun h => heq ((equImgs_iff hsd).mpr h)
      have hle : Img.Le e ero := ero_ext hr _ hlev.1
      have hex : ∃ p w, d.at? p = some w ∧ w.val ≠ 0 := by
        by_contra hno
        push Not at hno
        apply hned
        refine ⟨hsd, fun p => ?_⟩
        by_cases hp : Img.In out.dims p
        · have hb := Img.at?_some out p hp
          obtain ⟨w, hw⟩ := hdat p _ hb
          rw [hz p _ w hb hw (hno p w hw), hb]
        · rw [Img.at?_none _ _ hp, Img.at?_none _ _ (hsd ▸ hp)]
      have hv : e.vol < ero.vol := by
        rcases lt_or_eq_of_le (vol_le hle) with h | h
        · exact h
        · exfalso
          obtain ⟨p, w, hw, hne⟩ := hex
          exact hne (residue_zero hr hlev (vol_strict hle h).symm p w hw)
      obtain ⟨K, S, r, hK, hlevs, hr', hrd, hval, hstop⟩ := ih (n + 1) e d out' (alloc_of_dims hed ha) (hed ▸ hse) (hdd.trans hed.symm)
        (hsd.trans (hod.trans hed.symm)) (by rw [hed]; push_cast at hf; omega)
      refine ⟨K + 1, _, r, by omega, skelLevels_cons hlev hlevs, hr', hrd.trans hed, fun p b hb => ?_, fun hb hKs => ?_⟩
      · obtain ⟨w, hw⟩ := hdat p b hb
        have hout : ∃ b', out'.at? p = some b' := ⟨_, Img.at?_some out' p (hsd ▸ Img.at?_eq_some_in _ _ _ hb)⟩
        obtain ⟨b', hb'⟩ := hout
        obtain ⟨v, hv, hv0, hvk⟩ := hval p b' hb'
        refine ⟨v, hv, fun h => ?_, fun k w' h1 h2 hw' hne hlast => ?_⟩
        · have h0 : w.val = 0 := h 1 w (le_refl _) (by omega) (by rw [if_pos (le_refl _)]; exact hw)
          rw [hz p b w hb hw h0] at hb'; cases hb'
          exact hv0 fun k w' h1 h2 hw' => h (k + 1) w' (by omega) (by omega) (by rw [if_neg (by omega)]; exact hw')
        · by_cases hk : k ≤ 1
          · obtain rfl : k = 1 := by omega
            rw [if_pos (le_refl _), hw] at hw'; cases hw'
            rw [hnz p b w hb hw hne] at hb'; cases hb'
            exact hv0 fun k w' h1 h2 hw' => hlast (k + 1) w' (by omega) (by omega) (by rw [if_neg (by omega)]; exact hw')
          · rw [if_neg hk] at hw'
            have := hvk (k - 1) w' (by omega) (by omega) hw' hne fun j w'' hj1 hj2 hw'' =>
              hlast (j + 1) w'' (by omega) (by omega) (by rw [if_neg (by omega)]; exact hw'')
            rw [this]
            congr 1
            push_cast [Nat.cast_sub (show 1 ≤ k by omega)]
            ring
      · have hb2 : ∀ p b, out'.at? p = some b → b.val ≤ (n + 1 : Nat) := by
          intro p b' hb'
          obtain ⟨b, hbb⟩ : ∃ b, out.at? p = some b := ⟨_, Img.at?_some out p (hsd ▸ Img.at?_eq_some_in _ _ _ hb')⟩
          obtain ⟨w, hw⟩ := hdat p b hbb
          have := hb p b hbb
          by_cases h0 : w.val = 0
          · rw [hz p b w hbb hw h0] at hb'; cases hb'
            push_cast; omega
          · rw [hnz p b w hbb hw h0] at hb'; cases hb'
            push_cast at hKs
            rw [s.wrap_of_mem (by have := s.lo_nonpos; omega) (by omega)]
            push_cast; omega
        obtain ⟨h1, h2⟩ := hstop hb2 (by push_cast at hKs ⊢; omega)
        refine ⟨fun p w hw => ?_, fun k hk1 hk2 => ?_⟩
        · rw [if_neg (by omega)] at hw
          exact h1 p w hw
        · by_cases hk : k ≤ 1
          · obtain ⟨p, w, hw, hne⟩ := hex
            exact ⟨p, w, by rw [if_pos hk]; exact hw, hne⟩
          · obtain ⟨p, w, hw, hne⟩ := h2 (k - 1) (by omega) (by omega)
            exact ⟨p, w, by rw [if_neg hk]; exact hw, hne⟩

/-- The sum of the coordinates. -/
def plainShift (p b : IntPoint) : IntPoint := ⟨p.x + b.x, p.y + b.y, p.z + b.z⟩

theorem setReferenceOff_in {D : Dims} {p : IntPoint} (h : Img.In D p) :
    (ImageBox.mk' D.w D.h D.d).setReferenceOff (offOf D p : Nat) = some ⟨p, (offOf D p : Nat), D.w, D.h, D.d⟩ := by
  have e : (ImageBox.mk' D.w D.h D.d).setReferenceOff (offOf D p : Nat) = ((ImageBox.mk' D.w D.h D.d).getCoords (offOf D p : Nat)).map
      fun q => ⟨q, (offOf D p : Nat), D.w, D.h, D.d⟩ := by
    unfold ImageBox.setReferenceOff ImageBox.getCoords
    split <;> rfl
  have e2 : ((offOf D p : Nat) : Int) = (ImageBox.mk' D.w D.h D.d).getOffset p := by
    rw [← offOf_eq h]; simp only [ImageBox.getOffset, ImageBox.mk']; ring
  have h3 := C02_getCoords_getOffset (ImageBox.mk' D.w D.h D.d) p (by
    obtain ⟨h1, h2, h3, h4, h5, h6⟩ := h
    exact decide_eq_true ⟨h1, h2, h3, h4, h5, h6⟩)
  rw [e, e2, h3]; rfl

theorem pruneNb_spec (im : Img (Px t)) (p : IntPoint) (n : Int) (v : Px t) (h0 : 0 < v.val) (hv : v ≠ ⊤) (ud : Bool × Bool) (b : IntPoint) :
    ∃ ud', pruneNb im ⟨p, n, im.dims.w, im.dims.h, im.dims.d⟩ v ud b = some ud' ∧
      (ud'.1 = true ↔ ud.1 = true ∨ ∃ w, im.at? (plainShift p b) = some w ∧ w ≠ ⊤ ∧ v < w) ∧
      (ud'.2 = true ↔ ud.2 = true ∨ ∃ w, im.at? (plainShift p b) = some w ∧ w ≠ ⊤ ∧ w < v) := by
  unfold pruneNb
  have hvlt : v.val < t.hi := by
    have := Px.lt_iff.mp (lt_top_iff_ne_top.mpr hv)
    rwa [Px.top_val] at this
  by_cases hin : Img.In im.dims (plainShift p b)
  · have hin2 : (ImageBox.shiftPt ⟨p, n, im.dims.w, im.dims.h, im.dims.d⟩ b).inImage (ImageBox.shiftPt ⟨p, n, im.dims.w, im.dims.h, im.dims.d⟩ b).pt = true := by
      obtain ⟨h1, h2, h3, h4, h5, h6⟩ := hin
      exact decide_eq_true ⟨h1, h2, h3, h4, h5, h6⟩
    have hw : im.at? (plainShift p b) = some (im.buf (ImageBox.shiftPt ⟨p, n, im.dims.w, im.dims.h, im.dims.d⟩ b).reference.toNat) := by
      rw [im.buf_offOf _ hin]
      congr 2
      have := offOf_eq hin
      simp only [plainShift] at this
      simp only [ImageBox.shiftPt, plainShift]
      have e : p.x + b.x + (p.y + b.y + (p.z + b.z) * (im.dims.h : Int)) * im.dims.w = (offOf im.dims ⟨p.x + b.x, p.y + b.y, p.z + b.z⟩ : Nat) := by
        rw [← this]; ring
      rw [e]; rfl
    simp only [hin2, if_true]
    rw [hw]
    generalize im.buf (ImageBox.shiftPt ⟨p, n, im.dims.w, im.dims.h, im.dims.d⟩ b).reference.toNat = w
    by_cases hwt : w = ⊤
    · subst hwt
      rw [if_neg (by simp)]
      exact ⟨ud, rfl, by simp, by simp⟩
    · rw [if_pos hwt, cpp_of_mem (by have := t.lo_nonpos; omega) (by omega), cpp_of_mem (by have := t.lo_nonpos; omega) (by omega)]
      refine ⟨_, rfl, ?_, ?_⟩
      · simp only [Bool.or_eq_true, decide_eq_true_eq, Option.some.injEq]
        constructor
        · rintro (h | h)
          · exact Or.inl h
          · exact Or.inr ⟨w, rfl, hwt, Px.lt_iff.mpr (by omega)⟩
        · rintro (h | ⟨w', rfl, -, h⟩)
          · exact Or.inl h
          · have := Px.lt_iff.mp h
            exact Or.inr (by omega)
      · simp only [Bool.or_eq_true, decide_eq_true_eq, Option.some.injEq]
        constructor
        · rintro (h | h)
          · exact Or.inl h
          · exact Or.inr ⟨w, rfl, hwt, Px.lt_iff.mpr (by omega)⟩
        · rintro (h | ⟨w', rfl, -, h⟩)
          · exact Or.inl h
          · have := Px.lt_iff.mp h
            exact Or.inr (by omega)
  · have hin2 : ¬ (ImageBox.shiftPt ⟨p, n, im.dims.w, im.dims.h, im.dims.d⟩ b).inImage (ImageBox.shiftPt ⟨p, n, im.dims.w, im.dims.h, im.dims.d⟩ b).pt = true := by
      intro hc
      apply hin
      exact of_decide_eq_true hc
    rw [if_neg hin2, Img.at?_none _ _ hin]
    exact ⟨ud, rfl, by simp, by simp⟩

theorem pruneFold_spec (im : Img (Px t)) (p : IntPoint) (n : Int) (v : Px t) (h0 : 0 < v.val) (hv : v ≠ ⊤) : ∀ (l : List IntPoint) (ud : Bool × Bool),
    ∃ ud', l.foldlM (pruneNb im ⟨p, n, im.dims.w, im.dims.h, im.dims.d⟩ v) ud = some ud' ∧
      (ud'.1 = true ↔ ud.1 = true ∨ ∃ b ∈ l, ∃ w, im.at? (plainShift p b) = some w ∧ w ≠ ⊤ ∧ v < w) ∧
      (ud'.2 = true ↔ ud.2 = true ∨ ∃ b ∈ l, ∃ w, im.at? (plainShift p b) = some w ∧ w ≠ ⊤ ∧ w < v) := by
  intro l
  induction l with
  | nil => intro ud; exact ⟨ud, rfl, by simp, by simp⟩
  | cons b l ih =>
    intro ud
    obtain ⟨ud1, h1, h2, h3⟩ := pruneNb_spec im p n v h0 hv ud b
    obtain ⟨ud2, h4, h5, h6⟩ := ih ud1
    refine ⟨ud2, ?_, ?_, ?_⟩
    · rw [List.foldlM_cons, h1]; exact h4
    · rw [h5, h2, List.exists_mem_cons_iff, or_assoc]
    · rw [h6, h3, List.exists_mem_cons_iff, or_assoc]

theorem prunePx_spec (se : StrElt) (im : Img (Px t)) {p : IntPoint} (hp : Img.In im.dims p) {v : Px t} (hv : im.at? p = some v) :
    ∃ r, prunePx se im (offOf im.dims p) = some r ∧
      ((0 < v.val ∧ v ≠ ⊤ ∧ ¬ ((∃ b ∈ se.points, ∃ w, im.at? (plainShift p b) = some w ∧ w ≠ ⊤ ∧ v < w) ∧
        ∃ b ∈ se.points, ∃ w, im.at? (plainShift p b) = some w ∧ w ≠ ⊤ ∧ w < v)) → r = v) ∧
      (¬ (0 < v.val ∧ v ≠ ⊤ ∧ ¬ ((∃ b ∈ se.points, ∃ w, im.at? (plainShift p b) = some w ∧ w ≠ ⊤ ∧ v < w) ∧
        ∃ b ∈ se.points, ∃ w, im.at? (plainShift p b) = some w ∧ w ≠ ⊤ ∧ w < v)) → r = Px.zero) := by
  have hb : im.buf (offOf im.dims p) = v := by
    have := im.buf_offOf p hp
    rw [hv] at this; exact (Option.some.inj this).symm
  unfold prunePx
  rw [setReferenceOff_in hp]
  simp only [Option.bind_some, Int.toNat_natCast, hb]
  by_cases h : 0 < v.val ∧ v ≠ ⊤
  · rw [if_pos h]
    obtain ⟨ud, h1, h2, h3⟩ := pruneFold_spec im p (offOf im.dims p : Nat) v h.1 h.2 se.points (false, false)
    rw [h1]
    simp only [Bool.false_eq_true, false_or] at h2 h3
    refine ⟨_, rfl, fun hc => ?_, fun hc => ?_⟩
    · rw [← h2, ← h3] at hc
      obtain ⟨-, -, hc⟩ := hc
      rcases ud with ⟨a, b⟩
      cases a <;> cases b <;> simp_all
    · rw [← h2, ← h3] at hc
      rcases ud with ⟨a, b⟩
      cases a <;> cases b <;> simp_all
  · rw [if_neg h]
    exact ⟨_, rfl, fun hc => absurd ⟨hc.1, hc.2.1⟩ h, fun _ => rfl⟩

end Smil
