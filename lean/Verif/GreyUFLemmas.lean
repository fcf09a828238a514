import Verif.GreyUF
import Verif.AreaOpenLemmas
import Mathlib.Data.Fintype.EquivFin

/-!
# The counting sort and the union-find of the addon
-/

namespace Smil
section
variable {n : Nat} {g : Nat → Nat}

/-! ### The sort -/

theorem goHist_eq (n : Nat) (g : Nat → Nat) (v : Nat) : goHist n g v = (List.range n).countP fun i => g i = v := by
  unfold goHist
  induction n with
  | zero => rfl
  | succ n ih =>
    rw [List.range_succ, List.foldl_append, List.foldl_cons, List.foldl_nil, List.countP_append, ← ih, Function.update_apply]
    by_cases h : v = g n
    · rw [if_pos h, List.countP_cons, List.countP_nil, h]; simp
    · rw [if_neg h, List.countP_cons, List.countP_nil]; simp [Ne.symm h]

theorem countP_ge (l : List Nat) (g : Nat → Nat) (k : Nat) : (l.countP fun i => k ≤ g i) = (l.countP fun i => k + 1 ≤ g i) + l.countP fun i => g i = k := by
  induction l with
  | nil => rfl
  | cons a l ih =>
    rw [List.countP_cons, List.countP_cons, List.countP_cons, ih]
    by_cases h1 : k ≤ g a <;> by_cases h2 : k + 1 ≤ g a <;> by_cases h3 : g a = k <;> simp only [h1, h2, h3] <;> simp <;> omega

theorem goStart_loop (n : Nat) (g : Nat → Nat) : ∀ (k s : Nat) (ix : Nat → Nat), s = ((List.range n).countP fun i => k ≤ g i) → ∀ v,
    ((List.range k).reverse.foldl (fun s v => (s.1 + goHist n g v, Function.update s.2 v s.1)) ((s, ix) : Nat × (Nat → Nat))).2 v =
      if v < k then (List.range n).countP fun i => v < g i else ix v := by
  intro k
  induction k with
  | zero => intro s ix _ v; simp
  | succ k ih =>
    intro s ix hs v
    rw [List.range_succ, List.reverse_append, List.reverse_singleton, List.singleton_append, List.foldl_cons, ih _ _ (by rw [goHist_eq, hs, ← countP_ge])]
    by_cases h : v < k
    · rw [if_pos h, if_pos (by omega)]
    · rw [if_neg h]
      dsimp only
      rw [Function.update_apply]
      by_cases e : v = k
      · rw [if_pos e, if_pos (by omega), hs, e]
        rfl
      · rw [if_neg e, if_neg (by omega)]

theorem goStart_eq (hg : ∀ i < n, g i < 256) {v : Nat} (hv : v < 256) : goStart n g v = (List.range n).countP fun i => v < g i := by
  unfold goStart
  rw [goStart_loop n g 256 0 _ ?_ v, if_pos hv]
  symm
  rw [List.countP_eq_zero]
  intro i hi
  have := hg i (List.mem_range.mp hi)
  simp; omega

/-- The number of the pixels before `j`. -/
def goPos (n : Nat) (g : Nat → Nat) (j : Nat) : Nat := ((List.range n).countP fun i => g j < g i) + (List.range j).countP fun i => g i = g j

instance (g : Nat → Nat) (a b : Nat) : Decidable (ABef g a b) := by unfold ABef; infer_instance

theorem goPos_rank {j : Nat} (hj : j ≤ n) : goPos n g j = (List.range n).countP fun i => ABef g i j := by
  have h2 : ((List.range j).countP fun i => g i = g j) = (List.range n).countP fun i => g i = g j ∧ i < j := by
    obtain ⟨k, rfl⟩ := Nat.exists_eq_add_of_le hj
    rw [List.range_add, List.countP_append]
    have e1 : ((List.range j).countP fun i => decide (g i = g j ∧ i < j)) = (List.range j).countP fun i => g i = g j := by
      refine List.countP_congr fun i hi => ?_
      have := List.mem_range.mp hi
      simp [this]
    have e2 : (((List.range k).map (j + ·)).countP fun i => decide (g i = g j ∧ i < j)) = 0 := by
      rw [List.countP_eq_zero]
      intro i hi
      obtain ⟨a, _, rfl⟩ := List.mem_map.mp hi
      simp
    rw [e1, e2]
    rfl
  unfold goPos
  rw [h2]
  generalize List.range n = l
  induction l with
  | nil => rfl
  | cons a l ih =>
    rw [List.countP_cons, List.countP_cons, List.countP_cons, ← ih]
    by_cases h1 : g j < g a <;> by_cases h2 : g a = g j ∧ a < j
    · omega
    · have h3 : ABef g a j := .inl h1
      simp only [h1, h2, h3, decide_true, decide_false, if_true, Bool.false_eq_true, if_false]; omega
    · have h3 : ABef g a j := .inr h2
      rw [if_neg (by simpa using h1), if_pos (decide_eq_true h2), if_pos (decide_eq_true h3)]; omega
    · have h3 : ¬ ABef g a j := fun h => h.elim h1 h2
      simp only [h1, h2, h3, decide_false, Bool.false_eq_true, if_false]; omega

theorem goPos_lt {j : Nat} (hj : j < n) : goPos n g j < n := by
  rw [goPos_rank hj.le]
  have h1 := List.countP_le_length (p := fun i => decide (ABef g i j)) (l := List.range n)
  rw [List.length_range] at h1
  refine lt_of_le_of_ne h1 fun e => ?_
  have : (List.range n).countP (fun i => decide (ABef g i j)) = (List.range n).length := by rw [e, List.length_range]
  rw [List.countP_eq_length] at this
  have := this j (List.mem_range.mpr hj)
  exact ABef.irrefl (of_decide_eq_true this)

theorem goPos_mono {a b : Nat} (ha : a < n) (hb : b < n) (h : ABef g a b) : goPos n g a < goPos n g b := by
  rw [goPos_rank ha.le, goPos_rank hb.le, List.countP_eq_length_filter, List.countP_eq_length_filter]
  have hn : ∀ p : Nat → Bool, ((List.range n).filter p).Nodup := fun p => List.nodup_range.filter p
  have hs : a :: (List.range n).filter (fun i => decide (ABef g i a)) ⊆ (List.range n).filter fun i => decide (ABef g i b) := by
    intro x hx
    rcases List.mem_cons.mp hx with rfl | hx
    · rw [List.mem_filter]; exact ⟨List.mem_range.mpr ha, decide_eq_true h⟩
    · rw [List.mem_filter] at hx ⊢
      exact ⟨hx.1, decide_eq_true ((of_decide_eq_true hx.2).trans h)⟩
  have hnd : (a :: (List.range n).filter (fun i => decide (ABef g i a))).Nodup := by
    rw [List.nodup_cons]
    refine ⟨fun hx => ?_, hn _⟩
    rw [List.mem_filter] at hx
    exact ABef.irrefl (of_decide_eq_true hx.2)
  have := (hnd.subperm hs).length_le
  rw [List.length_cons] at this
  omega

theorem goPos_inj {a b : Nat} (ha : a < n) (hb : b < n) (h : goPos n g a = goPos n g b) : a = b := by
  by_contra hne
  rcases ABef.total (f := g) a b hne with h1 | h1
  · have := goPos_mono ha hb h1; omega
  · have := goPos_mono hb ha h1; omega

theorem goPos_surj {k : Nat} (hk : k < n) : ∃ j < n, goPos n g j = k := by
  have hinj : Function.Injective fun j : Fin n => (⟨goPos n g j, goPos_lt j.2⟩ : Fin n) := by
    intro a b h
    exact Fin.ext (goPos_inj a.2 b.2 (Fin.mk.inj h))
  obtain ⟨j, hj⟩ := Finite.surjective_of_injective hinj ⟨k, hk⟩
  exact ⟨j, j.2, Fin.mk.inj hj⟩

theorem goSort_loop (hg : ∀ i < n, g i < 256) : ∀ m ≤ n, ∃ ix sp : Nat → Nat, (List.range m).foldlM (goPut n g) (goStart n g, fun _ => 0) = some (ix, sp) ∧
    (∀ v < 256, ix v = ((List.range n).countP fun i => v < g i) + (List.range m).countP fun i => g i = v) ∧ ∀ j < m, sp (goPos n g j) = j := by
  intro m
  induction m with
  | zero =>
    intro _
    exact ⟨goStart n g, fun _ => 0, rfl, fun v hv => by rw [goStart_eq hg hv]; simp, fun j hj => by omega⟩
  | succ m ih =>
    intro hm
    obtain ⟨ix, sp, e, h1, h2⟩ := ih (by omega)
    have hix : ix (g m) = goPos n g m := h1 _ (hg m (by omega))
    have hlt := goPos_lt (g := g) (show m < n by omega)
    refine ⟨Function.update ix (g m) (ix (g m) + 1), Function.update sp (ix (g m)) m, ?_, ?_, ?_⟩
    · rw [List.range_succ, List.foldlM_append, e]
      have hput : goPut n g (ix, sp) m = some (Function.update ix (g m) (ix (g m) + 1), Function.update sp (ix (g m)) m) := if_pos (show ix (g m) < n by omega)
      rw [Option.bind_eq_bind, Option.bind_some, List.foldlM_cons, hput]
      rfl
    · intro v hv
      rw [Function.update_apply, List.range_succ, List.countP_append, List.countP_cons, List.countP_nil]
      by_cases hvm : v = g m
      · rw [if_pos hvm, ← hvm, h1 v hv, if_pos (by simp [hvm])]; omega
      · rw [if_neg hvm, h1 v hv, if_neg (by simp [Ne.symm hvm])]; omega
    · intro j hj
      rw [hix, Function.update_apply]
      by_cases hjm : j = m
      · rw [hjm, if_pos rfl]
      · rw [if_neg (fun h => hjm (goPos_inj (by omega) (by omega) h))]
        exact h2 j (by omega)

/-- The counting sort gives the pixels from the highest, in raster order among equal ones. -/
theorem goSort_ord (hg : ∀ i < n, g i < 256) : ∃ sp, goSort n g = some sp ∧ AOrd n g ((List.range n).map sp) := by
  obtain ⟨ix, sp, e, -, h⟩ := goSort_loop hg n le_rfl
  refine ⟨sp, by unfold goSort; rw [e]; rfl, ?_, ?_⟩
  · intro i
    rw [List.mem_map]
    constructor
    · rintro ⟨k, hk, rfl⟩
      obtain ⟨j, hj, rfl⟩ := goPos_surj (g := g) (List.mem_range.mp hk)
      rw [h j hj]; exact hj
    · intro hi
      exact ⟨goPos n g i, List.mem_range.mpr (goPos_lt hi), h i hi⟩
  · rw [List.pairwise_map]
    refine List.pairwise_lt_range.imp_of_mem fun {a b} ha hb hab => ?_
    obtain ⟨j, hj, rfl⟩ := goPos_surj (g := g) (List.mem_range.mp ha)
    obtain ⟨k, hk, rfl⟩ := goPos_surj (g := g) (List.mem_range.mp hb)
    rw [h j hj, h k hk]
    have hne : j ≠ k := by rintro rfl; omega
    rcases ABef.total (f := g) j k hne with h1 | h1
    · exact h1
    · have := goPos_mono hk hj h1; omega

end

/-! ### `Link1` -/

section
variable {α : Type} [LinearOrder α] {adj : Nat → List Nat} {N lam : Nat} {f : Nat → α}

theorem goRoot_spec {P : Nat → Prop} (hP : ∀ i, P i → i < N) {rt : Nat → Nat} {par : Nat → Int} (hu : UF f P par rt) :
    ∀ (fuel x : Nat), P x → {y | y < N ∧ ABef f x y}.ncard < fuel → goRoot fuel par x = some (rt x)
  | 0, _, _, h => by omega
  | fuel + 1, x, hx, hfu => by
    unfold goRoot
    by_cases h0 : par x ≥ 0
    · obtain ⟨p, ep, hpP, hb, hr⟩ := hu.par_mem x hx h0
      rw [if_pos h0, ep, Int.toNat_natCast, goRoot_spec hP hu fuel p hpP (lt_of_lt_of_le (abef_card (hP _ hpP) hb) (by omega)), hr]
    · rw [if_neg h0, hu.root_self x hx (by omega)]

theorem goCompress_spec {P : Nat → Prop} (hP : ∀ i, P i → i < N) {rt rt' : Nat → Nat} {par2 : Nat → Int} {root newroot : Nat}
    (hpath : ∀ r, P r → rt r = root → r ≠ root → ∃ q : Nat, par2 r = q ∧ P q ∧ ABef f r q ∧ rt q = root) (hnew : ∀ r, P r → rt r = root → rt' r = newroot) :
    ∀ (fuel : Nat) (cur : Nat → Int) (r : Nat), UF f P cur rt' → P r → rt r = root → (∀ y, y = r ∨ ABef f r y → cur y = par2 y) →
      {y | y < N ∧ ABef f r y}.ncard < fuel →
      ∃ cur', goCompress fuel cur root newroot r = some cur' ∧ UF f P cur' rt' ∧ ∀ y, cur y < 0 → cur' y = cur y
  | 0, _, _, _, _, _, _, h => by omega
  | fuel + 1, cur, r, hu, hr, hrt, heq, hfu => by
    unfold goCompress
    by_cases h : r = root
    · rw [if_neg (by simpa using h)]
      exact ⟨cur, rfl, hu, fun _ _ => rfl⟩
    · rw [if_pos h]
      obtain ⟨q, e, hq, hb, hqr⟩ := hpath r hr hrt h
      have hcr : cur r = q := (heq r (.inl rfl)).trans e
      have hn : rt' r = newroot := hnew r hr hrt
      obtain ⟨hm1, hm2⟩ := hu.root_mem r hr
      rw [hn] at hm1 hm2
      have hne : newroot ≠ r := by rintro rfl; omega
      have hbn : ABef f r newroot := by
        rcases hu.bef r hr with h1 | h1
        · exact absurd (hn.symm.trans h1) hne
        · rwa [hn] at h1
      have hnn : rt' newroot = newroot := hu.root_self _ hm1 hm2
      have hu2 : UF f P (Function.update cur r (newroot : Int)) rt' := by
        refine ⟨?_, ?_, hu.bef, ?_⟩
        · intro y hy
          refine ⟨(hu.root_mem y hy).1, ?_⟩
          have hyx : rt' y ≠ r := by
            intro e2
            have := (hu.root_mem y hy).2
            rw [e2] at this; omega
          rw [Function.update_of_ne hyx]
          exact (hu.root_mem y hy).2
        · intro y hy h1
          rcases eq_or_ne y r with rfl | hyx
          · rw [Function.update_self] at h1; omega
          · rw [Function.update_of_ne hyx] at h1
            exact hu.root_self y hy h1
        · intro y hy h1
          rcases eq_or_ne y r with rfl | hyx
          · exact ⟨newroot, by rw [Function.update_self], hm1, hbn, hnn.trans hn.symm⟩
          · rw [Function.update_of_ne hyx] at h1 ⊢
            exact hu.par_mem y hy h1
      rw [hcr, Int.toNat_natCast]
      obtain ⟨cur', e', hu', hk'⟩ := goCompress_spec hP hpath hnew fuel _ q hu2 hq hqr (by
        intro y hy
        have hry : ABef f r y := by
          rcases hy with rfl | hy
          · exact hb
          · exact hb.trans hy
        rw [Function.update_of_ne (by rintro rfl; exact ABef.irrefl hry)]
        exact heq y (.inr hry)) (lt_of_lt_of_le (abef_card (hP _ hq) hb) (by omega))
      refine ⟨cur', e', hu', fun y hy => ?_⟩
      have hyr : y ≠ r := by rintro rfl; omega
      rw [hk' y (by rwa [Function.update_of_ne hyr]), Function.update_of_ne hyr]

/-- The invariant is kept by a compression. -/
theorem UIn.compress {P0 : Nat → Prop} {p : Nat} {l : List Nat} {par par1 : Nat → Int} {rt : Nat → Nat} (h : UIn adj N lam f p P0 l par rt)
    (hu1 : UF f (fun i => P0 i ∨ i = p) par1 rt) (hk1 : ∀ y, par y < 0 → par1 y = par y) : UIn adj N lam f p P0 l par1 rt := by
  have hneg : ∀ x, (P0 x ∨ x = p) → par1 x < 0 → par x < 0 := by
    intro x hx h0
    rw [← hu1.root_self x hx h0]
    exact (h.uf.root_mem x hx).2
  have hp1 : par1 p = par p := hk1 p h.pneg
  refine ⟨hu1, by rw [hp1]; exact h.pneg, h.lnk, ?_, ?_, ?_, ?_⟩
  · intro r hr h0 h2
    have h3 := hneg r hr h0
    rw [hk1 r h3] at h2
    exact h.big r hr h3 h2
  · intro s hs h0 h2
    have h3 := hneg s (.inl hs) h0
    rw [hk1 s h3] at h2 ⊢
    exact h.small s hs h3 h2
  · rw [hp1]; exact h.psmall
  · intro m hm hm0
    rcases h.done m hm hm0 with h2 | h2
    · exact .inl h2
    · right
      rw [hk1 _ (h.uf.root_mem m (.inl hm0)).2]; exact h2

/-- `Link1` before the compression. -/
def goLink0 (lam : Int) (op : Nat → Int) (root p : Nat) : Nat → Int :=
  if root ≠ p then if -(op root) < lam then Function.update (Function.update op p (op p + op root)) root (p : Int) else Function.update op p (-lam) else op

theorem goLink_eq (lam : Int) (fuel : Nat) (op : Nat → Int) (n p : Nat) :
    goLink lam fuel op n p = (goRoot fuel op n).bind fun root => goCompress fuel (goLink0 lam op root p) root (if root ≠ p ∧ -(op root) < lam then p else root) n := by
  unfold goLink goLink0
  congr 1
  funext root
  by_cases h1 : root = p
  · rw [if_neg (by simpa using h1), if_neg (by simpa using h1), if_neg (fun h => h.1 h1)]
  · rw [if_pos h1, if_pos h1]
    by_cases h2 : -(op root) < lam
    · rw [if_pos h2, if_pos h2, if_pos ⟨h1, h2⟩]
    · rw [if_neg h2, if_neg h2, if_neg (fun h => h2 h.2)]

theorem UIn.link0 (hs : ∀ i j, j ∈ adj i → i ∈ adj j) (hlam : 1 ≤ lam)
    {P0 : Nat → Prop} {p : Nat} (hpN : p < N)
    (hP0 : ∀ i, P0 i ↔ i < N ∧ ABef f i p) {l : List Nat} {par1 : Nat → Int} {rt : Nat → Nat}
    (h1 : UIn adj N lam f p P0 l par1 rt) {n : Nat} (hn : P0 n) (hnp : n ∈ adj p) :
    ∃ rt', UIn adj N lam f p P0 (l ++ [n]) (goLink0 lam par1 (rt n) p) rt' ∧
      ∀ x, (P0 x ∨ x = p) → rt x = rt n → rt' x = if rt n ≠ p ∧ -(par1 (rt n)) < lam then p else rt n := by
  have hpn : ¬ P0 p := fun h => ABef.irrefl ((hP0 p).mp h).2
  have hlt : ∀ i, (P0 i ∨ i = p) → i < N := by
    rintro i (hi | rfl)
    · exact ((hP0 i).mp hi).1
    · exact hpN
  have hle0 : ∀ {i}, P0 i → f p ≤ f i := fun hi => ((hP0 _).mp hi).2.le
  have hpp : rt p = p := h1.uf.root_self p (.inr rfl) h1.pneg
  unfold goLink0
  obtain ⟨hrP, hrneg⟩ := h1.uf.root_mem n (.inl hn)
  generalize hr : rt n = r at *
  have hrr : rt r = r := h1.uf.root_self r hrP hrneg
  have hadjc : ∀ S : Nat → Prop, S n → S p → AConn adj S n p :=
    fun S h2 h3 => .single ⟨h2, h3, hs _ _ hnp⟩
  by_cases hrp : r = p
  · -- already in the tree of `p`
    rw [if_neg (by simpa using hrp), if_neg (fun hh => hh.1 hrp)]
    refine ⟨rt, ?_, fun x _ e => e⟩
    refine ⟨h1.uf, h1.pneg, h1.lnk, h1.big, h1.small, ?_, ?_⟩
    · intro h0
      obtain ⟨h2, h3⟩ := h1.psmall h0
      refine ⟨fun x => ?_, h3⟩
      rw [h2 x]
      constructor
      · rintro (h4 | ⟨m, hm, h4⟩)
        · exact .inl h4
        · exact .inr ⟨m, List.mem_append_left _ hm, h4⟩
      · rintro (h4 | ⟨m, hm, h4, h5⟩)
        · exact .inl h4
        · rcases List.mem_append.mp hm with hm | hm
          · exact .inr ⟨m, hm, h4, h5⟩
          · rw [List.mem_singleton] at hm
            subst hm
            rcases (h2 m).mp ⟨.inl hn, by rw [hr, hrp]⟩ with h6 | ⟨k, hk, h6, h7⟩
            · exact absurd (h6 ▸ hn) hpn
            · exact .inr ⟨k, hk, h6, h7.trans h5⟩
    · intro m hm hm0
      rcases List.mem_append.mp hm with hm | hm
      · exact h1.done m hm hm0
      · rw [List.mem_singleton] at hm
        subst hm
        exact .inl (hr.trans hrp)
  · rw [if_pos hrp]
    have hr0 : P0 r := hrP.resolve_right hrp
    have hnr := h1.lnk n (.inl hn)
    rw [hr] at hnr
    have hrpl : AConn adj (ALev N f (f p)) r p := by
      have h2 : AConn adj (ALev N f (f p)) n r := hnr.1.mono fun i hi => ⟨hi.1, (hle0 hr0).trans hi.2⟩
      exact (h2.symm hs).trans (hadjc _ ⟨hlt n (.inl hn), hle0 hn⟩ ⟨hpN, le_refl _⟩)
    by_cases hcr : -par1 r < lam
    · rw [if_pos hcr, if_pos ⟨hrp, hcr⟩]
      have hlnk : ALnk adj N lam f r p := by
        refine ⟨hrpl, ?_⟩
        by_cases he : f r = f p
        · exact .inl he
        · right
          obtain ⟨_, h3⟩ := h1.small r hr0 hrneg (hcr)
          have h4 : (acomp adj (ALevS N f (f p)) r).ncard ≤ (acomp adj P0 r).ncard := by
            refine acomp_mono (N := N) (fun i hi => (hP0 i).mpr ⟨hi.1, .inl hi.2⟩)
              (fun i hi => ((hP0 i).mp hi).1) r
          have := hcr
          omega
      have hbef : ABef f r p := ((hP0 r).mp hr0).2
      have hv : ∀ x, x ≠ r → x ≠ p →
          Function.update (Function.update par1 p (par1 p + par1 r)) r (p : Int) x = par1 x := by
        intro x hx hx'
        rw [Function.update_of_ne hx, Function.update_of_ne hx']
      have hvp : Function.update (Function.update par1 p (par1 p + par1 r)) r (p : Int) p =
          par1 p + par1 r := by
        rw [Function.update_of_ne (Ne.symm hrp), Function.update_self]
      have hvr : Function.update (Function.update par1 p (par1 p + par1 r)) r (p : Int) r = p := by
        rw [Function.update_self]
      generalize hpar2 : Function.update (Function.update par1 p (par1 p + par1 r)) r (p : Int) = par2 at *
      have hpneg := h1.pneg
      refine ⟨fun x => if rt x = r then p else rt x, ?_, fun x _ e => if_pos e⟩
      refine ⟨⟨?_, ?_, ?_, ?_⟩, ?_, ?_, ?_, ?_, ?_, ?_⟩
      · intro x hx
        obtain ⟨h2, h3⟩ := h1.uf.root_mem x hx
        split
        · exact ⟨.inr rfl, by rw [hvp]; omega⟩
        · rename_i hxr
          refine ⟨h2, ?_⟩
          by_cases hxp : rt x = p
          · rw [hxp, hvp]; omega
          · rw [hv _ hxr hxp]; exact h3
      · intro x hx h0
        have hxr : x ≠ r := by rintro rfl; rw [hvr] at h0; omega
        have hx1 : rt x = x := by
          by_cases hxp : x = p
          · rw [hxp, hpp]
          · rw [hv _ hxr hxp] at h0
            exact h1.uf.root_self x hx h0
        simp only [hx1, if_neg hxr]
      · intro x hx
        split
        · rename_i hxr
          rcases h1.uf.bef x hx with h2 | h2
          · right; rw [hxr] at h2; rw [← h2]; exact hbef
          · rw [hxr] at h2; exact .inr (h2.trans hbef)
        · exact h1.uf.bef x hx
      · intro x hx h0
        by_cases hxr : x = r
        · subst hxr
          refine ⟨p, hvr, .inr rfl, hbef, ?_⟩
          simp only [hpp, hrr, if_neg (Ne.symm hrp), if_true]
        · have hxp : x ≠ p := by rintro rfl; rw [hvp] at h0; omega
          rw [hv _ hxr hxp] at h0 ⊢
          obtain ⟨q, e, hq, hb, hq'⟩ := h1.uf.par_mem x hx h0
          exact ⟨q, e, hq, hb, by simp only [hq']⟩
      · rw [hvp]; omega
      · intro x hx
        split
        · rename_i hxr
          have h2 := h1.lnk x hx
          rw [hxr] at h2
          exact h2.trans hs hlnk
        · exact h1.lnk x hx
      · intro s hs' h0 h2
        by_cases hsp : s = p
        · subst hsp
          rw [hvp] at h2
          have hmono : lam ≤ (acomp adj (ALev N f (f r)) r).ncard →
              lam ≤ (acomp adj (ALev N f (f s)) s).ncard := by
            intro h3
            refine h3.trans ?_
            rw [← acomp_eq hs hrpl]
            exact acomp_mono (N := N) (fun i hi => ⟨hi.1, (hle0 hr0).trans hi.2⟩) (fun i hi => hi.1) r
          by_cases hb1 : (lam : Int) ≤ -par1 s
          · exact h1.big s (.inr rfl) h1.pneg hb1
          · by_cases hb2 : (lam : Int) ≤ -par1 r
            · exact hmono (h1.big r hrP hrneg hb2)
            · obtain ⟨h3, h4⟩ := h1.psmall (by omega)
              obtain ⟨h5, h6⟩ := h1.small r hr0 hrneg (by omega)
              have hsub : {x | (P0 x ∨ x = s) ∧ rt x = s} ∪ acomp adj P0 r ⊆
                  acomp adj (ALev N f (f s)) s := by
                rintro x (hx | hx)
                · have h7 := (h1.lnk x hx.1).1
                  rw [hx.2] at h7
                  exact h7.symm hs
                · have h7 : AConn adj (ALev N f (f s)) r x :=
                    AConn.mono (fun i hi => ⟨((hP0 i).mp hi).1, hle0 hi⟩) hx
                  exact (hrpl.symm hs).trans h7
              have hdis : Disjoint {x | (P0 x ∨ x = s) ∧ rt x = s} (acomp adj P0 r) := by
                rw [Set.disjoint_left]
                intro x hx hx'
                exact hrp (((h5 x).mpr hx').2.symm.trans hx.2)
              have hf1 : ({x | (P0 x ∨ x = s) ∧ rt x = s} : Set Nat).Finite :=
                (Set.finite_Iio N).subset fun x hx => hlt x hx.1
              have hf2 := acomp_fin (adj := adj) (N := N) (S := P0) (fun i hi => ((hP0 i).mp hi).1) r
              have h8 := Set.ncard_union_eq hdis hf1 hf2
              have h9 := Set.ncard_le_ncard hsub (acomp_fin (fun i hi => hi.1) s)
              omega
        · have hsr : s ≠ r := by rintro rfl; rw [hvr] at h0; omega
          rw [hv s hsr hsp] at h0 h2
          exact h1.big s hs' h0 h2
      · intro s hs0 h0 h2
        have hsp : s ≠ p := fun e => hpn (e ▸ hs0)
        have hsr : s ≠ r := by rintro rfl; rw [hvr] at h0; omega
        rw [hv s hsr hsp] at h0 h2 ⊢
        obtain ⟨h3, h4⟩ := h1.small s hs0 h0 h2
        refine ⟨fun x => ?_, h4⟩
        rw [← h3 x]
        constructor
        · rintro ⟨hx, e⟩
          split at e
          · exact absurd e.symm hsp
          · exact ⟨hx, e⟩
        · rintro ⟨hx, e⟩
          exact ⟨hx, by rw [e, if_neg hsr]⟩
      · intro h0
        rw [hvp] at h0 ⊢
        obtain ⟨h3, h4⟩ := h1.psmall (by omega)
        obtain ⟨h5, h6⟩ := h1.small r hr0 hrneg (by omega)
        have hrn : AConn adj P0 r n := (h5 n).mp ⟨.inl hn, hr⟩
        have hiff : ∀ x, ((P0 x ∨ x = p) ∧ (if rt x = r then p else rt x) = p) ↔
            (((P0 x ∨ x = p) ∧ rt x = p) ∨ AConn adj P0 r x) := by
          intro x
          rw [← h5 x]
          constructor
          · rintro ⟨hx, e⟩
            split at e
            · rename_i hxr; exact .inr ⟨hx, hxr⟩
            · exact .inl ⟨hx, e⟩
          · rintro (⟨hx, e⟩ | ⟨hx, e⟩)
            · exact ⟨hx, by rw [e, if_neg (Ne.symm hrp)]⟩
            · exact ⟨hx, by rw [if_pos e]⟩
        refine ⟨fun x => ?_, ?_⟩
        · rw [hiff x, h3 x]
          constructor
          · rintro ((h7 | ⟨m, hm, h7⟩) | h7)
            · exact .inl h7
            · exact .inr ⟨m, List.mem_append_left _ hm, h7⟩
            · exact .inr ⟨n, by simp, hn, (hrn.symm hs).trans h7⟩
          · rintro (h7 | ⟨m, hm, h7, h8⟩)
            · exact .inl (.inl h7)
            · rcases List.mem_append.mp hm with hm | hm
              · exact .inl (.inr ⟨m, hm, h7, h8⟩)
              · rw [List.mem_singleton] at hm
                subst hm
                exact .inr (hrn.trans h8)
        · have hset : ({x | (P0 x ∨ x = p) ∧ (if rt x = r then p else rt x) = p} : Set Nat) =
              {x | (P0 x ∨ x = p) ∧ rt x = p} ∪ acomp adj P0 r := by
            ext x; exact hiff x
          have hdis : Disjoint {x | (P0 x ∨ x = p) ∧ rt x = p} (acomp adj P0 r) := by
            rw [Set.disjoint_left]
            intro x hx hx'
            exact hrp (((h5 x).mpr hx').2.symm.trans hx.2)
          have hf1 : ({x | (P0 x ∨ x = p) ∧ rt x = p} : Set Nat).Finite :=
            (Set.finite_Iio N).subset fun x hx => hlt x hx.1
          have hf2 := acomp_fin (adj := adj) (N := N) (S := P0) (fun i hi => ((hP0 i).mp hi).1) r
          rw [hset, Set.ncard_union_eq hdis hf1 hf2]
          push_cast
          omega
      · intro m hm hm0
        rcases List.mem_append.mp hm with hm | hm
        · by_cases hmr : rt m = r
          · left; rw [if_pos hmr]
          · rw [if_neg hmr]
            rcases h1.done m hm hm0 with h2 | h2
            · exact .inl h2
            · by_cases hmp : rt m = p
              · exact .inl hmp
              · right; rw [hv _ hmr hmp]; exact h2
        · rw [List.mem_singleton] at hm
          subst hm
          left; rw [if_pos hr]
    · rw [if_neg hcr, if_neg (fun hh => hcr hh.2)]
      have hbig : (lam : Int) ≤ -par1 r := by
        by_contra hc; exact hcr (by omega)
      have hv : ∀ x, x ≠ p → Function.update par1 p (-(lam : Int)) x = par1 x :=
        fun x hx => Function.update_of_ne hx _ _
      have hvp : Function.update par1 p (-(lam : Int)) p = -lam := by rw [Function.update_self]
      generalize hpar2 : Function.update par1 p (-(lam : Int)) = par2 at *
      have hpneg := h1.pneg
      have hnegc : ∀ x, par2 x < 0 ↔ par1 x < 0 := by
        intro x
        by_cases hx : x = p
        · rw [hx, hvp]; omega
        · rw [hv x hx]
      refine ⟨rt, ?_, fun x _ e => e⟩
      refine ⟨⟨?_, ?_, h1.uf.bef, ?_⟩, ?_, h1.lnk, ?_, ?_, ?_, ?_⟩
      · intro x hx
        rw [hnegc]; exact h1.uf.root_mem x hx
      · intro x hx h0
        rw [hnegc] at h0; exact h1.uf.root_self x hx h0
      · intro x hx h0
        have hxp : x ≠ p := by rintro rfl; rw [hvp] at h0; omega
        rw [hv x hxp] at h0 ⊢
        exact h1.uf.par_mem x hx h0
      · rw [hvp]; omega
      · intro s hs' h0 h2
        by_cases hsp : s = p
        · subst hsp
          refine (h1.big r hrP hrneg hbig).trans ?_
          rw [← acomp_eq hs hrpl]
          exact acomp_mono (N := N) (fun i hi => ⟨hi.1, (hle0 hr0).trans hi.2⟩) (fun i hi => hi.1) r
        · rw [hv s hsp] at h0 h2
          exact h1.big s hs' h0 h2
      · intro s hs0 h0 h2
        have hsp : s ≠ p := fun e => hpn (e ▸ hs0)
        rw [hv s hsp] at h0 h2 ⊢
        exact h1.small s hs0 h0 h2
      · intro h0; rw [hvp] at h0; omega
      · intro m hm hm0
        have key : ∀ m, P0 m → (rt m = p ∨ (lam : Int) ≤ -par1 (rt m)) →
            (rt m = p ∨ (lam : Int) ≤ -par2 (rt m)) := by
          intro m hm0 h2
          by_cases hmp : rt m = p
          · exact .inl hmp
          · right; rw [hv _ hmp]; exact h2.resolve_left hmp
        rcases List.mem_append.mp hm with hm | hm
        · exact key m hm0 (h1.done m hm hm0)
        · rw [List.mem_singleton] at hm
          subst hm
          exact key m hm0 (.inr (by rw [hr]; exact hbig))


theorem UIn.link (hs : ∀ i j, j ∈ adj i → i ∈ adj j) (hlam : 1 ≤ lam)
    {P0 : Nat → Prop} {p : Nat} (hpN : p < N)
    (hP0 : ∀ i, P0 i ↔ i < N ∧ ABef f i p) {l : List Nat} {par : Nat → Int} {rt : Nat → Nat}
    (h : UIn adj N lam f p P0 l par rt) {n : Nat} (hn : P0 n) (hnp : n ∈ adj p) :
    ∃ par' rt', goLink lam (N + 1) par n p = some par' ∧ UIn adj N lam f p P0 (l ++ [n]) par' rt' := by
  have hlt : ∀ i, (P0 i ∨ i = p) → i < N := by
    rintro i (hi | rfl)
    · exact ((hP0 i).mp hi).1
    · exact hpN
  have hpp : rt p = p := h.uf.root_self p (.inr rfl) h.pneg
  obtain ⟨rt', h2, h3⟩ := h.link0 hs hlam hpN hP0 hn hnp
  have hpath : ∀ r, (P0 r ∨ r = p) → rt r = rt n → r ≠ rt n → ∃ q : Nat, goLink0 lam par (rt n) p r = q ∧ (P0 q ∨ q = p) ∧ ABef f r q ∧ rt q = rt n := by
    intro r hr e hne
    have h0 : 0 ≤ par r := by
      by_contra hc
      exact hne ((h.uf.root_self r hr (by omega)).symm.trans e)
    obtain ⟨q, e1, hq, hb, hqr⟩ := h.uf.par_mem r hr h0
    refine ⟨q, ?_, hq, hb, hqr.trans e⟩
    rw [← e1]
    unfold goLink0
    have hrp : rt n ≠ p → r ≠ p := by
      rintro h4 rfl
      exact h4 (e.symm.trans hpp)
    split
    · rename_i h4
      split
      · rw [Function.update_of_ne hne, Function.update_of_ne (hrp h4)]
      · rw [Function.update_of_ne (hrp h4)]
    · rfl
  obtain ⟨par', e, hu, hk⟩ := goCompress_spec hlt hpath h3 (N + 1) (goLink0 lam par (rt n) p) n h2.uf (.inl hn) rfl (fun _ _ => rfl)
    (Nat.lt_succ_of_le (abef_card_le n))
  refine ⟨par', rt', ?_, h2.compress hu hk⟩
  rw [goLink_eq, goRoot_spec hlt h.uf (N + 1) n (.inl hn) (Nat.lt_succ_of_le (abef_card_le n)), Option.bind_some, e]

end

section
variable {adj : Nat → List Nat} {N lam : Nat} {f : Nat → Nat}

theorem UIn.goFoldlM (hs : ∀ i j, j ∈ adj i → i ∈ adj j) (hlt : ∀ i < N, ∀ j ∈ adj i, j < N)
    (hlam : 1 ≤ lam) {P0 : Nat → Prop} {p : Nat} (hpN : p < N)
    (hP0 : ∀ i, P0 i ↔ i < N ∧ ABef f i p) :
    ∀ (l2 l1 : List Nat) (par : Nat → Int) (rt : Nat → Nat), (∀ n ∈ l2, n ∈ adj p) →
      UIn adj N lam f p P0 l1 par rt →
      ∃ par' rt', l2.foldlM (fun par n => if goTest f p n then
          goLink lam (N + 1) par n p else some par) par = some par' ∧
        UIn adj N lam f p P0 (l1 ++ l2) par' rt'
  | [], l1, par, rt, _, h => ⟨par, rt, rfl, by rw [List.append_nil]; exact h⟩
  | n :: l2, l1, par, rt, hl, h => by
    have hn := hl n (by simp)
    have hiff : goTest f p n = true ↔ P0 n := by
      rw [hP0]
      unfold goTest ABef
      have := hlt p hpN n hn
      split
      · rw [decide_eq_true_iff]; constructor
        · intro h1; exact ⟨this, by omega⟩
        · rintro ⟨_, h1⟩; omega
      · rw [decide_eq_true_iff]; constructor
        · intro h1; exact ⟨this, by omega⟩
        · rintro ⟨_, h1⟩; omega
    rw [List.foldlM_cons]
    by_cases h0 : P0 n
    · rw [if_pos (hiff.mpr h0)]
      obtain ⟨par', rt', e, h'⟩ := h.link hs hlam hpN hP0 h0 hn
      rw [e]
      obtain ⟨par2, rt2, e2, h2⟩ := UIn.goFoldlM hs hlt hlam hpN hP0 l2 (l1 ++ [n]) par' rt'
        (fun m hm => hl m (by simp [hm])) h'
      exact ⟨par2, rt2, e2, by rw [List.append_assoc] at h2; exact h2⟩
    · rw [if_neg (by rwa [hiff])]
      have h' : UIn adj N lam f p P0 (l1 ++ [n]) par rt := by
        refine ⟨h.uf, h.pneg, h.lnk, h.big, h.small, ?_, ?_⟩
        · intro h1
          obtain ⟨h2, h3⟩ := h.psmall h1
          refine ⟨fun x => ?_, h3⟩
          rw [h2 x]
          constructor
          · rintro (h4 | ⟨m, hm, h4⟩)
            · exact .inl h4
            · exact .inr ⟨m, List.mem_append_left _ hm, h4⟩
          · rintro (h4 | ⟨m, hm, h4, h5⟩)
            · exact .inl h4
            · rcases List.mem_append.mp hm with hm | hm
              · exact .inr ⟨m, hm, h4, h5⟩
              · rw [List.mem_singleton] at hm
                exact absurd (hm ▸ h4) h0
        · intro m hm hm0
          rcases List.mem_append.mp hm with hm | hm
          · exact h.done m hm hm0
          · rw [List.mem_singleton] at hm
            exact absurd (hm ▸ hm0) h0
      obtain ⟨par2, rt2, e2, h2⟩ := UIn.goFoldlM hs hlt hlam hpN hP0 l2 (l1 ++ [n]) par rt
        (fun m hm => hl m (by simp [hm])) h'
      exact ⟨par2, rt2, e2, by rw [List.append_assoc] at h2; exact h2⟩

theorem goBuild_spec (hs : ∀ i j, j ∈ adj i → i ∈ adj j) (hlt : ∀ i < N, ∀ j ∈ adj i, j < N)
    (hlam : 1 ≤ lam) {ord : List Nat} (hord : AOrd N f ord) : ∀ (l2 l1 : List Nat) (par : Nat → Int)
      (rt : Nat → Nat), ord = l1 ++ l2 → UInv adj N lam f (· ∈ l1) par rt →
      ∃ par' rt', l2.foldlM (goPixel f adj lam (N + 1)) par = some par' ∧
        UInv adj N lam f (· ∈ ord) par' rt'
  | [], l1, par, rt, e, h => ⟨par, rt, rfl, by rw [e, List.append_nil]; exact h⟩
  | p :: l2, l1, par, rt, e, h => by
    have hpN : p < N := (hord.mem p).mp (by rw [e]; simp)
    have hP0 : ∀ i, i ∈ l1 ↔ i < N ∧ ABef f i p := by
      have hb := hord.bef
      rw [e, List.pairwise_append] at hb
      intro i
      constructor
      · intro hi
        exact ⟨(hord.mem i).mp (by rw [e]; simp [hi]), hb.2.2 i hi p (by simp)⟩
      · rintro ⟨hi, hbi⟩
        have h1 := (hord.mem i).mpr hi
        rw [e] at h1
        rcases List.mem_append.mp h1 with h1 | h1
        · exact h1
        · rcases List.mem_cons.mp h1 with h1 | h1
          · exact absurd (h1 ▸ hbi) ABef.irrefl
          · have := (List.pairwise_cons.mp hb.2.1).1 i h1
            exact absurd (this.trans hbi) ABef.irrefl
    rw [List.foldlM_cons]
    have h0 := UIn.init hlam hP0 h hpN
    obtain ⟨par', rt', e', h'⟩ := UIn.goFoldlM hs hlt hlam hpN hP0 (adj p) [] _ _ (fun n hn => hn) h0
    have h2 := h'.finish hs hP0
    unfold goPixel
    rw [e']
    exact goBuild_spec hs hlt hlam hord l2 (l1 ++ [p]) par' rt' (by rw [e]; simp)
      (h2.congr fun i => by simp)

theorem goResolve_spec {P : Nat → Prop} {par : Nat → Int} {rt : Nat → Nat} (hu : UF f P par rt) :
    ∀ (l : List Nat) (s : Nat → Int) (D : Nat → Prop), l.Pairwise (fun a b => ABef f b a) → (∀ x ∈ l, P x) →
      (∀ x ∈ l, ∀ y, P y → ABef f x y → D y ∨ y ∈ l) → (∀ x ∈ l, ¬ D x) →
      (∀ y, D y → s y = f (rt y)) → (∀ y, ¬ D y → s y = par y) → ∀ y, (D y ∨ y ∈ l → l.foldl (goResolve f) s y = f (rt y)) ∧ (¬ D y → y ∉ l → l.foldl (goResolve f) s y = par y)
  | [], s, D, _, _, _, _, h1, h2, y => by
    refine ⟨fun hy => ?_, fun hy _ => h2 y hy⟩
    rcases hy with hy | hy
    · exact h1 y hy
    · cases hy
  | x :: l, s, D, hp, hP, hc, hD, h1, h2, y => by
    obtain ⟨hpx, hpl⟩ := List.pairwise_cons.mp hp
    rw [List.foldl_cons]
    have hxD := hD x (by simp)
    have hxP := hP x (by simp)
    have hv : (if s x < 0 then (f x : Int) else s (s x).toNat) = f (rt x) := by
      rw [h2 x hxD]
      split
      · rename_i h0
        rw [hu.root_self x hxP h0]
      · rename_i h0
        obtain ⟨p, e, hpP, hb, hr⟩ := hu.par_mem x hxP (by omega)
        rw [e, Int.toNat_natCast]
        have hpD : D p := by
          rcases hc x (by simp) p hpP hb with h | h
          · exact h
          · rcases List.mem_cons.mp h with h | h
            · exact absurd (h ▸ hb) ABef.irrefl
            · exact absurd (hb.trans (hpx p h)) ABef.irrefl
        rw [h1 p hpD, hr]
    have hst : goResolve f s x = Function.update s x (f (rt x) : Int) := by
      unfold goResolve
      rw [hv]
    rw [hst]
    have key := goResolve_spec hu l (Function.update s x (f (rt x) : Int)) (fun y => D y ∨ y = x) hpl (fun z hz => hP z (by simp [hz])) ?_ ?_ ?_ ?_ y
    · refine ⟨fun hy => key.1 ?_, fun hy hyl => key.2 ?_ ?_⟩
      · rcases hy with h | h
        · exact .inl (.inl h)
        · rcases List.mem_cons.mp h with h | h
          · exact .inl (.inr h)
          · exact .inr h
      · rintro (h | h)
        · exact hy h
        · exact hyl (by simp [h])
      · intro h; exact hyl (by simp [h])
    · intro z hz w hw hb
      rcases hc z (by simp [hz]) w hw hb with h | h
      · exact .inl (.inl h)
      · rcases List.mem_cons.mp h with h | h
        · exact .inl (.inr h)
        · exact .inr h
    · rintro z hz (h | h)
      · exact hD z (by simp [hz]) h
      · exact ABef.irrefl (h ▸ hpx z hz)
    · rintro z (h | h)
      · have hzx : z ≠ x := fun e => hxD (e ▸ h)
        rw [Function.update_of_ne hzx]
        exact h1 z h
      · subst h
        rw [Function.update_self]
    · intro z hz
      rw [Function.update_of_ne (fun e => hz (.inr e) : z ≠ x)]
      exact h2 z fun h => hz (.inl h)

end
end Smil
