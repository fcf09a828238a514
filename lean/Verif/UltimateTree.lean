import Verif.UltimateLemmas

/-!
# The ultimate opening on the tree
-/

namespace Smil
open Relation
variable {M : Type} {K : MTCrit M} {C : MTCfg} {Good : M → Finset Nat → Prop} {mv : Nat} {s : MTSt M}
  {anc : Nat → Nat → Prop} {kids : Nat → List Nat}

/-- `A u` is the attribute of the lowest ancestor of `x` whose level is at least `u`. -/
def IsA (anc : Nat → Nat → Prop) (lev att : Nat → Nat) (x : Nat) (A : Int → Nat) : Prop :=
  ∀ b, anc b x → b ≠ 1 → ∀ u : Int, u ≤ lev b → (∀ b', anc b' x → u ≤ lev b' → lev b ≤ lev b') → A u = att b

section
variable {lev child bro att : Nat → Nat} {cur : Nat}

theorem IsA.self (h : MTr lev child bro cur anc kids) {x : Nat} {A : Int → Nat} (hA : IsA anc lev att x A)
    (h1 : 1 ≤ x) (h2 : x < cur) (h3 : x ≠ 1) : A (lev x) = att x :=
  hA x (h.refl h1 h2) h3 _ (le_refl _) fun b' _ hl => by exact_mod_cast hl

theorem IsA.kid (h : MTr lev child bro cur anc kids) {x c : Nat} {A : Int → Nat} (hA : IsA anc lev att x A)
    (hc : c ∈ kids x) : IsA anc lev att c (fun u => if u ≤ lev x then A u else att c) := by
  intro b hb hb1 u hu hmin
  have hxc := h.kid_anc hc
  by_cases e : b = c
  · subst e
    have : ¬ u ≤ lev x := fun hux => by
      have := hmin x hxc.1 hux
      have := h.lt hxc.1 hxc.2
      omega
    simp only [if_neg this]
  · have hbx := h.up hc hb e
    have := h.le hbx
    simp only
    rw [if_pos (by omega)]
    exact hA b hbx hb1 u hu fun b' hb' => hmin b' (h.trans hb' hxc.1)

/-- What the recursions need of the tree. -/
structure UTree (t u : PT) (lev att : Nat → Nat) (cur : Nat) (anc : Nat → Nat → Prop) (stop : Int) : Prop where
  tlo : t.lo ≤ 0
  ulo : u.lo ≤ 0
  top : ∀ x, 1 ≤ x → x < cur → (lev x : Int) ≤ t.hi
  fit : stop ≤ u.hi
  bnd : ∀ x, 1 ≤ x → x < cur → x ≠ 1 → (att x : Int) ≤ u.hi ∧ att x < 2 ^ 32
  anti : ∀ a b, anc a b → a ≠ 1 → att b ≤ att a

/-- The residue of a node. -/
def NodeRes (anc : Nat → Nat → Prop) (lev att : Nat → Nat) (δ : Nat) (stop : Int) (x : Nat) (o : Int × Int) : Prop :=
  ∃ A, IsA anc lev att x A ∧ IsUltResidue A δ stop (lev 1) (lev x) o.1 o.2

/-- `compute_max`. -/
theorem mtMax_spec {t u : PT} {T : MTree M} (h : MTr lev child bro cur anc kids) (hl : T.lev = lev)
    (hch : T.child = child) (hb : T.bro = bro) {stop : Int} (hT : UTree t u lev att cur anc stop)
    (hatt : ∀ x, 1 ≤ x → x < cur → x ≠ 1 → K.val (T.crit x) = att x) :
    ∀ (fuel node : Nat) (L : List Nat) (c : Nat) (mt mi hp vp pv : Int) (out : Nat → Int × Int) (pre : List Nat),
      kids node = pre ++ L → Enc bro c L → (descs anc cur L).card < fuel →
      (∃ A i up, IsA anc lev att node A ∧ UO A 0 stop (lev 1) (lev node) pv mt i up ∧
        ((mt = 0 ∧ mi = 0) ∨ i = mi + 1)) → vp = lev node → (node ≠ 1 → hp = att node) →
      ∃ out', mtMax t u K T stop fuel c mt mi hp vp pv out = some out' ∧
        (∀ x, (∃ k ∈ L, anc k x) → NodeRes anc lev att 0 stop x (out' x)) ∧
        ∀ x, (¬ ∃ k ∈ L, anc k x) → out' x = out x
  | 0, _, _, _, _, _, _, _, _, _, _, _, _, hf, _, _, _ => by omega
  | fuel + 1, node, [], c, mt, mi, hp, vp, pv, out, _, _, he, _, _, _, _ => by
    cases he
    exact ⟨out, by unfold mtMax; simp, by simp, fun _ _ => rfl⟩
  | fuel + 1, node, c :: L, _, mt, mi, hp, vp, pv, out, pre, hL, he, hf, hv, hvp, hhp => by
    cases he with
    | cons hc0 he =>
    obtain ⟨hc, hk, hdis, hc1, hc2⟩ := h.suffix hL
    have hcn := h.kidn hc
    have hcc := h.refl hcn.1 hcn.2
    have hpc := h.kid_anc hc
    have hnn := (h.node hpc.1).1
    have hcr : c ≠ 1 := by
      rintro rfl
      exact hpc.2 (h.anti hpc.1 (h.root hnn.1 hnn.2))
    obtain ⟨hau, _⟩ := hT.bnd c hcn.1 hcn.2 hcr
    have hkv := hatt c hcn.1 hcn.2 hcr
    unfold mtMax
    rw [if_neg hc0]
    dsimp only
    rw [hl]
    have hh : (u.wrap (K.val (T.crit c) : Nat)).val = (att c : Int) := by
      rw [hkv]; exact PT.wrap_of_mem u (by have := hT.ulo; omega) hau
    rw [hh]
    obtain ⟨A, i, up, hA, hU, hi⟩ := hv
    have hlt := h.lt hpc.1 hpc.2
    have hlev := hT.top c hcn.1 hcn.2
    have hroot1 := h.le (h.root hnn.1 hnn.2)
    have hnr : (lev 1 : Int) < lev node → node ≠ 1 := by rintro hx rfl; omega
    have hself : node ≠ 1 → A (lev node) = att node := fun hne => hA.self h hnn.1 hnn.2 hne
    have hanti : node ≠ 1 → att c ≤ att node := fun hne => hT.anti node c hpc.1 hne
    have hmb := hU.mb
    have hbl := hU.bl
    set flag : Bool := decide ((att c : Int) = hp) with hflag
    set b' : Int := if flag then pv else (lev node : Int) with hb'
    have hbb : (if (att c : Int) = hp then pv else vp) = b' := by rw [hb', hflag, hvp]; simp
    have hmm : (if (att c : Int) = hp then (lev c : Int) - pv else (lev c : Int) - vp) = lev c - b' := by
      rw [← hbb]; split <;> rfl
    have hb'r : (lev 1 : Int) ≤ b' ∧ b' < lev c := by rw [hb']; split <;> omega
    have hw : (t.wrap ((lev c : Int) - b')).val = lev c - b' :=
      PT.wrap_of_mem t (by have := hT.tlo; omega) (by omega)
    rw [hbb, hmm, hw]
    have hA' := hA.kid h hc
    have hstep := hU.step (A' := fun u => if u ≤ (lev node : Int) then A u else att c) (l' := lev c) (a := att c)
      (by omega) (fun u _ hu => if_pos hu) (fun u hu _ => if_neg (by omega))
      (fun hx => by rw [hself (hnr hx)]; exact hanti (hnr hx)) (flag := flag)
      (fun hx => by
        have := hself (hnr hx); have := hanti (hnr hx); have := hhp (hnr hx)
        rw [hflag, decide_eq_true_iff]; omega)
      hb' rfl rfl rfl rfl
    set up' : Bool := decide ((att c : Int) < stop ∧ mt < lev c - b') with hup'
    set r' : Int := if up' then (lev c : Int) - b' else mt with hr'
    set i' : Int := if (att c : Int) < stop then (if up' && !(up && flag) then (att c : Int) + 1 else i) else 0 with hi'
    -- what the code computes
    obtain ⟨r, hr, hr1, hr2⟩ : ∃ r : Int × Int,
        (if stop ≤ (att c : Int) then (mt, 0) else if mt < (lev c : Int) - b' then ((lev c : Int) - b', (att c : Int))
          else (mt, mi)) = r ∧ r.1 = r' ∧
        ((if stop ≤ (att c : Int) then 0 else (u.wrap (r.2 + 1)).val) = i' ∧ ((r' = 0 ∧ r.2 = 0) ∨ i' = r.2 + 1)) := by
      refine ⟨_, rfl, ?_⟩
      by_cases hs : stop ≤ (att c : Int)
      · have hs' : ¬ (att c : Int) < stop := by omega
        have hu0 : up' = false := by rw [hup']; simp [hs']
        have hi0 : i' = 0 := by rw [hi', if_neg hs']
        rw [if_pos hs, if_pos hs]
        refine ⟨by rw [hr', hu0]; rfl, hi0.symm, .inl ⟨?_, rfl⟩⟩
        rcases hstep.res.wit with h1 | ⟨_, _, _, v0, _, _, _, _, h1, _⟩
        · exact h1.1
        · omega
      · have hs' : (att c : Int) < stop := by omega
        rw [if_neg hs, if_neg hs]
        by_cases hm : mt < (lev c : Int) - b'
        · have hu1 : up' = true := by rw [hup']; simp [hs', hm]
          have hi1 : i' = att c + 1 := by
            rw [hi', if_pos hs', hu1]
            cases hup : up with
            | false => simp
            | true =>
              cases hfl : flag with
              | false => simp
              | true =>
                rw [hup] at hU
                have h1 := hU.same
                have h2 := hU.yes rfl
                have hne := hnr h2.1
                rw [hself hne] at h1
                have h3 := hhp hne
                rw [hflag, decide_eq_true_iff] at hfl
                simp only [Bool.and_self, Bool.not_true, Bool.and_false, Bool.false_eq_true, if_false]
                omega
          rw [if_pos hm]
          refine ⟨by rw [hr', hu1]; rfl, ?_, .inr hi1⟩
          rw [hi1]
          exact PT.wrap_of_mem u (by have := hT.ulo; omega) (by have := hT.fit; omega)
        · have hu0 : up' = false := by rw [hup']; simp [hm]
          have hi1 : i' = i := by rw [hi', if_pos hs', hu0]; simp
          rw [if_neg hm]
          have hpos : 0 < mt := by omega
          have hii : i = mi + 1 := hi.resolve_left fun e => by omega
          have hie : 0 ≤ i ∧ i ≤ stop := by
            rcases hU.res.wit with h1 | ⟨_, _, _, v0, _, _, h2, _, h1, _⟩
            · omega
            · have := h2.small; omega
          refine ⟨by rw [hr', hu0]; rfl, ?_, .inr (by rw [hi1, hii])⟩
          simp only
          rw [hi1, ← hii]
          exact PT.wrap_of_mem u (by have := hT.ulo; omega) (by have := hT.fit; omega)
    rw [hr, hr1, hr2.1]
    have hres : NodeRes anc lev att 0 stop c (r', i') := ⟨_, hA', hstep.res⟩
    obtain ⟨k1, e1, h1, h2⟩ := mtMax_spec h hl hch hb hT hatt fuel c (kids c) (T.child c) r' r.2 (att c) (lev c) b'
      (Function.update out c (r', i')) [] (by simp) (by rw [hch]; exact h.enc hcn.1 hcn.2) (by omega)
      ⟨_, _, _, hA', hstep, hr2.2⟩ rfl (fun _ => rfl)
    rw [e1]
    simp only [Option.bind_some]
    obtain ⟨k2, e2, h3, h4⟩ := mtMax_spec h hl hch hb hT hatt fuel node L (T.bro c) mt mi hp vp pv k1 (pre ++ [c])
      (by rw [hL]; simp) (by rw [hb]; exact he) (by omega) ⟨A, i, up, hA, hU, hi⟩ hvp hhp
    refine ⟨k2, e2, ?_, ?_⟩
    · rintro x ⟨k, hk', hkx⟩
      rcases List.mem_cons.mp hk' with hk' | hk'
      · subst hk'
        rw [h4 x (hdis x hkx)]
        by_cases hx : ∃ k' ∈ kids k, anc k' x
        · exact h1 x hx
        · have : x = k := (h.below hkx).resolve_right hx
          subst this
          rw [h2 x hx, Function.update_self]
          exact hres
      · exact h3 x ⟨k, hk', hkx⟩
    · intro x hx
      rw [h4 x (fun ⟨k, hk', hkx⟩ => hx ⟨k, by simp [hk'], hkx⟩)]
      have hxc : ¬ anc c x := fun e => hx ⟨c, by simp, e⟩
      rw [h2 x (fun hx' => hxc (h.kid.mpr hx').1), Function.update_of_ne]
      rintro rfl; exact hxc hcc

/-- `ComputeDeltaUO`. -/
theorem mtDelta_spec {t u : PT} {T : MTree M} (h : MTr lev child bro cur anc kids) (hl : T.lev = lev)
    (hch : T.child = child) (hb : T.bro = bro) {stop : Int} {δ : Nat} (hT : UTree t u lev att cur anc stop)
    (hatt : ∀ x, 1 ≤ x → x < cur → x ≠ 1 → K.val (T.crit x) = att x) :
    ∀ (fuel node : Nat) (L : List Nat) (c : Nat) (prev : Int) (up : Bool) (out : Nat → Int × Int) (pre : List Nat),
      kids node = pre ++ L → Enc bro c L → (descs anc cur L).card < fuel →
      (∃ A b, IsA anc lev att node A ∧ UO A δ stop (lev 1) (lev node) b (out node).1 (out node).2 up ∧
        prev = lev node - b) →
      ∃ out', mtDelta t u K T stop δ fuel node c prev up out = some out' ∧
        (∀ x, (∃ k ∈ L, anc k x) → NodeRes anc lev att δ stop x (out' x)) ∧
        ∀ x, (¬ ∃ k ∈ L, anc k x) → out' x = out x
  | 0, _, _, _, _, _, _, _, _, _, hf, _ => by omega
  | fuel + 1, node, [], c, prev, up, out, _, _, he, _, _ => by
    cases he
    exact ⟨out, by unfold mtDelta; simp, by simp, fun _ _ => rfl⟩
  | fuel + 1, node, c :: L, _, prev, up, out, pre, hL, he, hf, hv => by
    cases he with
    | cons hc0 he =>
    obtain ⟨hc, hk, hdis, hc1, hc2⟩ := h.suffix hL
    have hcn := h.kidn hc
    have hcc := h.refl hcn.1 hcn.2
    have hpc := h.kid_anc hc
    have hnn := (h.node hpc.1).1
    have hcr : c ≠ 1 := by
      rintro rfl
      exact hpc.2 (h.anti hpc.1 (h.root hnn.1 hnn.2))
    obtain ⟨hau, ha32⟩ := hT.bnd c hcn.1 hcn.2 hcr
    have hkv := hatt c hcn.1 hcn.2 hcr
    have hnode : ∀ k ∈ kids node, ¬ anc k node := fun k hk hkn =>
      (h.kid_anc hk).2 (h.anti (h.kid_anc hk).1 hkn)
    unfold mtDelta
    rw [if_neg hc0]
    dsimp only
    rw [hl, hkv, Nat.mod_eq_of_lt ha32]
    obtain ⟨A, b, hA, hU, hprev⟩ := hv
    have hlt := h.lt hpc.1 hpc.2
    have hlev := hT.top c hcn.1 hcn.2
    have hroot1 := h.le (h.root hnn.1 hnn.2)
    have hnr : (lev 1 : Int) < lev node → node ≠ 1 := by rintro hx rfl; omega
    have hself : node ≠ 1 → A (lev node) = att node := fun hne => hA.self h hnn.1 hnn.2 hne
    have hanti : node ≠ 1 → att c ≤ att node := fun hne => hT.anti node c hpc.1 hne
    have hmb := hU.mb
    have hbl := hU.bl
    set flag : Bool := decide (((((K.val (T.crit node) % 2 ^ 32 : Nat) : Int) - (att c : Int)) % 2 ^ 32).toNat ≤ δ)
      with hflag
    set b' : Int := if flag then b else (lev node : Int) with hb'
    have hmm : (if flag = true then prev + (lev c : Int) - (lev node : Int) else (lev c : Int) - (lev node : Int)) =
        lev c - b' := by
      rw [hb']; split <;> omega
    have hb'r : (lev 1 : Int) ≤ b' ∧ b' < lev c := by rw [hb']; split <;> omega
    have hw : (t.wrap ((lev c : Int) - b')).val = lev c - b' :=
      PT.wrap_of_mem t (by have := hT.tlo; omega) (by omega)
    rw [hmm, hw]
    have hA' := hA.kid h hc
    have hstep := hU.step (A' := fun u => if u ≤ (lev node : Int) then A u else att c) (l' := lev c) (a := att c)
      (by omega) (fun u _ hu => if_pos hu) (fun u hu _ => if_neg (by omega))
      (fun hx => by rw [hself (hnr hx)]; exact hanti (hnr hx)) (flag := flag)
      (fun hx => by
        have hne := hnr hx
        have h1 := hself hne; have h2 := hanti hne
        have h3 := (hT.bnd node hnn.1 hnn.2 hne).2
        rw [hflag, decide_eq_true_iff, hatt node hnn.1 hnn.2 hne, Nat.mod_eq_of_lt h3, h1]; omega)
      hb' rfl rfl rfl rfl
    have hww : (att c : Int) < stop → (u.wrap ((att c : Int) + 1)).val = att c + 1 := fun hs =>
      PT.wrap_of_mem u (by have := hT.ulo; omega) (by have := hT.fit; omega)
    have hind : (if (att c : Int) < stop then
        (if (decide ((att c : Int) < stop ∧ (out node).1 < lev c - b') && !(up && flag)) = true then
          (u.wrap ((att c : Int) + 1)).val else (out node).2) else 0) =
        if (att c : Int) < stop then
        (if (decide ((att c : Int) < stop ∧ (out node).1 < lev c - b') && !(up && flag)) = true then
          (att c : Int) + 1 else (out node).2) else 0 := by
      by_cases hs : (att c : Int) < stop
      · rw [if_pos hs, if_pos hs, hww hs]
      · rw [if_neg hs, if_neg hs]
    rw [hind]
    set up' : Bool := decide ((att c : Int) < stop ∧ (out node).1 < lev c - b') with hup'
    set r' : Int := if up' then (lev c : Int) - b' else (out node).1 with hr'
    set i' : Int := if (att c : Int) < stop then (if up' && !(up && flag) then (att c : Int) + 1 else (out node).2)
      else 0 with hi'
    have hres : NodeRes anc lev att δ stop c (r', i') := ⟨_, hA', hstep.res⟩
    obtain ⟨k1, e1, h1, h2⟩ := mtDelta_spec h hl hch hb hT hatt fuel c (kids c) (T.child c) (lev c - b') up'
      (Function.update out c (r', i')) [] (by simp) (by rw [hch]; exact h.enc hcn.1 hcn.2) (by omega)
      ⟨_, b', hA', by rw [Function.update_self]; exact hstep, rfl⟩
    rw [e1]
    simp only [Option.bind_some]
    have hk1 : k1 node = out node := by
      rw [h2 node (fun hx => hnode c hc (h.kid.mpr hx).1), Function.update_of_ne]
      intro e
      exact hpc.2 e
    obtain ⟨k2, e2, h3, h4⟩ := mtDelta_spec h hl hch hb hT hatt fuel node L (T.bro c) prev up k1 (pre ++ [c])
      (by rw [hL]; simp) (by rw [hb]; exact he) (by omega) ⟨A, b, hA, by rw [hk1]; exact hU, hprev⟩
    refine ⟨k2, e2, ?_, ?_⟩
    · rintro x ⟨k, hk', hkx⟩
      rcases List.mem_cons.mp hk' with hk' | hk'
      · subst hk'
        rw [h4 x (hdis x hkx)]
        by_cases hx : ∃ k' ∈ kids k, anc k' x
        · exact h1 x hx
        · have : x = k := (h.below hkx).resolve_right hx
          subst this
          rw [h2 x hx, Function.update_self]
          exact hres
      · exact h3 x ⟨k, hk', hkx⟩
    · intro x hx
      rw [h4 x (fun ⟨k, hk', hkx⟩ => hx ⟨k, by simp [hk'], hkx⟩)]
      have hxc : ¬ anc c x := fun e => hx ⟨c, by simp, e⟩
      rw [h2 x (fun hx' => hxc (h.kid.mpr hx').1), Function.update_of_ne]
      rintro rfl; exact hxc hcc

/-- `compute_max` ends whatever the attributes. -/
theorem mtMax_total {t u : PT} {T : MTree M} (h : MTr lev child bro cur anc kids) (hch : T.child = child)
    (hb : T.bro = bro) {stop : Int} :
    ∀ (fuel node : Nat) (L : List Nat) (c : Nat) (mt mi hp vp pv : Int) (out : Nat → Int × Int) (pre : List Nat),
      kids node = pre ++ L → Enc bro c L → (descs anc cur L).card < fuel →
      ∃ out', mtMax t u K T stop fuel c mt mi hp vp pv out = some out'
  | 0, _, _, _, _, _, _, _, _, _, _, _, _, hf => by omega
  | fuel + 1, node, [], c, mt, mi, hp, vp, pv, out, _, _, he, _ => by
    cases he
    exact ⟨out, by unfold mtMax; simp⟩
  | fuel + 1, node, c :: L, _, mt, mi, hp, vp, pv, out, pre, hL, he, hf => by
    cases he with
    | cons hc0 he =>
    obtain ⟨hc, hk, hdis, hc1, hc2⟩ := h.suffix hL
    have hcn := h.kidn hc
    unfold mtMax
    rw [if_neg hc0]
    dsimp only
    obtain ⟨k1, e1⟩ := mtMax_total (t := t) (u := u) h hch hb (stop := stop) fuel c (kids c) (T.child c) _ _ _ _ _
      _ [] (by simp) (by rw [hch]; exact h.enc hcn.1 hcn.2) (by omega)
    rw [e1]
    exact mtMax_total h hch hb fuel node L (T.bro c) _ _ _ _ _ k1 (pre ++ [c])
      (by rw [hL]; simp) (by rw [hb]; exact he) (by omega)

/-- With a null `stop` nothing is found. -/
theorem mtMax_zero {t u : PT} {T : MTree M} {stop : Int} (hu : u.lo = 0) (hs : stop ≤ 0) :
    ∀ (fuel c : Nat) (mi hp vp pv : Int) (out out' : Nat → Int × Int), (∀ x, out x = (0, 0)) →
      mtMax t u K T stop fuel c 0 mi hp vp pv out = some out' → ∀ x, out' x = (0, 0)
  | 0, _, _, _, _, _, _, _, _, e => by simp [mtMax] at e
  | fuel + 1, c, mi, hp, vp, pv, out, out', ho, e => by
    unfold mtMax at e
    split at e
    · cases e; exact ho
    · dsimp only at e
      have hh := (u.wrap (K.val (T.crit c) : Nat)).lo_le
      rw [if_pos (show stop ≤ (u.wrap (K.val (T.crit c) : Nat)).val by omega),
        if_pos (show stop ≤ (u.wrap (K.val (T.crit c) : Nat)).val by omega)] at e
      obtain ⟨k, e1, e2⟩ := Option.bind_eq_some_iff.mp e
      refine mtMax_zero hu hs fuel _ _ _ _ _ k out' ?_ e2
      refine mtMax_zero hu hs fuel _ _ _ _ _ _ k ?_ e1
      intro x
      by_cases hx : x = c
      · subst hx; rw [Function.update_self]
      · rw [Function.update_of_ne hx]; exact ho x

end

/-! ### Every node has a pixel -/

/-- Every node has a pixel of its own. -/
def OwnPix (s : MTSt M) : Prop := ∀ a, 1 ≤ a → a < s.tree.cur → ∃ i, s.eti i = a

theorem mtSub_own {p q : Nat} {r : MTSt M × Bool} (h : OwnPix s) (hq : s.eti q = 0) (e : mtSub K C s p q = some r) :
    OwnPix r.1 := by
  have hold : ∀ {x : Nat} {a}, 1 ≤ a → a < s.tree.cur → ∃ i, Function.update s.eti q x i = a := by
    intro x a h1 h2
    obtain ⟨i, hi⟩ := h a h1 h2
    refine ⟨i, ?_⟩
    rw [Function.update_of_ne]
    · exact hi
    · rintro rfl; omega
  have hnew : ∀ {a}, 1 ≤ a → a < s.tree.cur + 1 → ∃ i, Function.update s.eti q s.tree.cur i = a := by
    intro a h1 h2
    by_cases ha : a = s.tree.cur
    · exact ⟨q, by rw [Function.update_self, ha]⟩
    · exact hold h1 (by omega)
  unfold mtSub at e
  split at e
  · simp only [Option.bind_eq_bind, Option.bind_eq_some_iff] at e
    obtain ⟨T, e1, _, _, _, _, e2⟩ := e
    cases e2
    unfold mtHigher at e1
    split at e1
    · cases e1
      intro a h1 h2
      exact hnew h1 h2
    · cases e1
  · split at e
    · simp only [Option.bind_eq_bind, Option.bind_eq_some_iff] at e
      obtain ⟨T, e1, _, _, e2⟩ := e
      cases e2
      unfold mtLower at e1
      split at e1
      · obtain ⟨_, _, e3⟩ := Option.map_eq_some_iff.mp e1
        cases e3
        intro a h1 h2
        exact hnew h1 h2
      · cases e1
    · simp only [Option.bind_eq_bind, Option.bind_eq_some_iff] at e
      obtain ⟨_, _, e2⟩ := e
      cases e2
      intro a h1 h2
      exact hold h1 h2

theorem mtVisit_own {p : Nat} : ∀ (l : List Nat) (s s' : MTSt M), OwnPix s → mtVisit K C p l s = some s' → OwnPix s'
  | [], s, s', h, e => by cases e; exact h
  | q :: l, s, s', h, e => by
    unfold mtVisit at e
    split at e
    · rename_i hq
      obtain ⟨r, e1, e2⟩ := Option.bind_eq_some_iff.mp e
      have h1 := mtSub_own h hq e1
      split at e2
      · cases e2; exact h1
      · exact mtVisit_own l _ _ h1 e2
    · exact mtVisit_own l _ _ h e

theorem mtFlood_own {level : Nat} : ∀ (fuel : Nat) (s s' : MTSt M), OwnPix s → mtFlood K C level fuel s = some s' →
    OwnPix s'
  | 0, _, _, _, e => by simp [mtFlood] at e
  | fuel + 1, s, s', h, e => by
    unfold mtFlood at e
    split at e
    · obtain ⟨r, _, e1⟩ := Option.bind_eq_some_iff.mp e
      obtain ⟨s1, e2, e3⟩ := Option.bind_eq_some_iff.mp e1
      exact mtFlood_own fuel _ _ (mtVisit_own _ ⟨s.tree, s.labels, s.eti, r.2⟩ _ h e2) e3
    · cases e; exact h

theorem mtRun_own {top : Nat} (e : mtRun K C top = some s) : OwnPix s := by
  unfold mtRun at e
  dsimp only at e
  split at e
  · obtain ⟨_, _, e1⟩ := Option.bind_eq_some_iff.mp e
    refine mtFlood_own _ _ _ ?_ e1
    intro a h1 h2
    exact ⟨(mtMin C top).2, by simp only [Function.update_self] at h2 ⊢; omega⟩
  · cases e

/-- With a null `stop` the two results are null. -/
theorem mtUltimate_zero {t u : PT} (hC : C.Ok) (hG : MTGood K C Good) {top : Nat} {stop : Int} (hn : 0 < C.n)
    (htop : ∀ i < C.n, C.f i ≤ top) (hu : u.lo = 0) (hs : stop ≤ 0) :
    ∃ o, mtUltimate t u K C top stop 0 = some o ∧ ∀ i, o i = (0, 0) := by
  obtain ⟨s, anc, kids, e, h⟩ := mtRun_spec (K := K) (Good := Good) (top := top) hC hG hn htop
  unfold mtUltimate
  rw [e]
  simp only [Option.bind_eq_bind, Option.bind_some]
  rw [h.root]
  have hone := h.tr.one
  have hfuel : (descs anc s.tree.cur (kids 1)).card < s.tree.cur := by
    have hlt : descs anc s.tree.cur (kids 1) ⊂ Finset.range s.tree.cur := by
      refine ⟨fun x hx => Finset.mem_range.mpr (mem_descs.mp hx).1, fun hs => ?_⟩
      have := mem_descs.mp (hs (Finset.mem_range.mpr hone))
      exact (h.tr.kid.mpr this.2).2 rfl
    simpa using Finset.card_lt_card hlt
  obtain ⟨crit, e1, _, _, _⟩ := mtCriteria_spec h hG s.tree.cur 1 (kids 1) (s.tree.child 1) s.tree.crit [] (by simp)
    (h.tr.enc (le_refl _) hone) hfuel (fun x hx => by
      obtain ⟨ha, hne⟩ := h.tr.kid.mpr hx
      obtain ⟨_, h2, h3⟩ := h.tr.node ha
      exact h.crit x h2 h3 (Ne.symm hne))
  rw [e1]
  simp only [Option.bind_some, mtContrast, if_true]
  obtain ⟨out, e2⟩ := mtMax_total (t := t) (u := u) (K := K) (stop := stop)
    (T := ⟨s.tree.lev, s.tree.child, s.tree.bro, crit, s.tree.cur⟩) h.tr rfl rfl s.tree.cur 1 (kids 1) (s.tree.child 1) 0 0
    (u.wrap (K.val (crit 1))).val (s.tree.lev 1) (s.tree.lev 1) (fun _ => (0, 0)) [] (by simp)
    (h.tr.enc (le_refl _) hone) hfuel
  rw [e2]
  exact ⟨_, rfl, fun i => mtMax_zero hu hs _ _ _ _ _ _ _ out (fun _ => rfl) e2 _⟩

/-- The ultimate opening on offsets. `B n` tells which sets of offsets have an attribute of at least `n`. -/
theorem mtUltimate_spec {t u : PT} (hC : C.Ok) (hG : MTGood K C Good) {top δ : Nat} {stop : Int} (hn : 0 < C.n)
    (htop : ∀ i < C.n, C.f i ≤ top) {B : Nat → Set Nat → Prop}
    (hB : ∀ n m (S : Finset Nat), S.Nonempty → (∀ i ∈ S, i < C.n) → Good m S → (n ≤ K.val m ↔ B n S))
    (hinc : ∀ n S T, S ⊆ T → B n S → B n T) {H : Nat} (hH : ∀ n S, (∀ i ∈ S, i < C.n) → B n S → n ≤ H)
    (hHu : (H : Int) ≤ u.hi) (hH32 : H < 2 ^ 32) (htl : t.lo ≤ 0) (hul : u.lo ≤ 0) (hth : (top : Int) ≤ t.hi)
    (hst : stop ≤ u.hi) :
    ∃ o, mtUltimate t u K C top stop δ = some o ∧ ∃ z, z < C.n ∧ (∀ i < C.n, C.f z ≤ C.f i) ∧
      (∀ i, AConn C.nbs (· < C.n) z i → ∃ A : Int → Nat,
        (∀ v n : Nat, C.f z < v → v ≤ C.f i → (n ≤ A v ↔ B n (acomp C.nbs (ALev C.n C.f v) i))) ∧
        IsUltResidue A δ stop (C.f z) (C.f i) (o i).1 (o i).2) ∧
      ∀ i < C.n, ¬ AConn C.nbs (· < C.n) z i → o i = (0, 0) := by
  obtain ⟨s, anc, kids, e, h⟩ := mtRun_spec (K := K) (Good := Good) (top := top) hC hG hn htop
  obtain ⟨hm1, hm2, hm3⟩ := mtMin_spec hn htop
  unfold mtUltimate
  rw [e]
  simp only [Option.bind_eq_bind, Option.bind_some]
  rw [h.root]
  have hone := h.tr.one
  have hfuel : (descs anc s.tree.cur (kids 1)).card < s.tree.cur := by
    have hlt : descs anc s.tree.cur (kids 1) ⊂ Finset.range s.tree.cur := by
      refine ⟨fun x hx => Finset.mem_range.mpr (mem_descs.mp hx).1, fun hs => ?_⟩
      have := mem_descs.mp (hs (Finset.mem_range.mpr hone))
      exact (h.tr.kid.mpr this.2).2 rfl
    simpa using Finset.card_lt_card hlt
  obtain ⟨crit, e1, h1, _, _⟩ := mtCriteria_spec h hG s.tree.cur 1 (kids 1) (s.tree.child 1) s.tree.crit [] (by simp)
    (h.tr.enc (le_refl _) hone) hfuel (fun x hx => by
      obtain ⟨ha, hne⟩ := h.tr.kid.mpr hx
      obtain ⟨_, h2, h3⟩ := h.tr.node ha
      exact h.crit x h2 h3 (Ne.symm hne))
  rw [e1]
  simp only [Option.bind_some]
  obtain ⟨z, hz, hzv, hz0⟩ := h.start
  have hzw := h.whole hC hz0
  have hown := mtRun_own e
  have hgood : ∀ x, 1 ≤ x → x < s.tree.cur → x ≠ 1 → Good (crit x) (offSet C fun i => anc x (s.eti i)) :=
    fun x hx1 hx2 hx3 => h1 x (h.tr.kid.mp ⟨h.tr.root hx1 hx2, Ne.symm hx3⟩)
  have hBx : ∀ x, 1 ≤ x → x < s.tree.cur → x ≠ 1 → ∀ n, n ≤ K.val (crit x) ↔
      B n ((offSet C fun i => anc x (s.eti i) : Finset Nat) : Set Nat) := by
    intro x hx1 hx2 hx3 n
    obtain ⟨i, hi⟩ := hown x hx1 hx2
    have hi' := h.eti i (by omega)
    refine hB n _ _ ⟨i, mem_offSet.mpr ⟨hi'.1, ?_⟩⟩ (fun j hj => (mem_offSet.mp hj).1) (hgood x hx1 hx2 hx3)
    rw [hi]
    exact h.tr.refl hx1 hx2
  have hT : UTree t u s.tree.lev (fun x => K.val (crit x)) s.tree.cur anc stop := by
    refine ⟨htl, hul, fun x hx1 hx2 => ?_, hst, fun x hx1 hx2 hx3 => ?_, fun a b hab ha => ?_⟩
    · obtain ⟨i, hi⟩ := hown x hx1 hx2
      have hi' := h.eti i (by omega)
      rw [hi] at hi'
      rw [hi'.2.2]
      have := htop i hi'.1
      omega
    · have h2 := (hBx x hx1 hx2 hx3 _).mp (le_refl _)
      have h3 := hH _ _ (fun i hi => (mem_offSet.mp (Finset.mem_coe.mp hi)).1) h2
      exact ⟨by omega, by omega⟩
    · obtain ⟨ha2, hb2⟩ := h.tr.node hab
      have hb1 : b ≠ 1 := by
        rintro rfl
        exact ha (h.tr.anti hab (h.tr.root ha2.1 ha2.2))
      rw [hBx a ha2.1 ha2.2 ha]
      refine hinc _ _ _ ?_ ((hBx b hb2.1 hb2.2 hb1 _).mp (le_refl _))
      intro i hi
      rw [Finset.mem_coe, mem_offSet] at hi ⊢
      exact ⟨hi.1, h.tr.trans hab hi.2⟩
  have hIsA1 : IsA anc s.tree.lev (fun x => K.val (crit x)) 1 (fun _ => 0) := by
    intro b hb hb1
    have hb2 := (h.tr.node hb).1
    exact absurd (h.tr.anti hb (h.tr.root hb2.1 hb2.2)) hb1
  obtain ⟨out, e2, h2, h3⟩ : ∃ out, mtContrast t u K ⟨s.tree.lev, s.tree.child, s.tree.bro, crit, s.tree.cur⟩ 1 stop δ = some out ∧
      (∀ x, (∃ k ∈ kids 1, anc k x) → NodeRes anc s.tree.lev (fun x => K.val (crit x)) δ stop x (out x)) ∧
      ∀ x, (¬ ∃ k ∈ kids 1, anc k x) → out x = (0, 0) := by
    unfold mtContrast
    by_cases hd : δ = 0
    · subst hd
      rw [if_pos rfl]
      exact mtMax_spec (K := K) (T := ⟨s.tree.lev, s.tree.child, s.tree.bro, crit, s.tree.cur⟩) h.tr rfl rfl rfl hT (fun _ _ _ _ => rfl) s.tree.cur 1 (kids 1) (s.tree.child 1) 0 0 _ _ _
        (fun _ => (0, 0)) [] (by simp) (h.tr.enc (le_refl _) hone) hfuel
        ⟨_, _, _, hIsA1, UO.start _ _ _ _, .inl ⟨rfl, rfl⟩⟩ rfl (fun hx => absurd rfl hx)
    · rw [if_neg hd]
      exact mtDelta_spec (K := K) (T := ⟨s.tree.lev, s.tree.child, s.tree.bro, crit, s.tree.cur⟩) h.tr rfl rfl rfl hT (fun _ _ _ _ => rfl) s.tree.cur 1 (kids 1) (s.tree.child 1) 0 false
        (fun _ => (0, 0)) [] (by simp) (h.tr.enc (le_refl _) hone) hfuel
        ⟨_, _, hIsA1, UO.start _ _ _ _, by omega⟩
  rw [e2]
  refine ⟨_, rfl, z, hz, fun i hi => by rw [hzv]; exact hm3 i hi, ?_, ?_⟩
  · intro i hi
    have hi0 : s.eti i ≠ 0 := by
      have : i ∈ {j | s.eti j ≠ 0} := by rw [hzw]; exact hi
      exact this
    obtain ⟨hin, hic, hil⟩ := h.eti i hi0
    have hi1 := Nat.one_le_iff_ne_zero.mpr hi0
    obtain ⟨A, hA, hR⟩ : NodeRes anc s.tree.lev (fun x => K.val (crit x)) δ stop (s.eti i) (out (s.eti i)) := by
      by_cases hx : ∃ k ∈ kids 1, anc k (s.eti i)
      · exact h2 _ hx
      · have h4 := (h.tr.below (h.tr.root hi1 hic)).resolve_right hx
        rw [h4] at hx ⊢
        rw [h3 1 hx]
        exact ⟨_, hIsA1, (UO.start _ _ _ _).res⟩
    rw [hil, h.lev1, ← hzv] at hR
    refine ⟨A, fun v n hv hv' => ?_, hR⟩
    obtain ⟨b, hb, hbv, hbe⟩ := h.comp_node hC hi0 hv'
    -- the lowest ancestor at or above the level
    classical
    obtain ⟨b', hb', hbv', hbmin⟩ : ∃ b', anc b' (s.eti i) ∧ v ≤ s.tree.lev b' ∧
        ∀ b'', anc b'' (s.eti i) → v ≤ s.tree.lev b'' → s.tree.lev b' ≤ s.tree.lev b'' := by
      have hex : ∃ w, ∃ b', anc b' (s.eti i) ∧ v ≤ s.tree.lev b' ∧ s.tree.lev b' = w := ⟨_, b, hb, hbv, rfl⟩
      obtain ⟨b', h4, h5, h6⟩ := Nat.find_spec hex
      refine ⟨b', h4, h5, fun b'' h7 h8 => ?_⟩
      rw [h6]
      exact Nat.find_min' hex ⟨b'', h7, h8, rfl⟩
    have hlev1 : s.tree.lev 1 = C.f z := by rw [h.lev1, hzv]
    have hb1' : b' ≠ 1 := by rintro rfl; omega
    have hAv : A v = K.val (crit b') := hA b' hb' hb1' v (by exact_mod_cast hbv') (fun b'' h4 h5 =>
      hbmin b'' h4 (by exact_mod_cast h5))
    have hn' := (h.tr.node hb').1
    rw [hAv, hBx b' hn'.1 hn'.2 hb1']
    have hset : ((offSet C fun j => anc b' (s.eti j) : Finset Nat) : Set Nat) = {j | anc b' (s.eti j)} := by
      ext j
      rw [Finset.mem_coe, mem_offSet]
      constructor
      · exact fun hj => hj.2
      · intro hj
        refine ⟨(h.eti j fun e => ?_).1, hj⟩
        have hj' : anc b' (s.eti j) := hj
        rw [e] at hj'
        have := (h.tr.node hj').2.1
        omega
    rw [hset]
    have : {j | anc b' (s.eti j)} = acomp C.nbs (ALev C.n C.f v) i := by
      refine Set.Subset.antisymm ?_ ?_
      · rw [h.sub_eq hC hb']
        intro j hj
        exact AConn.mono (fun k hk => ⟨hk.1, hbv'.trans hk.2⟩) hj
      · rw [hbe]
        intro j hj
        exact h.tr.trans (h.tr.chain hb' hb (hbmin b hb hbv)) hj
    rw [this]
  · intro i hi hni
    have hi0 : s.eti i = 0 := by
      by_contra hne
      have : i ∈ acomp C.nbs (· < C.n) z := by rw [← hzw]; exact hne
      exact hni this
    rw [hi0, h3 0 (fun hx => by
      have := (h.tr.node (h.tr.kid.mpr hx).1).2.1; omega)]

end Smil
