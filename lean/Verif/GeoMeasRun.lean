import Verif.GeoMeasLemmas

/-!
# The run over the components
-/

namespace Smil
open Relation

/-- The square of the distance of a pixel to the barycentre. -/
def gmSq (W H : Nat) (sx sy sz : ℚ) (sv : List Nat) (c : Nat) : ℚ :=
  let X : Nat → Nat := fun c => c % W
  let Y : Nat → Nat := fun c => (c % (W * H) - c % W) / W
  let Z : Nat → Nat := fun c => (c - c % W - (c % (W * H) - c % W) / W * W) / (W * H)
  (X c * sx - gmBary sv X sx) * (X c * sx - gmBary sv X sx) + (Y c * sy - gmBary sv Y sy) * (Y c * sy - gmBary sv Y sy) +
    (Z c * sz - gmBary sv Z sz) * (Z c * sz - gmBary sv Z sz)

theorem gmStart_eq (W H : Nat) (sx sy sz : ℚ) (sv : List Nat) : gmStart W H sx sy sz sv =
    (sv.foldl (fun (s : ℚ × Nat) c => if s.1 < gmSq W H sx sy sz sv c then (gmSq W H sx sy sz sv c, c) else s) (-1, 0)).2 := rfl

theorem argmax_foldl (f : Nat → ℚ) : ∀ (L : List Nat) (s : ℚ × Nat),
    let r := L.foldl (fun (s : ℚ × Nat) c => if s.1 < f c then (f c, c) else s) s
    (r = s ∨ (r.2 ∈ L ∧ r.1 = f r.2)) ∧ s.1 ≤ r.1 ∧ ∀ c ∈ L, f c ≤ r.1
  | [], s => by simp
  | c :: L, s => by
    simp only [List.foldl_cons]
    obtain ⟨h1, h2, h3⟩ := argmax_foldl f L (if s.1 < f c then (f c, c) else s)
    by_cases hlt : s.1 < f c
    · rw [if_pos hlt] at h1 h2 h3 ⊢
      refine ⟨.inr ?_, hlt.le.trans h2, ?_⟩
      · rcases h1 with h1 | ⟨h1, h4⟩
        · rw [h1]; simp
        · exact ⟨List.mem_cons_of_mem _ h1, h4⟩
      · intro x hx
        rcases List.mem_cons.mp hx with rfl | hx
        · exact h2
        · exact h3 x hx
    · rw [if_neg hlt] at h1 h2 h3 ⊢
      refine ⟨h1.imp id fun ⟨h1, h4⟩ => ⟨List.mem_cons_of_mem _ h1, h4⟩, h2, ?_⟩
      intro x hx
      rcases List.mem_cons.mp hx with rfl | hx
      · exact (not_lt.mp hlt).trans h2
      · exact h3 x hx

theorem gmStart_spec (W H : Nat) (sx sy sz : ℚ) {sv : List Nat} (hne : sv ≠ []) :
    gmStart W H sx sy sz sv ∈ sv ∧ ∀ c ∈ sv, gmSq W H sx sy sz sv c ≤ gmSq W H sx sy sz sv (gmStart W H sx sy sz sv) := by
  rw [gmStart_eq]
  obtain ⟨h1, _, h3⟩ := argmax_foldl (gmSq W H sx sy sz sv) sv (-1, 0)
  obtain ⟨r, hr⟩ : ∃ r, r = sv.foldl (fun (s : ℚ × Nat) c => if s.1 < gmSq W H sx sy sz sv c then (gmSq W H sx sy sz sv c, c) else s)
      (-1, 0) := ⟨_, rfl⟩
  rw [← hr] at h1 h3 ⊢
  have hpos : ∀ c, 0 ≤ gmSq W H sx sy sz sv c := fun c => by
    unfold gmSq
    exact add_nonneg (add_nonneg (mul_self_nonneg _) (mul_self_nonneg _)) (mul_self_nonneg _)
  rcases h1 with h1 | ⟨h1, h4⟩
  · exfalso
    obtain ⟨c, hc⟩ := List.exists_mem_of_ne_nil sv hne
    have k1 := h3 c hc
    have k2 := hpos c
    rw [h1] at k1
    simp only at k1
    linarith
  · exact ⟨h1, fun c hc => h4 ▸ h3 c hc⟩

section
variable {root : ℚ → ℚ} {C : GmCfg} {W H D : Nat} {sx sy sz R : ℚ} {ini : Option Nat} {method : Int}

/-- The last part succeeds, only writes to the component, and writes values that are not negative. -/
theorem gmWrite_some (hx : 0 < sx) (hy : 0 < sy) (hz : 0 < sz) (hr : ∀ q, 0 ≤ q → 0 ≤ root q) {T : Nat → Prop} {dm0 : Nat → ℚ} {N : Nat} {s : Nat} {st : GmSt}
    {sv : List Nat} (hd : GmDone root C T s dm0 R N st) (hsv : ∀ j, j ∈ sv ↔ T j) (hs : T s)
    (hpos : ∀ j ℓ, OWalk root C T s j ℓ → T j ∧ 0 ≤ ℓ)
    (ht : st.tort ≠ none ∨ (method ≠ 3 ∧ (method = 2 → ini ≠ none))) :
    ∃ o, gmWrite root W H D sx sy sz ini method sv s st = some o ∧ (∀ k, ¬ T k → o k = dm0 k) ∧ ∀ k, T k → 0 ≤ o k := by
  have hlen : (0 : ℚ) < sv.length := by
    have : sv ≠ [] := List.ne_nil_of_mem ((hsv s).mpr hs)
    exact_mod_cast List.length_pos_of_ne_nil this
  have hmx : 0 ≤ st.mx := le_trans (by norm_num) hd.far.one
  have hput : ∀ v : ℚ, ∀ k, ¬ T k → (if k ∈ sv then v else st.dm k) = dm0 k := fun v k hk => by
    rw [if_neg fun h => hk ((hsv k).mp h)]
    exact hd.out k hk
  have hput' : ∀ v : ℚ, 0 ≤ v → ∀ k, T k → 0 ≤ (if k ∈ sv then v else st.dm k) := fun v hv k hk => by
    rw [if_pos ((hsv k).mpr hk)]
    exact hv
  unfold gmWrite
  by_cases m0 : method = 0
  · simp only [m0, if_true]
    exact ⟨_, rfl, hput _, hput' _ hmx⟩
  · rw [if_neg m0]
    by_cases m1 : method = 1
    · rw [if_pos m1]
      have p2 : 0 < (sv.length : ℚ) * sx * sy := mul_pos (mul_pos hlen hx) hy
      have p3 : 0 < (sv.length : ℚ) * sx * sy * sz := mul_pos p2 hz
      split
      · rw [if_neg p2.ne']
        exact ⟨_, rfl, hput _, hput' _ (mul_nonneg (div_nonneg (mul_nonneg hmx hmx) p2.le) (by norm_num))⟩
      · rw [if_neg p3.ne']
        exact ⟨_, rfl, hput _, hput' _ (mul_nonneg (div_nonneg (mul_nonneg (mul_nonneg hmx hmx) hmx) p3.le) (by norm_num))⟩
    · rw [if_neg m1]
      by_cases m2 : method = 2
      · rw [if_pos m2]
        obtain ⟨e, he⟩ : ∃ e, gmEnd ini st.tort = some e := by
          cases h : st.tort with
          | some e => exact ⟨e, rfl⟩
          | none =>
            rcases ht with ht | ht
            · exact absurd h ht
            · exact Option.ne_none_iff_exists'.mp (ht.2 m2)
        simp only [he, Option.map_some]
        refine ⟨_, rfl, hput _, hput' _ ?_⟩
        have hsq := hr _ (add_nonneg (add_nonneg (mul_self_nonneg ((((e % W : Nat) : ℚ) - ((s % W : Nat) : ℚ)) * sx))
          (mul_self_nonneg (((((e % (W * H) - e % W) / W : Nat) : ℚ) - (((s % (W * H) - s % W) / W : Nat) : ℚ)) * sy)))
          (mul_self_nonneg (((((e - e % W - (e % (W * H) - e % W) / W * W) / (W * H) : Nat) : ℚ) - (((s - s % W - (s % (W * H) - s % W) / W * W) / (W * H) : Nat) : ℚ)) * sz)))
        split
        · exact div_nonneg hmx hsq
        · exact div_nonneg hmx (by norm_num)
      · rw [if_neg m2]
        by_cases m3 : method = 3
        · rw [if_pos m3]
          obtain ⟨e, he⟩ := Option.ne_none_iff_exists'.mp (ht.resolve_right fun h => h.1 m3)
          obtain ⟨_, k2⟩ := hd.far.fSome e he
          have heT := (hpos _ _ k2).1
          have he' : gmEnd ini st.tort = some e := by rw [he]; rfl
          simp only [he', Option.map_some]
          refine ⟨_, rfl, fun k hk => ?_, fun k hk => ?_⟩
          · rw [Function.update_of_ne (fun h => hk (by rw [h]; exact heT)), Function.update_of_ne (fun h => hk (by rw [h]; exact hs))]
            exact hput 0 k hk
          · by_cases h1 : k = e
            · subst h1; simp
            · rw [Function.update_of_ne h1]
              by_cases h2 : k = s
              · subst h2; simp
              · rw [Function.update_of_ne h2]
                exact hput' 0 (le_refl _) k hk
        · rw [if_neg m3]
          refine ⟨_, rfl, hd.out, fun k hk => ?_⟩
          obtain ⟨ℓ, k1, k2, _⟩ := hd.dist k hk
          rw [k2]
          have := (hpos _ _ k1).2
          linarith

/-- What is known about a component: its first pixel, what the second loop leaves, and what is written. -/
structure GmBlock (root : ℚ → ℚ) (C : GmCfg) (S : Nat → Prop) (W H D : Nat) (sx sy sz R : ℚ) (ini : Option Nat) (method : Int) (j : Nat)
    (dm : Nat → ℚ) (s : Nat) (st : GmSt) (sv : List Nat) (o : Nat → ℚ) : Prop where
  nodup : sv.Nodup
  mem : ∀ k, k ∈ sv ↔ ReflTransGen (C.R S) j k
  start : s ∈ sv
  first : s = gmStart W H sx sy sz sv
  done : ∃ dm0, GmDone root C (ReflTransGen (C.R S) j) s dm0 R C.n st
  write : gmWrite root W H D sx sy sz ini method sv s st = some o
  val : ∀ k ∈ sv, dm k = o k
  pos : ∀ k ∈ sv, 0 ≤ o k

/-- Invariant of the loop over the pixels, those from `m` on having been seen. -/
structure GmRun (root : ℚ → ℚ) (C : GmCfg) (S : Nat → Prop) (W H D : Nat) (sx sy sz R : ℚ) (ini : Option Nat) (method : Int) (m : Nat)
    (dm : Nat → ℚ) : Prop where
  bg : ∀ j, ¬ S j → dm j = 0
  todo : ∀ j, S j → (∀ k, m ≤ k → ¬ ReflTransGen (C.R S) j k) → dm j = -1
  done : ∀ j, S j → ∀ k, m ≤ k → ReflTransGen (C.R S) j k → ∃ s st sv o, GmBlock root C S W H D sx sy sz R ini method j dm s st sv o

variable (hC : GmOk C) {S : Nat → Prop} (hS : ∀ i, S i → i < C.n) (hx : 0 < sx) (hy : 0 < sy) (hz : 0 < sz)
  (hr : ∀ q, 0 ≤ q → 0 ≤ root q) (hroot : ∀ i < C.n, ∀ b ∈ C.nbs i, 0 < root b.2 ∧ root b.2 ≤ R) (hR : 0 ≤ R)
  (hsing : (method = 3 ∨ (method = 2 ∧ ini = none)) → ∀ j, S j → ∃ k, k ≠ j ∧ ReflTransGen (C.R S) j k)

theorem OWalk.props {T : Nat → Prop} {s j : Nat} {ℓ : ℚ} (hT : ∀ j, T j → j < C.n)
    (hroot : ∀ i < C.n, ∀ b ∈ C.nbs i, 0 < root b.2 ∧ root b.2 ≤ R) (h : OWalk root C T s j ℓ) : T j ∧ 0 ≤ ℓ := by
  induction h with
  | refl h => exact ⟨h, le_refl _⟩
  | step _ h2 h3 ih => exact ⟨h2, add_nonneg ih.2 (hroot _ (hT _ h2) _ h3).1.le⟩

theorem OWalk.congr {T T' : Nat → Prop} (hT : ∀ j, T j ↔ T' j) {s j : Nat} {ℓ : ℚ} (h : OWalk root C T s j ℓ) : OWalk root C T' s j ℓ := by
  induction h with
  | refl h => exact .refl ((hT _).mp h)
  | step _ h2 h3 ih => exact .step ih ((hT _).mp h2) h3

include hC hS hx hy hz hr hroot hR hsing in
theorem gmPixel_spec {m : Nat} {dm : Nat → ℚ} (h : GmRun root C S W H D sx sy sz R ini method (m + 1) dm) :
    ∃ dm', gmPixel root C W H D sx sy sz ini method dm m = some dm' ∧ GmRun root C S W H D sx sy sz R ini method m dm' := by
  have hsymm : ∀ {a b}, ReflTransGen (C.R S) a b → ReflTransGen (C.R S) b a := fun h => reach_symm hC hS h
  unfold gmPixel
  by_cases hm : dm m = -1
  · rw [if_pos hm]
    have hmS : S m := by
      by_contra hn
      have := h.bg m hn
      rw [hm] at this
      norm_num at this
    have hmt : ∀ k, m + 1 ≤ k → ¬ ReflTransGen (C.R S) m k := by
      intro k hk hmk
      obtain ⟨s, st, sv, o, hb⟩ := h.done m hmS k hk hmk
      have hmv : m ∈ sv := (hb.mem m).mpr .refl
      have k1 := hb.val m hmv
      have k2 := hb.pos m hmv
      rw [hm] at k1
      rw [← k1] at k2
      norm_num at k2
    have hd1 : ∀ j, ReflTransGen (C.R S) m j → dm j = -1 := fun j hj =>
      h.todo j (reach_mem hmS hj) fun k hk hjk => hmt k hk (hj.trans hjk)
    have hd2 : ∀ j, j < C.n → dm j = -1 → S j := by
      intro j _ hj
      by_contra hn
      have := h.bg j hn
      rw [hj] at this
      norm_num at this
    obtain ⟨dm1, sv, e1, hnd, hsv, hdm1⟩ := gmFlood_spec hC hS hmS hd1 hd2
    rw [e1]
    simp only [Option.bind_some]
    have hne : sv ≠ [] := List.ne_nil_of_mem ((hsv m).mpr .refl)
    obtain ⟨hst, _⟩ := gmStart_spec W H sx sy sz hne
    unfold gmCC
    obtain ⟨s, hs⟩ : ∃ s, s = gmStart W H sx sy sz sv := ⟨_, rfl⟩
    simp only [← hs]
    rw [← hs] at hst
    have hsT := (hsv s).mp hst
    have hT : ∀ j, ReflTransGen (C.R S) m j → j < C.n := fun j hj => hS j (reach_mem hmS hj)
    obtain ⟨st, e2, hdone⟩ := gmLoop_spec (root := root) (C := C) (T := ReflTransGen (C.R S) m) (s := s) (dm0 := dm1) (R := R) hC hT
      (fun j hj b _ hbT => (reach_lab hbT).trans (reach_lab hj).symm)
      (fun j hj b hb hl => by
        by_cases hbS : S b.1
        · exact .inl (hj.tail ⟨reach_mem hmS hj, hbS, hl, b.2, hb⟩)
        · right
          rw [hdm1, if_neg fun hb' => hbS (reach_mem hmS ((hsv _).mp hb'))]
          exact h.bg _ hbS) hroot hR
      (fun j hj => by
        have hsj := (hsymm hsT).trans hj
        clear hj
        induction hsj with
        | refl => exact .refl
        | tail h1 h2 ih => exact .tail ih ⟨hsT.trans h1, (hsT.trans h1).tail h2, h2.2.2.2⟩)
      hsT (fun j hj => by rw [hdm1, if_pos ((hsv j).mpr hj)])
    rw [e2]
    simp only [Option.bind_some]
    have hwp : ∀ j ℓ, OWalk root C (ReflTransGen (C.R S) m) s j ℓ → ReflTransGen (C.R S) m j ∧ 0 ≤ ℓ := fun j ℓ hw =>
      hw.props hT hroot
    obtain ⟨o, e3, k1, k2⟩ := gmWrite_some (W := W) (H := H) (D := D) (ini := ini) (method := method) hx hy hz hr hdone hsv hsT hwp (by
      by_cases hc : method = 3 ∨ (method = 2 ∧ ini = none)
      · left
        intro hn
        have hone := hdone.far.fNone hn
        obtain ⟨k, hk1, hk2⟩ := hsing hc s (reach_mem hmS hsT)
        obtain ⟨ℓ, w1, w2, w3, w4⟩ := hdone.dist k (hsT.trans hk2)
        have := w4 hk1
        linarith
      · rw [not_or] at hc
        exact .inr ⟨hc.1, fun h2 h3 => hc.2 ⟨h2, h3⟩⟩)
    refine ⟨o, e3, fun j hj => ?_, fun j hj hk => ?_, fun j hj k hk hjk => ?_⟩
    · have hjn : ¬ ReflTransGen (C.R S) m j := fun hr' => hj (reach_mem hmS hr')
      rw [k1 j hjn, hdm1, if_neg fun hv => hjn ((hsv j).mp hv)]
      exact h.bg j hj
    · have hjn : ¬ ReflTransGen (C.R S) m j := fun hr' => hk m (le_refl _) (hsymm hr')
      rw [k1 j hjn, hdm1, if_neg fun hv => hjn ((hsv j).mp hv)]
      exact h.todo j hj fun k hk' => hk k (by omega)
    · by_cases hjm : ReflTransGen (C.R S) m j
      · have hmj := hsymm hjm
        have hiff : ∀ k, ReflTransGen (C.R S) m k ↔ ReflTransGen (C.R S) j k := fun k => ⟨fun h => hmj.trans h, fun h => hjm.trans h⟩
        have hTe : ReflTransGen (C.R S) m = ReflTransGen (C.R S) j := funext fun k => propext (hiff k)
        exact ⟨s, st, sv, o, hnd, fun k => (hsv k).trans (hiff k), hst, hs, ⟨dm1, hTe ▸ hdone⟩, e3, fun _ _ => rfl,
          fun k hk => k2 k ((hsv k).mp hk)⟩
      · have hk' : m + 1 ≤ k := by
          rcases Nat.lt_or_ge k (m + 1) with hlt | hge
          · exfalso
            have : k = m := by omega
            rw [this] at hjk
            exact hjm (hsymm hjk)
          · exact hge
        obtain ⟨s', st', sv', o', hb⟩ := h.done j hj k hk' hjk
        refine ⟨s', st', sv', o', hb.nodup, hb.mem, hb.start, hb.first, hb.done, hb.write, fun x hxv => ?_, hb.pos⟩
        have hxn : ¬ ReflTransGen (C.R S) m x := fun hr' => hjm (hr'.trans (hsymm ((hb.mem x).mp hxv)))
        rw [k1 x hxn, hdm1, if_neg fun hv => hxn ((hsv x).mp hv)]
        exact hb.val x hxv
  · rw [if_neg hm]
    refine ⟨dm, rfl, h.bg, fun j hj hk => h.todo j hj fun k hk' => hk k (by omega), fun j hj k hk hjk => ?_⟩
    by_cases hkm : k = m
    · subst hkm
      have hkS := reach_mem hj hjk
      by_cases hex : ∃ k', k + 1 ≤ k' ∧ ReflTransGen (C.R S) k k'
      · obtain ⟨k', h1, h2⟩ := hex
        exact h.done j hj k' h1 (hjk.trans h2)
      · exact absurd (h.todo k hkS fun k' h1 h2 => hex ⟨k', h1, h2⟩) hm
    · exact h.done j hj k (by omega) hjk

include hC hS hx hy hz hr hroot hR hsing in
theorem gmPixels_spec : ∀ (m : Nat) (dm : Nat → ℚ), GmRun root C S W H D sx sy sz R ini method m dm →
    ∃ o, (List.range m).reverse.foldlM (gmPixel root C W H D sx sy sz ini method) dm = some o ∧
      GmRun root C S W H D sx sy sz R ini method 0 o
  | 0, dm, h => ⟨dm, rfl, h⟩
  | m + 1, dm, h => by
    obtain ⟨dm', e, h'⟩ := gmPixel_spec hC hS hx hy hz hr hroot hR hsing h
    obtain ⟨o, e', h''⟩ := gmPixels_spec m dm' h'
    refine ⟨o, ?_, h''⟩
    rw [List.range_succ, List.reverse_append, List.reverse_singleton, List.singleton_append, List.foldlM_cons, e]
    exact e'

end

/-- The whole run. -/
theorem gmRun_spec {root : ℚ → ℚ} {W H D : Nat} {lab : Nat → ℚ} {sx sy sz R : ℚ} {ini : Option Nat} {method : Int} {S : Nat → Bool}
    (hC : GmOk ⟨W * H * D, gmNbs W H D sx sy sz, lab⟩)
    (hx : 0 < sx) (hy : 0 < sy) (hz : 0 < sz)
    (hr : ∀ q, 0 ≤ q → 0 ≤ root q) (hroot : ∀ i < W * H * D, ∀ b ∈ gmNbs W H D sx sy sz i, 0 < root b.2 ∧ root b.2 ≤ R) (hR : 0 ≤ R)
    (hsing : (method = 3 ∨ (method = 2 ∧ ini = none)) → ∀ j, (j < W * H * D ∧ S j = true) →
      ∃ k, k ≠ j ∧ ReflTransGen (GmCfg.R ⟨W * H * D, gmNbs W H D sx sy sz, lab⟩ fun i => i < W * H * D ∧ S i = true) j k) :
    ∃ o, gmRun root W H D lab sx sy sz ini method S = some o ∧
      GmRun root ⟨W * H * D, gmNbs W H D sx sy sz, lab⟩ (fun i => i < W * H * D ∧ S i = true) W H D sx sy sz R ini method 0 o := by
  unfold gmRun
  refine gmPixels_spec hC (fun i hi => hi.1) hx hy hz hr hroot hR hsing (W * H * D) _ ⟨fun j hj => if_neg hj, fun j hj _ => if_pos hj,
    fun j hj k hk hjk => ?_⟩
  exact absurd (reach_mem hj hjk).1 (by omega)

end Smil
