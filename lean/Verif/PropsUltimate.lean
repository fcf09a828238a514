import Verif.UltimateTree
import Verif.PropsMaxTreeMore

/-!
# The ultimate opening by max-tree (C90)

Specification: the heights of the components of the level sets around a pixel, as a function of the level; the residues are
the differences of levels between which the height falls slowly. Without merging they are the differences of
successive openings by height.
-/

namespace Smil
open StrElt Relation
variable {t u : PT}

/-! ### The residues as functions of the heights -/

/-- **C90**, the specification determines the residue and the indicator. -/
theorem C90_unique {A : Int → Nat} {δ : Nat} {stop m a r i r' i' : Int} (h : IsUltResidue A δ stop m a r i)
    (h' : IsUltResidue A δ stop m a r' i') : r = r' ∧ i = i' := by
  have key : ∀ {r i r' i'}, IsUltResidue A δ stop m a r i → IsUltResidue A δ stop m a r' i' → r ≤ r' := by
    intro r i r' i' h h'
    rcases h.wit with h1 | ⟨_, w, v, _, h1, h2, _⟩
    · rcases h'.wit with h3 | ⟨h3, _⟩ <;> omega
    · have := h'.ub w v h1; omega
  have hr : r = r' := le_antisymm (key h h') (key h' h)
  refine ⟨hr, ?_⟩
  subst hr
  rcases h.wit with ⟨h1, h2⟩ | ⟨h0, w, v, v0, h1, h2, h3, h4, h5, h6, h7⟩
  · rcases h'.wit with ⟨h3, h4⟩ | ⟨h3, _⟩
    · rw [h2, h4]
    · omega
  · rcases h'.wit with ⟨h3, h4⟩ | ⟨_, w', v', v0', h1', h2', h3', h4', h5', h6', h7'⟩
    · omega
    · -- the two runs are the same
      have sep : ∀ {w v w' v' v0' : Int}, Adm A δ stop m a w v → v - w = r → Adm A δ stop m a w' v' → v' - w' = r →
          v0' ≤ v' → (∀ w1 v1, Adm A δ stop m a w1 v1 → v1 ≤ w' → v1 - w1 < v0' - w') → ¬ w < w' := by
        intro w v w' v' v0' h1 h2 h1' h2' h4' h6' hlt
        by_cases hv : v ≤ w'
        · have := h6' w v h1 hv; omega
        · have hadm : Adm A δ stop m a w v' := by
            refine ⟨h1.lo, by have := h1'.lt; omega, h1'.hi, h1'.small, fun u hu hu' => ?_⟩
            by_cases hu2 : u < v
            · exact h1.merged u hu hu2
            · exact h1'.merged u (by omega) hu'
          have := h.ub w v' hadm
          omega
      have hw : w = w' := by
        have s1 := sep h1 h2 h1' h2' h4' h6'
        have s2 := sep h1' h2' h1 h2 h4 h6
        omega
      subst hw
      have e1 : ¬ A v0 < A v0' := fun hlt => by
        obtain ⟨w1, v1, k1, k2, k3⟩ := h7 v0' h3' hlt
        have := h6' w1 v1 k1 k2
        omega
      have e2 : ¬ A v0' < A v0 := fun hlt => by
        obtain ⟨w1, v1, k1, k2, k3⟩ := h7' v0 h3 hlt
        have := h6 w1 v1 k1 k2
        omega
      omega

/-- Without merging: `G n` is the greatest level where the attribute is at least `n`. -/
theorem residue_openings {A : Int → Nat} {stop m a r i : Int} (h : IsUltResidue A 0 stop m a r i)
    (hanti : ∀ u v, m < u → u ≤ v → v ≤ a → A v ≤ A u) {G : Nat → Int}
    (hG : ∀ n, m ≤ G n ∧ G n ≤ a ∧ (G n = m ∨ n ≤ A (G n)) ∧ ∀ v, G n < v → v ≤ a → A v < n) :
    (∀ n : Nat, (n : Int) < stop → G n - G (n + 1) ≤ r) ∧
    ((r = 0 ∧ i = 0) ∨ (0 < r ∧ ∃ n : Nat, (n : Int) < stop ∧ i = n + 1 ∧ G n - G (n + 1) = r ∧
      ∀ n' : Nat, n < n' → (n' : Int) < stop → G n' - G (n' + 1) < r)) := by
  have hadm : ∀ n : Nat, (n : Int) < stop → G (n + 1) < G n → A (G n) = n ∧ Adm A 0 stop m a (G (n + 1)) (G n) := by
    intro n hn hlt
    obtain ⟨g1, g2, g3, g4⟩ := hG n
    obtain ⟨k1, k2, k3, k4⟩ := hG (n + 1)
    have hA : A (G n) = n := by
      have h1 := k4 (G n) hlt g2
      have h2 : n ≤ A (G n) := g3.resolve_left (by omega)
      omega
    refine ⟨hA, k1, hlt, g2, by rw [hA]; exact hn, fun x hx hx' => ?_⟩
    have h1 := k4 x hx (by omega)
    have h2 := hanti (x + 1) (G n) (by omega) (by omega) g2
    omega
  have hub : ∀ n : Nat, (n : Int) < stop → G n - G (n + 1) ≤ r := by
    intro n hn
    by_cases hlt : G (n + 1) < G n
    · exact h.ub _ _ (hadm n hn hlt).2
    · have : 0 ≤ r := by rcases h.wit with h1 | ⟨h1, _⟩ <;> omega
      omega
  refine ⟨hub, ?_⟩
  rcases h.wit with h1 | ⟨h0, w, v, v0, h1, h2, h3, h4, h5, h6, _⟩
  · exact .inl h1
  · right
    have hlo := h1.lo
    have hconst : ∀ k : Nat, ∀ x, w < x → x + k = v → A x = A v := by
      intro k
      induction k with
      | zero => intro x _ e; rw [show x = v by omega]
      | succ k ih =>
        intro x hx e
        have e1 := h1.merged x hx (by omega)
        have e2 := ih (x + 1) (by omega) (by omega)
        have e3 := hanti x v (by omega) (by omega) h1.hi
        omega
    have hc : ∀ x, w < x → x ≤ v → A x = A v := fun x hx hx' => hconst (v - x).toNat x hx (by omega)
    have hv0 := hc v0 h3.lt h4
    have hge : ∀ x, w < x → x ≤ a → A x ≤ A v := by
      intro x hx hxa
      by_cases hxv : x ≤ v
      · rw [hc x hx hxv]
      · exact hanti v x (by have := h1.lt; omega) (by omega) hxa
    refine ⟨h0, A v, h1.small, by rw [← hv0]; exact h5, ?_, fun n' hn hs => ?_⟩
    · refine le_antisymm (hub _ h1.small) ?_
      obtain ⟨g1, g2, g3, g4⟩ := hG (A v)
      obtain ⟨k1, k2, k3, k4⟩ := hG (A v + 1)
      have e1 : v ≤ G (A v) := by
        by_contra hlt
        have := g4 v (by omega) h1.hi
        omega
      have e2 : G (A v + 1) ≤ w := by
        by_contra hlt
        have h7 := k3.resolve_left (by omega)
        have h8 := hge (G (A v + 1)) (by omega) k2
        omega
      omega
    · by_cases hlt : G (n' + 1) < G n'
      · obtain ⟨e1, e2⟩ := hadm n' hs hlt
        have hle : G n' ≤ w := by
          by_contra hgt
          have := hge (G n') (by omega) (hG n').2.1
          omega
        have := h6 _ _ e2 hle
        omega
      · omega

/-! ### On images -/

/-- `r` and `i` are the residue and the indicator of the ultimate opening at `p`; `m` is the least value of the
image, and the heights are those of the components of `p` in the level sets above it. -/
def IsUltimateAt (N : IntPoint → IntPoint → Prop) (im : Img (Px t)) (stop : Int) (δ : Nat) (m : Int) (p : IntPoint)
    (r i : Int) : Prop :=
  ∃ (a : Px t) (A : Int → Nat), im.at? p = some a ∧
    (∀ v : Px t, m < v.val → v ≤ a → ∀ n, n ≤ A v.val ↔ BigHeight n (levelSet N im v p)) ∧
    IsUltResidue A δ stop m a.val r i

/-- What `ultimateOpen` computes on any neighbourhood: `z` is a pixel of least value; the pixels joined to `z` receive
the ultimate opening, the others 0. -/
def IsUltimateAround (N : IntPoint → IntPoint → Prop) (im : Img (Px t)) (stop : Int) (δ : Nat) (tr : Img (Px t))
    (ind : Img (Px u)) : Prop :=
  tr.dims = im.dims ∧ ind.dims = im.dims ∧ ∃ z c, im.at? z = some c ∧ (∀ q b, im.at? q = some b → c ≤ b) ∧
    (∀ p ∈ wholeSet N im z, ∃ r i, tr.at? p = some r ∧ ind.at? p = some i ∧ IsUltimateAt N im stop δ c.val p r.val i.val) ∧
    ∀ p, Img.In im.dims p → p ∉ wholeSet N im z → tr.at? p = some Px.zero ∧ ind.at? p = some Px.zero

/-- The three images are accepted. -/
def AcceptsTwo (auto : Bool) (di d1 d2 : Dims) : Prop :=
  di.count ≠ 0 ∧ d1.count ≠ 0 ∧ d2.count ≠ 0 ∧ ((d1 = di ∧ d2 = di) ∨ auto = true)

theorem checkTwoOut_ok {auto : Bool} {di d1 d2 : Dims} (h : AcceptsTwo auto di d1 d2) :
    checkTwoOut auto di d1 d2 = .ok () := by
  obtain ⟨h1, h2, h3, h4⟩ := h
  unfold checkTwoOut
  rw [if_neg (by simp [h1, h2, h3])]
  split
  · rfl
  · rename_i hne
    rw [if_pos (h4.resolve_left hne)]

theorem bigHeight_inc (n : Nat) {S T : Set IntPoint} (h : S ⊆ T) (hB : BigHeight n S) : BigHeight n T := by
  obtain ⟨p, hp, q, hq, e⟩ := hB
  exact ⟨p, h hp, q, h hq, e⟩

section
variable (auto : Bool) (se : StrElt) (stop : Px u) (δ : Nat) (im : Img (Px t)) (d1 d2 : Dims)
  (hok : AcceptsTwo auto im.dims d1 d2) (hs : t.signed = false) (hb : t.bits ≤ 16)
  (hN : ∀ p q, seRel se p q → seRel se q p) (hsm : im.dims.count < 41943040)
include hok hs hb hN hsm

/-- **C90**, partial: `ultimateOpen` with or without merging (`delta`), for the unsigned types of 8 and 16 bits, every
symmetric element, an indicator type that holds the height of the image, and images of fewer than 41943040 pixels.
Missing: 32 bit and signed types (`C90_uint32_ub`), images higher than the indicator type allows
(`C90_wrap_bug`), and pixels that are not joined to the minimum. -/
theorem C90_ultimate_partial (hh : (im.dims.h : Int) ≤ u.hi) (hu : u.signed = false) :
    ∃ tr ind, ultimateOpen auto se stop δ im d1 d2 = some (.ok (tr, ind)) ∧
      IsUltimateAround (seRel se) im (if stop.val = 0 then (im.dims.h : Int) - 1 else stop.val) δ tr ind := by
  have e1 : t.hi = (2 ^ t.bits : Nat) - 1 := by unfold PT.hi; simp [hs]
  have e2 := lo_unsigned (t := t) hs
  have e3 := lo_unsigned (t := u) hu
  have hpos : 0 < im.dims.count := Nat.pos_of_ne_zero hok.1
  have hhle : im.dims.h ≤ im.dims.count ∧ 1 ≤ im.dims.h := by
    unfold Dims.count at hpos ⊢
    have h0 : im.dims.h ≠ 0 := by rintro e; rw [e] at hpos; simp at hpos
    rw [Nat.mul_assoc, Nat.mul_comm im.dims.h, ← Nat.mul_assoc] at hpos ⊢
    exact ⟨Nat.le_mul_of_pos_left _ (Nat.pos_of_mul_pos_right hpos), by omega⟩
  obtain ⟨st, hst⟩ : ∃ st : Int, st = if stop.val = 0 then (im.dims.h : Int) - 1 else stop.val := ⟨_, rfl⟩
  have hst' : (if stop.val = 0 then (u.wrap ((im.dims.h : Int) - 1)).val else stop.val) = st := by
    rw [hst, PT.wrap_of_mem u (by omega) (by omega)]
  have hstu : st ≤ u.hi := by rw [hst]; split; · omega
                              · exact stop.le_hi
  rw [← hst]
  obtain ⟨o, e, z, hz, hzm, h1, h2⟩ := mtUltimate_spec (t := t) (u := u) (K := heightCrit) (δ := δ) (stop := st)
    (top := t.hi.toNat) (mtCfg_ok (im := im) hs hb hN hsm) (heightGood _) hpos (fun i _ => by
      have := (im.buf i).le_hi
      simp only [mtCfg]; omega) (B := fun n T => BigHeight n (offPts im.dims T))
    (fun n m S h0 hS h => big_height hsm h0 hS h)
    (fun n S T hST => bigHeight_inc n fun q hq => ⟨hq.1, hST hq.2⟩) (H := im.dims.h)
    (fun n S _ hB => by
      obtain ⟨p, hp, q, hq, e⟩ := hB
      have h5 := hp.1; have h6 := hq.1
      unfold Img.In at h5 h6
      omega) hh (by omega) (by omega) (by omega) (by
      have h0 := Nat.one_le_two_pow (n := t.bits)
      omega) hstu
  have hcz := coordPt_in hz
  have hwz : ∀ {p}, Img.In im.dims p → (p ∈ wholeSet (seRel se) im (coordPt im.dims z) ↔
      AConn (nbOffsets im.dims se) (· < im.dims.count) z (offOf im.dims p)) := by
    intro p hp
    rw [← offPts_whole hcz.1, hcz.2]
    exact ⟨fun h => h.2, fun h => ⟨hp, h⟩⟩
  have hzat : im.at? (coordPt im.dims z) = some (im.buf z) := by rw [Img.buf_offOf im _ hcz.1, hcz.2]
  refine ⟨⟨im.dims, fun i => t.wrap (o i).1⟩, ⟨im.dims, fun i => u.wrap (o i).2⟩, ?_, rfl, rfl, coordPt im.dims z,
    im.buf z, hzat, ?_, ?_, ?_⟩
  · unfold ultimateOpen
    rw [checkTwoOut_ok hok]
    simp only [cardT_unsigned hs hb, Option.bind_eq_bind, Option.bind_some]
    rw [hst', e]
    rfl
  · intro q b hq
    have hqi := Img.at?_eq_some_in _ _ _ hq
    rw [Img.buf_offOf im q hqi] at hq
    cases hq
    rw [← toNat_le_iff hs]
    exact hzm _ (offOf_lt hqi)
  · intro p hpw
    have hp := (LinkPath.in hpw).2
    obtain ⟨A, hA, hR⟩ := h1 _ ((hwz hp).mp hpw)
    have hlo := (im.buf (offOf im.dims p)).lo_le
    have hhi := (im.buf (offOf im.dims p)).le_hi
    have hzlo := (im.buf z).lo_le
    simp only [mtCfg] at hR hA
    rw [Int.toNat_of_nonneg (by omega), Int.toNat_of_nonneg (by omega)] at hR
    have hbr : 0 ≤ (o (offOf im.dims p)).1 ∧ (o (offOf im.dims p)).1 ≤ t.hi := by
      rcases hR.wit with h3 | ⟨h3, w, v, _, h4, h5, _⟩
      · have := t.hi_nonneg; omega
      · have := h4.lo; have := h4.hi; omega
    have hbi : 0 ≤ (o (offOf im.dims p)).2 ∧ (o (offOf im.dims p)).2 ≤ u.hi := by
      rcases hR.wit with h3 | ⟨h3, w, v, v0, _, _, h4, _, h5, _⟩
      · have := u.hi_nonneg; omega
      · have := h4.small; omega
    refine ⟨t.wrap (o (offOf im.dims p)).1, u.wrap (o (offOf im.dims p)).2,
      Img.buf_offOf ⟨im.dims, fun i => t.wrap (o i).1⟩ p hp, Img.buf_offOf ⟨im.dims, fun i => u.wrap (o i).2⟩ p hp,
      im.buf (offOf im.dims p), A, Img.buf_offOf im p hp, fun v hv hva n => ?_, ?_⟩
    · have hvlo := v.lo_le
      have hva' := (Px.le_iff).mp hva
      have h5 := hA v.val.toNat n (by omega) (by omega)
      rw [Int.toNat_of_nonneg (by omega)] at h5
      rw [h5, ← offPts_level hs v hp]
    · rw [PT.wrap_of_mem t (by omega) hbr.2, PT.wrap_of_mem u (by omega) hbi.2]
      exact hR
  · intro p hp hpw
    have h3 := h2 _ (offOf_lt hp) (fun h => hpw ((hwz hp).mpr h))
    refine ⟨?_, ?_⟩
    · rw [Img.buf_offOf ⟨im.dims, fun i => t.wrap (o i).1⟩ p hp]
      simp only
      rw [h3]
      exact congrArg some (Px.ext (t.wrap_of_mem t.lo_nonpos t.hi_nonneg))
    · rw [Img.buf_offOf ⟨im.dims, fun i => u.wrap (o i).2⟩ p hp]
      simp only
      rw [h3]
      exact congrArg some (Px.ext (u.wrap_of_mem u.lo_nonpos u.hi_nonneg))

end

/-- `o n` is the opening of `im` by height `n`: the residue at `p` is the greatest difference between two successive
openings by height, the sizes being below `stop`; the indicator is 1 more than the greatest size that attains it. -/
def IsGreatestStep (o : Nat → Img (Px t)) (stop : Int) (p : IntPoint) (r i : Int) : Prop :=
  (∀ n : Nat, ∀ a b, (n : Int) < stop → (o n).at? p = some a → (o (n + 1)).at? p = some b → a.val - b.val ≤ r) ∧
  ((r = 0 ∧ i = 0) ∨ (0 < r ∧ ∃ n : Nat, (n : Int) < stop ∧ i = n + 1 ∧
    (∃ a b, (o n).at? p = some a ∧ (o (n + 1)).at? p = some b ∧ a.val - b.val = r) ∧
    ∀ n' : Nat, ∀ a b, n < n' → (n' : Int) < stop → (o n').at? p = some a → (o (n' + 1)).at? p = some b →
      a.val - b.val < r))

/-- **C90**: when the levels are not merged, the ultimate opening gives the greatest step of the openings by
height. -/
theorem C90_openings {N : IntPoint → IntPoint → Prop} {im : Img (Px t)} {stop m : Int} {p : IntPoint} {r i : Int}
    {o : Nat → Img (Px t)} (h : IsUltimateAt N im stop 0 m p r i)
    (hm : (∃ q ∈ wholeSet N im p, ∃ c, im.at? q = some c ∧ c.val = m) ∧
      ∀ q ∈ wholeSet N im p, ∀ c, im.at? q = some c → m ≤ c.val)
    (ho : ∀ n, IsAttrOpen N (BigHeight n) im (o n)) : IsGreatestStep o stop p r i := by
  obtain ⟨a, A, ha, hA, hR⟩ := h
  have hp := Img.at?_eq_some_in _ _ _ ha
  obtain ⟨⟨z, hz, c, hc, hcm⟩, hleast⟩ := hm
  have hpw : p ∈ wholeSet N im p := LinkPath.refl hp
  have hma := hleast p hpw a ha
  have hpx : ∀ x : Int, m ≤ x → x ≤ a.val → ∃ v : Px t, v.val = x := fun x h1 h2 =>
    ⟨⟨x, by have := c.lo_le; omega, by have := a.le_hi; omega⟩, rfl⟩
  have hmono : ∀ {v v' : Px t}, v ≤ v' → levelSet N im v' p ⊆ levelSet N im v p := fun hv q hq =>
    LinkPath.mono rfl (fun _ _ _ _ h1 h2 h3 => ⟨_, _, h1, h2, hv.trans h3.1, hv.trans h3.2⟩) hq
  have hanti : ∀ x y, m < x → x ≤ y → y ≤ a.val → A y ≤ A x := by
    intro x y h1 h2 h3
    obtain ⟨v, hv⟩ := hpx x (by omega) (by omega)
    obtain ⟨v', hv'⟩ := hpx y (by omega) h3
    subst hv; subst hv'
    rw [hA v h1 (Px.le_iff.mpr (by omega))]
    exact bigHeight_inc _ (hmono (Px.le_iff.mpr h2)) ((hA v' (by omega) (Px.le_iff.mpr h3) _).mp (le_refl _))
  choose g hg hat using fun n => (ho n).val p hp
  have hG : ∀ n, m ≤ (g n).val ∧ (g n).val ≤ a.val ∧ ((g n).val = m ∨ n ≤ A (g n).val) ∧
      ∀ v, (g n).val < v → v ≤ a.val → A v < n := by
    intro n
    obtain ⟨⟨a', ha', h1, h2⟩, h3⟩ := hat n
    rw [ha] at ha'
    cases ha'
    have hmg : m ≤ (g n).val := by
      rcases h3 with h3 | ⟨_, ⟨q, hq, hqb⟩, _⟩
      · by_contra hlt
        have hgc : g n ≤ c := Px.le_iff.mpr (by omega)
        have e1 : levelSet N im (g n) p = wholeSet N im p := levelSet_whole fun q hq b hb =>
          hgc.trans (Px.le_iff.mpr (by have := hleast q hq b hb; omega))
        have e2 : levelSet N im c p = wholeSet N im p := levelSet_whole fun q hq b hb =>
          Px.le_iff.mpr (by have := hleast q hq b hb; omega)
        rw [e1, ← e2] at h3
        exact h2 c (Px.lt_iff.mpr (by omega)) (Px.le_iff.mpr (by omega)) h3
      · exact hleast q hq _ hqb
    refine ⟨hmg, Px.le_iff.mp h1, ?_, fun x hx hxa => ?_⟩
    · rcases h3 with h3 | ⟨_, _, h3⟩
      · by_cases he : (g n).val = m
        · exact .inl he
        · exact .inr ((hA _ (by omega) h1 n).mpr h3)
      · left
        have := Px.le_iff.mp (h3 z hz c hc)
        omega
    · obtain ⟨v, hv⟩ := hpx x (by omega) hxa
      subst hv
      have h4 := h2 v (Px.lt_iff.mpr hx) (Px.le_iff.mpr hxa)
      rw [← hA v (by omega) (Px.le_iff.mpr hxa)] at h4
      omega
  obtain ⟨k1, k2⟩ := residue_openings hR hanti (G := fun n => (g n).val) hG
  refine ⟨fun n x y hn hx hy => ?_, k2.imp id fun ⟨h0, n, h1, h2, h3, h4⟩ => ⟨h0, n, h1, h2, ⟨g n, g (n + 1), hg n,
    hg (n + 1), h3⟩, fun n' x y hn hs hx hy => ?_⟩⟩
  · rw [hg n] at hx; rw [hg (n + 1)] at hy
    cases hx; cases hy
    exact k1 n hn
  · rw [hg n'] at hx; rw [hg (n' + 1)] at hy
    cases hx; cases hy
    exact h4 n' hn hs

/-- **C90**, partial: on a connected neighbourhood `ultimateOpen` without merging is computed from the images given by
`heightOpen`, see `C90_ultimate_partial` for what is missing. -/
theorem C90_steps_partial (auto : Bool) (se : StrElt) (stop : Px u) (im : Img (Px t)) (d1 d2 : Dims)
    (hok : AcceptsTwo auto im.dims d1 d2) (hs : t.signed = false) (hb : t.bits ≤ 16)
    (hN : ∀ p q, seRel se p q → seRel se q p) (hsm : im.dims.count < 41943040)
    (hh : (im.dims.h : Int) ≤ u.hi) (hu : u.signed = false) (hc : ConnectedBy (seRel se) im.dims) :
    ∃ tr ind, ∃ o : Nat → Img (Px t), ultimateOpen auto se stop 0 im d1 d2 = some (.ok (tr, ind)) ∧
      (∀ n, attributeOpen heightCrit auto se n im im.dims = some (.ok (o n))) ∧
      ∀ p, Img.In im.dims p → ∃ r i, tr.at? p = some r ∧ ind.at? p = some i ∧
        IsGreatestStep o (if stop.val = 0 then (im.dims.h : Int) - 1 else stop.val) p r.val i.val := by
  obtain ⟨tr, ind, e, _, _, z, c, hz, hmin, h1, _⟩ := C90_ultimate_partial auto se stop 0 im d1 d2 hok hs hb hN hsm hh hu
  have hd : AcceptsD auto im.dims im.dims := ⟨hok.1, hok.1, .inl rfl⟩
  choose o ho1 ho2 using fun n => C63_height_partial auto se n im im.dims hd hs hb hN hsm
  refine ⟨tr, ind, o, e, ho1, fun p hp => ?_⟩
  have hzin := Img.at?_eq_some_in _ _ _ hz
  obtain ⟨r, i, hr, hi, h2⟩ := h1 p (hc.whole hzin hp)
  exact ⟨r, i, hr, hi, C90_openings h2 ⟨⟨z, hc.whole hp hzin, c, hz, rfl⟩, fun q _ b hb => Px.le_iff.mp (hmin q b hb)⟩
    fun n => (ho2 n).connected hc⟩

/-- **C90**, errors. -/
theorem C90_errors (auto : Bool) (se : StrElt) (stop : Px u) (δ : Nat) (im : Img (Px t)) (d1 d2 : Dims) :
    ((im.dims.count = 0 ∨ d1.count = 0 ∨ d2.count = 0) →
      ultimateOpen auto se stop δ im d1 d2 = some (.error errBadAllocation)) ∧
    (im.dims.count ≠ 0 → d1.count ≠ 0 → d2.count ≠ 0 → (d1 ≠ im.dims ∨ d2 ≠ im.dims) →
      ultimateOpen false se stop δ im d1 d2 = some (.error errBadSize)) := by
  unfold ultimateOpen checkTwoOut
  refine ⟨fun h => by rw [if_pos h], fun h1 h2 h3 h4 => ?_⟩
  rw [if_neg (by simp [h1, h2, h3]), if_neg (by tauto)]
  rfl

/-! ### Defects -/

/-- For `UINT32` every call writes outside of the table of labels. -/
theorem C90_uint32_ub (auto : Bool) (se : StrElt) (stop : Px u) (δ : Nat) (im : Img (Px UINT32)) (d1 d2 : Dims)
    (hok : AcceptsTwo auto im.dims d1 d2) : ultimateOpen auto se stop δ im d1 d2 = none := by
  have hc : cardT UINT32 = some 0 := by decide
  unfold ultimateOpen mtUltimate mtRun
  rw [checkTwoOut_ok hok, hc]
  simp [mtCfg]

/-- With an indicator of type `UINT8` and the default size, an image of 257 lines gives 0 everywhere, whatever its
contents: the height less 1 is converted to 0, and no component is smaller than that. -/
theorem C90_wrap_bug (auto : Bool) (se : StrElt) (im : Img (Px t)) (d1 d2 : Dims)
    (hok : AcceptsTwo auto im.dims d1 d2) (hs : t.signed = false) (hb : t.bits ≤ 16)
    (hN : ∀ p q, seRel se p q → seRel se q p) (hsm : im.dims.count < 41943040) (hh : im.dims.h = 257) :
    ∃ (tr : Img (Px t)) (ind : Img (Px UINT8)),
      ultimateOpen auto se (Px.zero : Px UINT8) 0 im d1 d2 = some (.ok (tr, ind)) ∧
      ∀ p, Img.In im.dims p → tr.at? p = some Px.zero ∧ ind.at? p = some Px.zero := by
  have e1 : t.hi = (2 ^ t.bits : Nat) - 1 := by unfold PT.hi; simp [hs]
  obtain ⟨o, e, h1⟩ := mtUltimate_zero (t := t) (u := UINT8) (K := heightCrit) (stop := 0) (top := t.hi.toNat)
    (mtCfg_ok (im := im) hs hb hN hsm) (heightGood _) (Nat.pos_of_ne_zero hok.1) (fun i _ => by
      have := (im.buf i).le_hi
      simp only [mtCfg]; omega) (by decide) (le_refl _)
  have hst : (if (Px.zero : Px UINT8).val = 0 then (UINT8.wrap ((im.dims.h : Int) - 1)).val else (Px.zero : Px UINT8).val)
      = 0 := by
    rw [hh]; decide
  refine ⟨⟨im.dims, fun i => t.wrap (o i).1⟩, ⟨im.dims, fun i => UINT8.wrap (o i).2⟩, ?_, fun p hp => ⟨?_, ?_⟩⟩
  · unfold ultimateOpen
    rw [checkTwoOut_ok hok]
    simp only [cardT_unsigned hs hb, Option.bind_eq_bind, Option.bind_some]
    rw [hst, e]
    rfl
  · rw [Img.buf_offOf ⟨im.dims, fun i => t.wrap (o i).1⟩ p hp]
    simp only
    rw [h1]
    exact congrArg some (Px.ext (t.wrap_of_mem t.lo_nonpos t.hi_nonneg))
  · rw [Img.buf_offOf ⟨im.dims, fun i => UINT8.wrap (o i).2⟩ p hp]
    simp only
    rw [h1]
    exact congrArg some (Px.ext (UINT8.wrap_of_mem UINT8.lo_nonpos UINT8.hi_nonneg))

/-! ### Examples -/

/-- The values of the two results. -/
def ultRow (r : Option (Except Int (Img (Px UINT8) × Img (Px UINT16)))) : Option (List Int × List Int) :=
  match r with
  | some (.ok (a, b)) => some ((List.range a.dims.count).map fun i => (a.buf i).val,
      (List.range b.dims.count).map fun i => (b.buf i).val)
  | _ => none

/-- A column with a tower of height 1 on a step of height 3. -/
def exTower : Img (Px UINT8) := im8 ⟨1, 5, 1⟩ [0, 3, 9, 3, 0]

example : ultRow (ultimateOpen true (CrossSE 1) Px.zero 0 exTower ⟨1, 5, 1⟩ ⟨1, 5, 1⟩) =
    some ([0, 3, 6, 3, 0], [0, 4, 2, 4, 0]) := by decide +kernel

/-- A fall of 2 in height is merged: the tower and the step make one residue, that of the step. -/
example : ultRow (ultimateOpen true (CrossSE 1) Px.zero 2 exTower ⟨1, 5, 1⟩ ⟨1, 5, 1⟩) =
    some ([0, 3, 9, 3, 0], [0, 4, 4, 4, 0]) := by decide +kernel

/-- The hypotheses of `C90_steps_partial` are met. -/
example : ∃ tr ind, ∃ o : Nat → Img (Px UINT8),
    ultimateOpen true (CrossSE 1) (Px.zero : Px UINT16) 0 exTower ⟨1, 5, 1⟩ ⟨1, 5, 1⟩ = some (.ok (tr, ind)) ∧
      (∀ n, attributeOpen heightCrit true (CrossSE 1) n exTower exTower.dims = some (.ok (o n))) ∧
      ∀ p, Img.In exTower.dims p → ∃ r i, tr.at? p = some r ∧ ind.at? p = some i ∧
        IsGreatestStep o 4 p r.val i.val :=
  C90_steps_partial true (CrossSE 1) Px.zero exTower _ _ ⟨by decide, by decide, by decide, .inl ⟨rfl, rfl⟩⟩ rfl (by decide)
    (seRel_symm (by decide)) (by decide) (by decide) rfl (connected_cross _ (by decide) 1)

end Smil
