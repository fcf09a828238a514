import Verif.Zhang
import Verif.ZhangTopo
import Verif.PropsWindow
import Mathlib.Data.Set.Finite.Lattice
import Mathlib.Data.Set.Finite.Basic
import Mathlib.Order.Interval.Finset.Defs
import Mathlib.Order.Interval.Finset.Basic
import Mathlib.Data.Int.Interval
import Mathlib.Order.Interval.Set.Basic
import Mathlib.Data.Int.Interval

/-! # Lemmas on the skeleton of Zhang and Suen -/

namespace Smil

variable {t : PT}

/-- Small unsigned pixels are multiplied exactly. -/
theorem zhMul_small (a b c : Px t) (ha : 0 ≤ a.val ∧ a.val ≤ 1290) (hb : 0 ≤ b.val ∧ b.val ≤ 1290)
    (hc : 0 ≤ c.val ∧ c.val ≤ 1290) : zhMul a b c = some (nz a && nz b && nz c) := by
  have h1 : a.val * b.val ≤ 1290 * 1290 := by nlinarith
  have h0 : 0 ≤ a.val * b.val := mul_nonneg ha.1 hb.1
  have h2 : a.val * b.val * c.val ≤ 1290 * 1290 * 1290 := by nlinarith
  have h3 : 0 ≤ a.val * b.val * c.val := mul_nonneg h0 hc.1
  have e : decide (a.val * b.val * c.val ≠ 0) = (nz a && nz b && nz c) := by
    rw [Bool.eq_iff_iff]
    simp only [nz, Bool.and_eq_true, decide_eq_true_eq, ne_eq, mul_eq_zero]
    tauto
  unfold zhMul
  by_cases ht : t.signed = true ∨ t.bits < 32
  · rw [if_pos ht]
    simp only
    rw [if_pos ⟨⟨by omega, by omega⟩, by omega, by omega⟩, e]
  · rw [if_neg ht]
    have hb : 32 ≤ t.bits := by by_contra hc; exact ht (Or.inr (by omega))
    have hp : (2 : Int) ^ 32 ≤ 2 ^ t.bits := pow_le_pow_right₀ (by norm_num) hb
    rw [Int.emod_eq_of_lt h3 (by norm_num at h2 hp; omega), e]

/-- Folding the body over indices whose decisions are known. -/
theorem zhFold (ph : Bool) (W n : Nat) (tmp : Nat → Px t) (c : Nat → Bool) :
    ∀ (l : List Nat) (s : (Nat → Px t) × Bool), (∀ i ∈ l, zhDel ph W n tmp i = some (c i)) →
      l.foldlM (zhStep ph W n tmp) s =
        some (fun j => if j ∈ l ∧ c j = true then Px.zero else s.1 j, s.2 || l.any c) := by
  intro l
  induction l with
  | nil => intro s _; simp
  | cons i l ih =>
    intro s h
    rw [List.foldlM_cons]
    show (zhStep ph W n tmp s i).bind _ = _
    rw [zhStep, h i (by simp)]
    rw [Option.map_some, Option.bind_some, ih _ fun j hj => h j (by simp [hj])]
    by_cases hc : c i = true
    · simp only [hc, if_true, List.any_cons, Bool.true_or, Bool.or_true]
      congr 2
      funext j
      by_cases hj : j = i
      · subst hj; simp [hc]
      · simp [hj]
    · simp only [hc, List.any_cons, Bool.false_or, if_false, Bool.false_eq_true]
      congr 2
      funext j
      by_cases hj : j = i
      · subst hj; simp [hc]
      · simp [hj]

theorem mem_zhVisit {w h i : Nat} :
    i ∈ zhVisit (w + 2) (h + 2) ↔ ∃ x y : Nat, x ≤ w ∧ y < h ∧ i = (y + 1) * (w + 2) + (x + 1) := by
  unfold zhVisit
  simp only [List.mem_flatMap, List.mem_map, List.mem_range'_1]
  constructor
  · rintro ⟨y, hy, x, hx, rfl⟩
    exact ⟨x - 1, y - 1, by omega, by omega, by rw [Nat.sub_add_cancel hy.1, Nat.sub_add_cancel hx.1]⟩
  · rintro ⟨x, y, hx, hy, rfl⟩
    exact ⟨y + 1, by omega, x + 1, by omega, rfl⟩

theorem idx_inj {W x y x' y' : Nat} (hx : x < W) (hx' : x' < W) (e : y * W + x = y' * W + x') :
    x = x' ∧ y = y' := by
  have h1 : (y * W + x) % W = x := by rw [Nat.mul_comm, Nat.mul_add_mod, Nat.mod_eq_of_lt hx]
  have h2 : (y' * W + x') % W = x' := by rw [Nat.mul_comm, Nat.mul_add_mod, Nat.mod_eq_of_lt hx']
  have h : x = x' := by rw [← h1, e, h2]
  refine ⟨h, ?_⟩
  subst h
  have : y * W = y' * W := by omega
  exact Nat.eq_of_mul_eq_mul_right (by omega) this

theorem idx_lt {W H x y : Nat} (hx : x < W) (hy : y < H) : y * W + x < W * H := by nlinarith

/-- The buffer `b` holds the pixels of the buffer `o` at the points of `S`, and zero elsewhere; columns and
lines are shifted by one. -/
structure ThinRep (w h : Nat) (o b : Nat → Px t) (S : Set Pt2) : Prop where
  box : InRect2 w h S
  small : ∀ x y : Nat, x < w + 2 → y < h + 2 →
    0 ≤ (o (y * (w + 2) + x)).val ∧ (o (y * (w + 2) + x)).val ≤ 1290
  sub : ∀ x y : Nat, x < w + 2 → y < h + 2 → ((x : Int) - 1, (y : Int) - 1) ∈ S →
    nz (o (y * (w + 2) + x)) = true
  inn : ∀ x y : Nat, x < w + 2 → y < h + 2 → ((x : Int) - 1, (y : Int) - 1) ∈ S →
    b (y * (w + 2) + x) = o (y * (w + 2) + x)
  out : ∀ x y : Nat, x < w + 2 → y < h + 2 → ((x : Int) - 1, (y : Int) - 1) ∉ S →
    b (y * (w + 2) + x) = Px.zero

namespace ThinRep
variable {w h : Nat} {o b : Nat → Px t} {S : Set Pt2}

theorem nz_iff (R : ThinRep w h o b S) {x y : Nat} (hx : x < w + 2) (hy : y < h + 2) :
    nz (b (y * (w + 2) + x)) = true ↔ ((x : Int) - 1, (y : Int) - 1) ∈ S := by
  by_cases hm : ((x : Int) - 1, (y : Int) - 1) ∈ S
  · rw [R.inn x y hx hy hm]; exact ⟨fun _ => hm, fun _ => R.sub x y hx hy hm⟩
  · rw [R.out x y hx hy hm]; simp [nz, Px.zero, hm]

theorem small' (R : ThinRep w h o b S) {x y : Nat} (hx : x < w + 2) (hy : y < h + 2) :
    0 ≤ (b (y * (w + 2) + x)).val ∧ (b (y * (w + 2) + x)).val ≤ 1290 := by
  by_cases hm : ((x : Int) - 1, (y : Int) - 1) ∈ S
  · rw [R.inn x y hx hy hm]; exact R.small x y hx hy
  · rw [R.out x y hx hy hm]; simp [Px.zero]

end ThinRep

theorem zhGet_idx {w h : Nat} (b : Nat → Px t) {x y : Nat} (hx : x < w + 2) (hy : y < h + 2) (i : Int)
    (e : i = (y : Int) * ((w + 2 : Nat) : Int) + x) :
    zhGet ((w + 2) * (h + 2)) b i = some (b (y * (w + 2) + x)) := by
  have h1 := idx_lt hx hy
  have e' : i = ((y * (w + 2) + x : Nat) : Int) := by rw [e]; push_cast; ring
  rw [e', zhGet, if_pos ⟨by omega, by exact_mod_cast h1⟩, Int.toNat_natCast]

/-- The test of a phase on the ring. -/
def remB (ph : Bool) (f : Fin 8 → Bool) : Bool := if ph then rem2B f else rem1B f

theorem zhDel_ring {ph : Bool} (l0 l1 l2 l3 l4 l5 l6 l7 : Px t)
    (hs : ∀ v ∈ [l0, l1, l2, l3, l4, l5, l6, l7], 0 ≤ v.val ∧ v.val ≤ 1290) :
    (if zhCount [l0, l1, l2, l3, l4, l5, l6, l7] < 2 ∨ 6 < zhCount [l0, l1, l2, l3, l4, l5, l6, l7] then some false
      else if zhTrans [l0, l1, l2, l3, l4, l5, l6, l7] ≠ 1 then some false
      else (zhKeep ph [l0, l1, l2, l3, l4, l5, l6, l7]).map (!·)) =
    some (remB ph (r8 (nz l0) (nz l1) (nz l2) (nz l3) (nz l4) (nz l5) (nz l6) (nz l7))) := by
  have e1 : zhCount [l0, l1, l2, l3, l4, l5, l6, l7] =
      cnt8 (r8 (nz l0) (nz l1) (nz l2) (nz l3) (nz l4) (nz l5) (nz l6) (nz l7)) := by
    simp only [zhCount, cnt8, cyc8, List.countP_cons, List.countP_nil, r8]
    rfl
  have e2 : zhTrans [l0, l1, l2, l3, l4, l5, l6, l7] =
      cnt8 (fun k => !r8 (nz l0) (nz l1) (nz l2) (nz l3) (nz l4) (nz l5) (nz l6) (nz l7) k &&
        r8 (nz l0) (nz l1) (nz l2) (nz l3) (nz l4) (nz l5) (nz l6) (nz l7) (k + 1)) := by
    simp only [zhTrans, cnt8, cyc8, List.countP_cons, List.countP_nil]
    rfl
  have e3 : zhKeep ph [l0, l1, l2, l3, l4, l5, l6, l7] = some
      (if ph then (nz l1 && nz l3 && nz l7) || (nz l1 && nz l5 && nz l7)
        else (nz l1 && nz l3 && nz l5) || (nz l3 && nz l5 && nz l7)) := by
    have m := fun a b c ha hb hc => zhMul_small (t := t) a b c (hs a ha) (hs b hb) (hs c hc)
    cases ph
    · simp only [zhKeep, if_true, m l1 l3 l5 (by simp) (by simp) (by simp),
        m l3 l5 l7 (by simp) (by simp) (by simp), Option.bind_some, Bool.false_eq_true, if_false]
      cases (nz l1 && nz l3 && nz l5) <;> simp
    · simp only [zhKeep, m l1 l3 l7 (by simp) (by simp) (by simp),
        m l1 l5 l7 (by simp) (by simp) (by simp), Option.bind_some, if_true, Bool.true_eq_false, if_false]
      cases (nz l1 && nz l3 && nz l7) <;> simp
  rw [e1, e2, e3]
  generalize nz l0 = a0
  generalize nz l1 = a1
  generalize nz l2 = a2
  generalize nz l3 = a3
  generalize nz l4 = a4
  generalize nz l5 = a5
  generalize nz l6 = a6
  generalize nz l7 = a7
  clear e1 e2 e3 hs
  revert ph a0 a1 a2 a3 a4 a5 a6 a7
  decide +kernel

/-- The removable points of a phase. -/
def RemovablePh (ph : Bool) (S : Set Pt2) (p : Pt2) : Prop := if ph then Removable2 S p else Removable1 S p

theorem removablePh_iff (ph : Bool) (S : Set Pt2) (p : Pt2) :
    RemovablePh ph S p ↔ p ∈ S ∧ remB ph (ringB S p) = true := by
  cases ph
  · exact removable1_iff S p
  · exact removable2_iff S p

open Classical in
theorem zhDel_spec {w h : Nat} {o b : Nat → Px t} {S : Set Pt2} (R : ThinRep w h o b S) (ph : Bool) {x y : Nat}
    (hx : x ≤ w) (hy : y < h) :
    zhDel ph (w + 2) ((w + 2) * (h + 2)) b ((y + 1) * (w + 2) + (x + 1)) =
      some (decide (RemovablePh ph S ((x : Int), (y : Int)))) := by
  have hp := R.nz_iff (x := x + 1) (y := y + 1) (by omega) (by omega)
  have ep : (((x + 1 : Nat) : Int) - 1, ((y + 1 : Nat) : Int) - 1) = ((x : Int), (y : Int)) := by
    push_cast; simp
  rw [ep] at hp
  unfold zhDel
  by_cases hm : ((x : Int), (y : Int)) ∈ S
  · rw [if_neg (by rw [hp.mpr hm]; simp)]
    have hxw : x < w := by have := (R.box _ hm).2.1; simp only at this; omega
    have g := fun (x' y' : Nat) (hx' : x' < w + 2) (hy' : y' < h + 2) => zhGet_idx (h := h) b hx' hy'
    have n := fun (x' y' : Nat) (hx' : x' < w + 2) (hy' : y' < h + 2) => R.nz_iff hx' hy'
    simp only [zhOffs, List.mapM_cons, List.mapM_nil]
    rw [g x y (by omega) (by omega) _ (by push_cast; ring),
      g (x + 1) y (by omega) (by omega) _ (by push_cast; ring),
      g (x + 2) y (by omega) (by omega) _ (by push_cast; ring),
      g (x + 2) (y + 1) (by omega) (by omega) _ (by push_cast; ring),
      g (x + 2) (y + 2) (by omega) (by omega) _ (by push_cast; ring),
      g (x + 1) (y + 2) (by omega) (by omega) _ (by push_cast; ring),
      g x (y + 2) (by omega) (by omega) _ (by push_cast; ring),
      g x (y + 1) (by omega) (by omega) _ (by push_cast; ring)]
    simp only [Option.bind_eq_bind, Option.bind_some, Option.pure_def]
    rw [zhDel_ring]
    · congr 1
      rw [Bool.eq_iff_iff, decide_eq_true_eq, removablePh_iff, and_iff_right hm]
      have q : ∀ (k : Fin 8) (x' y' : Nat) (hx' : x' < w + 2) (hy' : y' < h + 2),
          ringPt ((x : Int), (y : Int)) k = ((x' : Int) - 1, (y' : Int) - 1) →
          nz (b (y' * (w + 2) + x')) = ringB S ((x : Int), (y : Int)) k := by
        intro k x' y' hx' hy' e
        rw [Bool.eq_iff_iff, n x' y' hx' hy', ringB_iff, e]
      rw [q 0 x y (by omega) (by omega) (by simp [ringPt]),
        q 1 (x + 1) y (by omega) (by omega) (by simp [ringPt]),
        q 2 (x + 2) y (by omega) (by omega) (by simp [ringPt]; omega),
        q 3 (x + 2) (y + 1) (by omega) (by omega) (by simp [ringPt]; omega),
        q 4 (x + 2) (y + 2) (by omega) (by omega) (by simp [ringPt]; omega),
        q 5 (x + 1) (y + 2) (by omega) (by omega) (by simp [ringPt]; omega),
        q 6 x (y + 2) (by omega) (by omega) (by simp [ringPt]; omega),
        q 7 x (y + 1) (by omega) (by omega) (by simp [ringPt]), r8_eta]
    · intro v hv
      simp only [List.mem_cons, List.not_mem_nil, or_false] at hv
      rcases hv with rfl | rfl | rfl | rfl | rfl | rfl | rfl | rfl <;> exact R.small' (by omega) (by omega)
  · have hn : nz (b ((y + 1) * (w + 2) + (x + 1))) = false := by
      rw [← Bool.not_eq_true, hp]; exact hm
    rw [if_pos hn]
    congr 1
    symm
    rw [decide_eq_false_iff_not, removablePh_iff]
    exact fun hh => hm hh.1

/-- A phase on sets. -/
def thinPh (ph : Bool) (S : Set Pt2) : Set Pt2 := if ph then thin2 S else thin1 S

theorem mem_thinPh {ph : Bool} {S : Set Pt2} {p : Pt2} : p ∈ thinPh ph S ↔ p ∈ S ∧ ¬ RemovablePh ph S p := by
  cases ph <;> rfl

/-- A phase of the code is a phase on the sets; the flag says whether something has been removed. -/
theorem zhPhase_spec {w h : Nat} {o : Nat → Px t} {s : (Nat → Px t) × (Nat → Px t)} {S : Set Pt2}
    (R1 : ThinRep w h o s.1 S) (R2 : ThinRep w h o s.2 S) (ph : Bool) :
    ∃ r, zhPhase ph (w + 2) (h + 2) s = some r ∧ ThinRep w h o r.1.1 (thinPh ph S) ∧
      ThinRep w h o r.1.2 (thinPh ph S) ∧ (r.2 = false ↔ thinPh ph S = S) := by
  classical
  let c : Nat → Bool := fun i =>
    decide (RemovablePh ph S (((i % (w + 2) : Nat) : Int) - 1, ((i / (w + 2) : Nat) : Int) - 1))
  have cxy : ∀ x y : Nat, x < w + 2 →
      c (y * (w + 2) + x) = decide (RemovablePh ph S ((x : Int) - 1, (y : Int) - 1)) := by
    intro x y hx
    simp only [c]
    have e1 : (y * (w + 2) + x) % (w + 2) = x := by rw [Nat.mul_comm, Nat.mul_add_mod, Nat.mod_eq_of_lt hx]
    have e2 : (y * (w + 2) + x) / (w + 2) = y := by
      rw [Nat.mul_comm, Nat.mul_add_div (by omega), Nat.div_eq_of_lt hx, Nat.add_zero]
    rw [e1, e2]
  have hc : ∀ i ∈ zhVisit (w + 2) (h + 2), zhDel ph (w + 2) ((w + 2) * (h + 2)) s.1 i = some (c i) := by
    intro i hi
    obtain ⟨x, y, hx, hy, rfl⟩ := mem_zhVisit.mp hi
    rw [zhDel_spec R1 ph hx hy, cxy (x + 1) (y + 1) (by omega)]
    congr 3
    ext <;> push_cast <;> simp
  have hv : ∀ x y : Nat, x < w + 2 → y < h + 2 → RemovablePh ph S ((x : Int) - 1, (y : Int) - 1) →
      y * (w + 2) + x ∈ zhVisit (w + 2) (h + 2) := by
    intro x y hx hy hr
    have := R1.box _ ((removablePh_iff ph S _).mp hr).1
    simp only at this
    exact mem_zhVisit.mpr ⟨x - 1, y - 1, by omega, by omega, by
      rw [Nat.sub_add_cancel (by omega), Nat.sub_add_cancel (by omega)]⟩
  have hflag : (zhVisit (w + 2) (h + 2)).any c = false ↔ thinPh ph S = S := by
    rw [← Bool.not_eq_true, List.any_eq_true]
    constructor
    · intro hn
      ext p
      rw [mem_thinPh]
      refine ⟨fun hh => hh.1, fun hp => ⟨hp, fun hr => hn ?_⟩⟩
      obtain ⟨h1, h2, h3, h4⟩ := R1.box p hp
      have e : p = (((p.1.toNat + 1 : Nat) : Int) - 1, ((p.2.toNat + 1 : Nat) : Int) - 1) := by
        ext <;> push_cast <;> omega
      rw [e] at hr
      exact ⟨_, hv _ _ (by omega) (by omega) hr, by rw [cxy _ _ (by omega), decide_eq_true hr]⟩
    · rintro e ⟨i, _, hi2⟩
      have hr : RemovablePh ph S _ := of_decide_eq_true hi2
      have := ((removablePh_iff ph S _).mp hr).1
      rw [← e] at this
      exact (mem_thinPh.mp this).2 hr
  have RM : ∀ b : Nat → Px t, (∀ x y : Nat, x < w + 2 → y < h + 2 → b (y * (w + 2) + x) =
      if y * (w + 2) + x ∈ zhVisit (w + 2) (h + 2) ∧ c (y * (w + 2) + x) = true then Px.zero
        else s.2 (y * (w + 2) + x)) → ThinRep w h o b (thinPh ph S) := by
    intro b hb
    refine ⟨fun q hq => R1.box q (mem_thinPh.mp hq).1, R1.small, fun x y hx hy hm => R1.sub x y hx hy (mem_thinPh.mp hm).1, ?_, ?_⟩
    · intro x y hx hy hm
      obtain ⟨m1, m2⟩ := mem_thinPh.mp hm
      rw [hb x y hx hy, if_neg (by
        rintro ⟨_, hh⟩
        rw [cxy x y hx] at hh
        exact m2 (of_decide_eq_true hh))]
      exact R2.inn x y hx hy m1
    · intro x y hx hy hm
      rw [hb x y hx hy]
      by_cases hr : RemovablePh ph S ((x : Int) - 1, (y : Int) - 1)
      · rw [if_pos ⟨hv x y hx hy hr, by rw [cxy x y hx, decide_eq_true hr]⟩]
      · have : ((x : Int) - 1, (y : Int) - 1) ∉ S := fun hh => hm (mem_thinPh.mpr ⟨hh, hr⟩)
        rw [R2.out x y hx hy this, ite_self]
  refine ⟨_, by
    unfold zhPhase
    rw [zhFold ph (w + 2) _ s.1 c _ _ hc]
    exact Option.map_some .., ?_, ?_, ?_⟩
  · simp only [Bool.false_or]
    by_cases hf : (zhVisit (w + 2) (h + 2)).any c = true
    · rw [if_pos hf]
      apply RM
      intro x y hx hy
      simp only
      rw [if_pos (idx_lt hx hy)]
    · rw [if_neg hf]
      rw [hflag.mp (by simpa using hf)]
      exact R1
  · simp only [Bool.false_or]
    have : ∀ (f : Bool) (A B C : Nat → Px t), (if f = true then (A, B) else (C, B)).2 = B := by
      intro f A B C; cases f <;> rfl
    rw [this]
    exact RM _ fun x y _ _ => rfl
  · simp only [Bool.false_or]
    exact hflag

theorem rect_finite {w h : Nat} {S : Set Pt2} (hS : InRect2 w h S) : S.Finite := by
  refine ((Set.finite_Ico (0 : Int) w).prod (Set.finite_Ico (0 : Int) h)).subset fun q hq => ?_
  obtain ⟨h1, h2, h3, h4⟩ := hS q hq
  exact ⟨⟨h1, h2⟩, h3, h4⟩

/-- One turn on sets. -/
def thinTurn (S : Set Pt2) : Set Pt2 := thin2 (thin1 S)

theorem zhLoop_spec {w h : Nat} {o : Nat → Px t} :
    ∀ (m : Nat) (s : (Nat → Px t) × (Nat → Px t)) (S : Set Pt2), S.ncard ≤ m → ThinRep w h o s.1 S → ThinRep w h o s.2 S →
      ∃ (n : Nat) (b : Nat → Px t), (∀ fuel, m < fuel → zhLoop (w + 2) (h + 2) fuel s = some (some b)) ∧
        ThinRep w h o b (thinTurn^[n] S) ∧ thin1 (thinTurn^[n] S) = thinTurn^[n] S ∧
        thin2 (thinTurn^[n] S) = thinTurn^[n] S := by
  intro m
  induction m with
  | zero =>
    intro s S hm R1 R2
    have hS : S = ∅ := (Set.ncard_eq_zero (rect_finite R1.box)).mp (by omega)
    obtain ⟨r1, e1, A1, A2, f1⟩ := zhPhase_spec R1 R2 false
    obtain ⟨r2, e2, B1, B2, f2⟩ := zhPhase_spec A1 A2 true
    have t1 : thin1 S = S := by subst hS; ext q; exact ⟨fun hh => hh.1, fun hh => absurd hh (by simp)⟩
    have t2 : thin2 S = S := by subst hS; ext q; exact ⟨fun hh => hh.1, fun hh => absurd hh (by simp)⟩
    have g1 : r1.2 = false := f1.mpr t1
    have g2 : r2.2 = false := f2.mpr (by
      show thin2 (thin1 S) = thin1 S
      rw [t1, t2])
    refine ⟨0, r2.1.1, ?_, ?_, t1, t2⟩
    · intro fuel hf
      obtain ⟨k, rfl⟩ : ∃ k, fuel = k + 1 := ⟨fuel - 1, by omega⟩
      rw [zhLoop, e1, Option.bind_some, e2, Option.bind_some, g1, g2]
      simp
    · have : ThinRep w h o r2.1.1 (thin2 (thin1 S)) := B1
      rwa [t1, t2] at this
  | succ m ih =>
    intro s S hm R1 R2
    obtain ⟨r1, e1, A1, A2, f1⟩ := zhPhase_spec R1 R2 false
    obtain ⟨r2, e2, B1, B2, f2⟩ := zhPhase_spec A1 A2 true
    by_cases g : (r1.2 || r2.2) = false
    · rw [Bool.or_eq_false_iff] at g
      have t1 : thin1 S = S := f1.mp g.1
      have t2 : thin2 S = S := by
        have : thin2 (thin1 S) = thin1 S := f2.mp g.2
        rwa [t1] at this
      refine ⟨0, r2.1.1, ?_, ?_, t1, t2⟩
      · intro fuel hf
        obtain ⟨k, rfl⟩ : ∃ k, fuel = k + 1 := ⟨fuel - 1, by omega⟩
        rw [zhLoop, e1, Option.bind_some, e2, Option.bind_some, g.1, g.2]
        simp
      · have : ThinRep w h o r2.1.1 (thin2 (thin1 S)) := B1
        rwa [t1, t2] at this
    · have hlt : (thinTurn S).ncard < S.ncard := by
        refine Set.ncard_lt_ncard ?_ (rect_finite R1.box)
        refine ⟨fun q hq => hq.1.1, fun hsub => g ?_⟩
        have t1 : thin1 S = S := Set.Subset.antisymm (fun q hq => hq.1) fun q hq => (hsub hq).1
        have t2 : thin2 (thin1 S) = thin1 S := by
          refine Set.Subset.antisymm (fun q hq => hq.1) fun q hq => ?_
          exact hsub hq.1
        rw [f1.mpr t1, f2.mpr t2]; rfl
      obtain ⟨n, b, hb, Rb, s1, s2⟩ := ih r2.1 (thinTurn S) (by omega) B1 B2
      refine ⟨n + 1, b, ?_, ?_, ?_, ?_⟩
      · intro fuel hf
        obtain ⟨k, rfl⟩ : ∃ k, fuel = k + 1 := ⟨fuel - 1, by omega⟩
        rw [zhLoop, e1, Option.bind_some, e2, Option.bind_some, if_pos ((Bool.not_eq_false _).mp g)]
        exact hb k (by omega)
      all_goals rw [Function.iterate_succ_apply]
      · exact Rb
      · exact s1
      · exact s2

theorem thinTurn_thinned (S : Set Pt2) (n : Nat) : ThinnedTo S (thinTurn^[n] S) := by
  induction n with
  | zero => exact .refl
  | succ n ih => rw [Function.iterate_succ_apply']; exact .two (.one ih)

end Smil
