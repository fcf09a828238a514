import Verif.PathOpFast
import Verif.PathOpLemmas

/-!
# Lemmas on path openings by queues
-/

namespace Smil

/-! ### The queues -/

/-- The turn at which the queue of a point is emptied. -/
def turnQ (W H k : Nat) (p : Int × Int) : Int := if ascQ k then rankQ W H k p else nRank W H k - 1 - rankQ W H k p

theorem rankAt_turnQ (W H k : Nat) (p : Int × Int) : rankAt W H k (turnQ W H k p) = rankQ W H k p := by
  unfold rankAt turnQ
  split <;> omega

theorem turnQ_eq_iff (W H k : Nat) (p : Int × Int) (s : Int) : turnQ W H k p = s ↔ rankQ W H k p = rankAt W H k s := by
  unfold rankAt turnQ
  split <;> omega

theorem rank_bounds {W H k : Nat} (hk : k < 8) {p : Int × Int} (hp : inWH W H p = true) :
    0 ≤ rankQ W H k p ∧ rankQ W H k p < nRank W H k := by
  rw [inWH_iff] at hp
  interval_cases k <;> simp only [rankQ, nRank] <;> omega

theorem turn_bounds {W H k : Nat} (hk : k < 8) {p : Int × Int} (hp : inWH W H p = true) :
    0 ≤ turnQ W H k p ∧ turnQ W H k p < nRank W H k := by
  have := rank_bounds hk hp
  unfold turnQ
  split <;> omega

theorem dec_enc {W H k : Nat} (hk : k < 8) {p : Int × Int} : decQ W H k (rankQ W H k p) (encQ W H k p) = p := by
  obtain ⟨x, y⟩ := p
  interval_cases k
  · rfl
  · rfl
  · rfl
  · rfl
  · simp only [decQ, encQ, rankQ]
    by_cases h : x + y < H
    · rw [if_pos h, if_pos h]
      ext <;> dsimp only; omega
    · rw [if_neg h, if_neg h]
      ext <;> dsimp only <;> omega
  · simp only [decQ, encQ, rankQ]
    by_cases h : x + y < H
    · rw [if_pos h, if_pos h]
      ext <;> dsimp only; omega
    · rw [if_neg h, if_neg h]
      ext <;> dsimp only <;> omega
  · simp only [decQ, encQ, rankQ]
    by_cases h : (W : Int) - x + y < H
    · rw [if_pos h, if_pos (by omega)]
      ext <;> dsimp only <;> omega
    · rw [if_neg h, if_neg (by omega)]
      ext <;> dsimp only <;> omega
  · simp only [decQ, encQ, rankQ]
    by_cases h : (W : Int) - x + y < H
    · rw [if_pos h, if_pos (by omega)]
      ext <;> dsimp only <;> omega
    · rw [if_neg h, if_neg (by omega)]
      ext <;> dsimp only <;> omega

theorem enc_inj {W H k : Nat} (hk : k < 8) {p p' : Int × Int} (hr : rankQ W H k p = rankQ W H k p') (he : encQ W H k p = encQ W H k p') : p = p' := by
  rw [← dec_enc (W := W) (H := H) hk (p := p), hr, he, dec_enc hk]

theorem turn_lt {W H k : Nat} (hk : k < 8) {q p : Int × Int} (h : LamRel k q p) : turnQ W H k q < turnQ W H k p := by
  obtain ⟨o, ho, rfl⟩ := h
  interval_cases k <;> simp only [lamOffs, List.mem_cons, List.not_mem_nil, or_false] at ho <;> rcases ho with rfl | rfl | rfl <;>
    simp only [turnQ, ascQ, rankQ, if_true, Bool.false_eq_true, if_false] <;> omega

theorem dep_iff {k : Nat} (hk : k < 8) (q p : Int × Int) : q ∈ ((depOffs k).map fun o => (p.1 + o.1, p.2 + o.2)) ↔ LamRel k p q := by
  obtain ⟨a, b⟩ := q
  obtain ⟨c, d⟩ := p
  unfold LamRel
  interval_cases k <;> simp only [depOffs, lamOffs, List.map_cons, List.map_nil, List.mem_cons, List.not_mem_nil, or_false, exists_eq_or_imp, exists_eq_left, Prod.mk.injEq] <;>
    constructor <;> intro h <;> omega

theorem pushQ_some {W H k : Nat} (hk : k < 8) (st : DirSt) {p : Int × Int} (hp : inWH W H p = true) :
    pushQ W H k st p = some { st with q := Function.update st.q (rankQ W H k p) (st.q (rankQ W H k p) ++ [encQ W H k p]) } := by
  unfold pushQ
  exact if_pos (rank_bounds hk hp)

theorem mem_update_push (q : Int → List Int) (r e r' l : Int) : l ∈ Function.update q r (q r ++ [e]) r' ↔ l ∈ q r' ∨ r = r' ∧ e = l := by
  by_cases h : r' = r
  · subst h
    simp [eq_comm]
  · rw [Function.update_of_ne h]
    have : ¬ (r = r' ∧ e = l) := fun x => h x.1.symm
    tauto

theorem pushDeps_spec {W H k : Nat} (hk : k < 8) (ps : List (Int × Int)) : ∀ st : DirSt, ∃ st', ps.foldlM (pushDep W H k) st = some st' ∧ st'.lam = st.lam ∧
    (∀ p, st'.push p = true ↔ st.push p = true ∨ p ∈ ps ∧ inWH W H p = true) ∧
    ∀ r l, l ∈ st'.q r ↔ l ∈ st.q r ∨ ∃ p ∈ ps, inWH W H p = true ∧ st.push p = false ∧ rankQ W H k p = r ∧ encQ W H k p = l := by
  induction ps with
  | nil => exact fun st => ⟨st, rfl, rfl, by simp, by simp⟩
  | cons a ps ih =>
    intro st
    rw [List.foldlM_cons]
    by_cases h : (inWH W H a && !st.push a) = true
    · obtain ⟨h1, h2⟩ : inWH W H a = true ∧ st.push a = false := by simpa using h
      have e : pushDep W H k st a = some { lam := st.lam, push := Function.update st.push a true, q := Function.update st.q (rankQ W H k a) (st.q (rankQ W H k a) ++ [encQ W H k a]) } := by
        unfold pushDep
        rw [if_pos h, pushQ_some hk _ h1]
      rw [e]
      obtain ⟨st', e1, e2, e3, e4⟩ := ih { lam := st.lam, push := Function.update st.push a true, q := Function.update st.q (rankQ W H k a) (st.q (rankQ W H k a) ++ [encQ W H k a]) }
      refine ⟨st', e1, e2, fun p => ?_, fun r l => ?_⟩
      · rw [e3, List.mem_cons]
        dsimp only
        by_cases hp : p = a
        · subst hp
          simp [h1]
        · rw [Function.update_of_ne hp]
          tauto
      · rw [e4]
        dsimp only
        rw [mem_update_push]
        constructor
        · rintro ((h | h) | ⟨p, p1, p2, p3, p4⟩)
          · exact .inl h
          · exact .inr ⟨a, by simp, h1, h2, h⟩
          · refine .inr ⟨p, List.mem_cons_of_mem _ p1, p2, ?_, p4⟩
            by_cases hp : p = a
            · rw [hp]; exact h2
            · rwa [Function.update_of_ne hp] at p3
        · rintro (h | ⟨p, p1, p2, p3, p4⟩)
          · exact .inl (.inl h)
          · by_cases hp : p = a
            · rw [hp] at p4
              exact .inl (.inr p4)
            · refine .inr ⟨p, ?_, p2, ?_, p4⟩
              · rcases List.mem_cons.mp p1 with h | h
                exacts [absurd h hp, h]
              · rw [Function.update_of_ne hp]
                exact p3
    · have e : pushDep W H k st a = some st := by
        unfold pushDep
        rw [if_neg h]
      rw [e]
      obtain ⟨st', e1, e2, e3, e4⟩ := ih st
      have h' : inWH W H a = true → st.push a = true := by
        intro h1
        by_contra h2
        exact h (by simp [h1, Bool.eq_false_iff.mpr h2])
      refine ⟨st', e1, e2, fun p => ?_, fun r l => ?_⟩
      · rw [e3, List.mem_cons]
        constructor
        · rintro (h | h)
          · exact .inl h
          · exact .inr ⟨.inr h.1, h.2⟩
        · rintro (h | ⟨h | h, h3⟩)
          · exact .inl h
          · rw [h] at h3 ⊢
            exact .inl (h' h3)
          · exact .inr ⟨h, h3⟩
      · rw [e4]
        constructor
        · rintro (h | ⟨p, p1, p2⟩)
          · exact .inl h
          · exact .inr ⟨p, List.mem_cons_of_mem _ p1, p2⟩
        · rintro (h | ⟨p, p1, p2, p3, p4⟩)
          · exact .inl h
          · rcases List.mem_cons.mp p1 with h | h
            · rw [h] at p2 p3
              rw [h' p2] at p3
              cases p3
            · exact .inr ⟨p, h, p2, p3, p4⟩

/-! ### The update of a level -/

/-- The pixels at or above a level. -/
def levelBin (f : Int × Int → Int) (L : Int) (p : Int × Int) : Bool := decide (L ≤ f p)

/-- The lengths of a direction are right. -/
def LamAll (W H k : Nat) (f : Int × Int → Int) (L : Int) (lam : Int × Int → Nat) (p : Int × Int) : Prop := LamOK W H (levelBin f L) (fun _ => lam) k p

theorem reach_unfold {R : Int × Int → Int × Int → Prop} {S : Int × Int → Prop} {n : Nat} {p : Int × Int} :
    Reach R S n p ↔ S p ∧ (n = 0 ∨ ∃ q, R q p ∧ Reach R S (n - 1) q) := by
  cases n with
  | zero => simp [Reach]
  | succ n => simp [Reach]

/-- The length of a point from those of the points before it. -/
theorem lamAll_iff {W H k : Nat} {f : Int × Int → Int} {L : Int} {lam : Int × Int → Nat} {p : Int × Int} (hp : inWH W H p = true)
    (h : ∀ q, LamRel k q p → inWH W H q = true → LamAll W H k f L lam q) :
    LamAll W H k f L lam p ↔ ∀ n, n < lam p ↔ L ≤ f p ∧ (n = 0 ∨ ∃ q, LamRel k q p ∧ inWH W H q = true ∧ n - 1 < lam q) := by
  unfold LamAll LamOK
  have key : ∀ n, Reach (LamRel k) (binSet W H (levelBin f L)) n p ↔ L ≤ f p ∧ (n = 0 ∨ ∃ q, LamRel k q p ∧ inWH W H q = true ∧ n - 1 < lam q) := by
    intro n
    rw [reach_unfold]
    have e : binSet W H (levelBin f L) p ↔ L ≤ f p := by
      unfold binSet levelBin
      rw [decide_eq_true_eq]
      exact and_iff_right hp
    rw [e]
    refine and_congr Iff.rfl (or_congr Iff.rfl (exists_congr fun q => and_congr_right fun hq => ?_))
    constructor
    · intro hr
      have := hr.mem.1
      exact ⟨this, (h q hq this (n - 1)).mpr hr⟩
    · rintro ⟨h1, h2⟩
      exact (h q hq h1 (n - 1)).mp h2
  exact forall_congr' fun n => by rw [key]

/-- The state during the update of the level `L`: the queues of the turns before `s` have been emptied, that of the turn `s` down to `rest`. `lam0` are the lengths before. -/
structure UpdInv (W H k : Nat) (f : Int × Int → Int) (L : Int) (lam0 : Int × Int → Nat) (s : Int) (rest : List Int) (st : DirSt) : Prop where
  good : ∀ p, inWH W H p = true → turnQ W H k p < s ∨ turnQ W H k p = s ∧ encQ W H k p ∉ rest →
    (f p < L → st.lam p = 0) ∧ ((∀ q, inWH W H q = true → LamAll W H k f (L - 1) lam0 q) → LamAll W H k f L st.lam p)
  later : ∀ p, inWH W H p = true → s < turnQ W H k p → st.lam p = lam0 p
  inRest : ∀ l ∈ rest, ∃ p, inWH W H p = true ∧ turnQ W H k p = s ∧ encQ W H k p = l ∧ L - 1 ≤ f p
  inQ : ∀ r l, l ∈ st.q r → ∃ p, inWH W H p = true ∧ s < turnQ W H k p ∧ rankQ W H k p = r ∧ encQ W H k p = l ∧ L - 1 ≤ f p
  gone : ∀ p, inWH W H p = true → s < turnQ W H k p → f p = L - 1 → encQ W H k p ∈ st.q (rankQ W H k p)
  flag : ∀ p, inWH W H p = true → s < turnQ W H k p → L ≤ f p → st.push p = true → encQ W H k p ∈ st.q (rankQ W H k p)
  same : ∀ p, inWH W H p = true → s < turnQ W H k p → L ≤ f p → encQ W H k p ∉ st.q (rankQ W H k p) → ∀ q, LamRel k q p → inWH W H q = true → st.lam q = lam0 q
  low : ∀ p, inWH W H p = true → f p < L → st.push p = true

theorem UpdInv.pop {W H k : Nat} (hk : k < 8) {f : Int × Int → Int} {L : Int} {lam0 : Int × Int → Nat} {s l : Int} {rest : List Int} {st : DirSt}
    (h : UpdInv W H k f L lam0 s (l :: rest) st) : ∃ st', popOne W H k f L (rankAt W H k s) st l = some st' ∧ UpdInv W H k f L lam0 s rest st' := by
  obtain ⟨p, hp, ht, he, hf⟩ := h.inRest l (by simp)
  have hdec : decQ W H k (rankAt W H k s) l = p := by
    rw [← he, ← ht, rankAt_turnQ, dec_enc hk]
  have hpred : ∀ q, LamRel k q p → inWH W H q = true → turnQ W H k q < s := fun q hq _ => by rw [← ht]; exact turn_lt hk hq
  unfold popOne
  simp only [hdec, hp, if_true]
  set new := (if f p = L - 1 then 0 else computeLambda W H (fun _ => st.lam) k p) with hnew
  -- the new length is right
  have hn0 : f p < L → new = 0 := by
    intro h'
    rw [hnew, if_pos (by omega)]
  have hnr : (∀ q, inWH W H q = true → LamAll W H k f (L - 1) lam0 q) → ∀ n, n < new ↔ L ≤ f p ∧ (n = 0 ∨ ∃ q, LamRel k q p ∧ inWH W H q = true ∧ n - 1 < st.lam q) := by
    intro hok n
    rw [hnew]
    split
    · constructor
      · intro h'; omega
      · rintro ⟨h', _⟩; omega
    · rw [computeLambda_spec]
      have : L ≤ f p := by omega
      simp [this]
  have hself : ∀ q, LamRel k q p → q ≠ p := by
    rintro q hq rfl
    exact absurd (turn_lt (W := W) (H := H) hk hq) (lt_irrefl _)
  -- the state with the new length
  have hgood : ∀ lam' : Int × Int → Nat, (∀ q, q ≠ p → lam' q = st.lam q) → lam' p = new → ∀ a, inWH W H a = true →
      turnQ W H k a < s ∨ turnQ W H k a = s ∧ encQ W H k a ∉ rest →
      (f a < L → lam' a = 0) ∧ ((∀ q, inWH W H q = true → LamAll W H k f (L - 1) lam0 q) → LamAll W H k f L lam' a) := by
    intro lam' h1 h2
    have hlow : ∀ a, inWH W H a = true → turnQ W H k a < s →
        (f a < L → lam' a = 0) ∧ ((∀ q, inWH W H q = true → LamAll W H k f (L - 1) lam0 q) → LamAll W H k f L lam' a) := by
      intro a ha hta
      have hne : a ≠ p := by rintro rfl; omega
      obtain ⟨g1, g2⟩ := h.good a ha (.inl hta)
      refine ⟨fun h' => by rw [h1 a hne]; exact g1 h', fun hok n => ?_⟩
      have := g2 hok n
      dsimp only at this ⊢
      rw [h1 a hne]
      exact this
    intro a ha hta
    rcases hta with hta | ⟨hta, hne⟩
    · exact hlow a ha hta
    by_cases hap : a = p
    · subst hap
      refine ⟨fun h' => by rw [h2]; exact hn0 h', fun hok => ?_⟩
      rw [lamAll_iff ha fun q hq hin => (hlow q hin (hpred q hq hin)).2 hok]
      intro n
      rw [h2, hnr hok]
      refine and_congr Iff.rfl (or_congr Iff.rfl (exists_congr fun q => and_congr_right fun hq => ?_))
      rw [h1 q (hself q hq)]
    · have hnl : encQ W H k a ∉ l :: rest := by
        rw [List.mem_cons]
        rintro (h' | h')
        · exact hap (enc_inj hk (by rw [(turnQ_eq_iff ..).mp hta, (turnQ_eq_iff ..).mp ht]) (h'.trans he.symm))
        · exact hne h'
      obtain ⟨g1, g2⟩ := h.good a ha (.inr ⟨hta, hnl⟩)
      refine ⟨fun h' => by rw [h1 a hap]; exact g1 h', fun hok n => ?_⟩
      have := g2 hok n
      dsimp only at this ⊢
      rw [h1 a hap]
      exact this
  by_cases hc : new ≠ st.lam p
  · rw [if_pos hc]
    obtain ⟨st', e1, e2, e3, e4⟩ := pushDeps_spec (W := W) (H := H) hk ((depOffs k).map fun o => (p.1 + o.1, p.2 + o.2))
      { st with lam := Function.update st.lam p new }
    dsimp only at e2 e3 e4
    have hlam : ∀ a, a ≠ p → st'.lam a = st.lam a := fun a ha => by rw [e2, Function.update_of_ne ha]
    refine ⟨st', e1, ⟨hgood st'.lam hlam (by rw [e2, Function.update_self]), ?_, fun l' hl' => h.inRest l' (List.mem_cons_of_mem _ hl'), ?_, ?_, ?_, ?_, ?_⟩⟩
    · intro a ha hta
      rw [hlam a (by rintro rfl; omega)]
      exact h.later a ha hta
    · intro r l' hl'
      rcases (e4 r l').mp hl' with h' | ⟨a, a1, a2, a3, a4, a5⟩
      · exact h.inQ r l' h'
      · refine ⟨a, a2, ?_, a4, a5, ?_⟩
        · rw [← ht]
          exact turn_lt hk ((dep_iff hk a p).mp a1)
        · by_contra h'
          rw [h.low a a2 (by omega)] at a3
          cases a3
    · exact fun a ha hta hfa => (e4 _ _).mpr (.inl (h.gone a ha hta hfa))
    · intro a ha hta hfa hpu
      rcases (e3 a).mp hpu with h' | ⟨h', _⟩
      · exact (e4 _ _).mpr (.inl (h.flag a ha hta hfa h'))
      · by_cases hb : st.push a = true
        · exact (e4 _ _).mpr (.inl (h.flag a ha hta hfa hb))
        · exact (e4 _ _).mpr (.inr ⟨a, h', ha, Bool.eq_false_iff.mpr hb, rfl, rfl⟩)
    · intro a ha hta hfa hnq q hq hin
      have hnq' : encQ W H k a ∉ st.q (rankQ W H k a) := fun h' => hnq ((e4 _ _).mpr (.inl h'))
      have hqp : q ≠ p := by
        rintro rfl
        refine hnq ((e4 _ _).mpr (.inr ⟨a, (dep_iff hk a q).mpr hq, ha, ?_, rfl, rfl⟩))
        by_contra hb
        exact hnq' (h.flag a ha hta hfa (by simpa using hb))
      rw [hlam q hqp]
      exact h.same a ha hta hfa hnq' q hq hin
    · exact fun a ha hfa => (e3 a).mpr (.inl (h.low a ha hfa))
  · rw [if_neg hc]
    have hc : st.lam p = new := by
      by_contra h'
      exact hc fun h'' => h' h''.symm
    exact ⟨st, rfl, hgood st.lam (fun _ _ => rfl) hc, h.later, fun l' hl' => h.inRest l' (List.mem_cons_of_mem _ hl'), h.inQ, h.gone, h.flag, h.same, h.low⟩

theorem UpdInv.popAll {W H k : Nat} (hk : k < 8) {f : Int × Int → Int} {L : Int} {lam0 : Int × Int → Nat} {s : Int} (ls : List Int) : ∀ {st : DirSt},
    UpdInv W H k f L lam0 s ls st → ∃ st', ls.foldlM (popOne W H k f L (rankAt W H k s)) st = some st' ∧ UpdInv W H k f L lam0 s [] st' := by
  induction ls with
  | nil => exact fun {st} h => ⟨st, rfl, h⟩
  | cons l ls ih =>
    intro st h
    obtain ⟨st1, e1, h1⟩ := h.pop hk
    obtain ⟨st2, e2, h2⟩ := ih h1
    exact ⟨st2, by rw [List.foldlM_cons, e1]; exact e2, h2⟩

/-- The queue of the turn `s + 1` is taken. -/
theorem UpdInv.take {W H k : Nat} (hk : k < 8) {f : Int × Int → Int} {L : Int} {lam0 : Int × Int → Nat} {s : Int} {st : DirSt}
    (hw : ∀ p, inWH W H p = true → f p < L - 1 → lam0 p = 0) (h : UpdInv W H k f L lam0 s [] st) :
    UpdInv W H k f L lam0 (s + 1) (st.q (rankAt W H k (s + 1))) { st with q := Function.update st.q (rankAt W H k (s + 1)) [] } := by
  have hne : ∀ p, s + 1 < turnQ W H k p → rankQ W H k p ≠ rankAt W H k (s + 1) := by
    intro p hp he
    rw [← turnQ_eq_iff] at he
    omega
  refine ⟨?_, fun p hp ht => h.later p hp (by omega), ?_, ?_, ?_, ?_, ?_, h.low⟩
  · intro p hp ht
    dsimp only
    rcases ht with ht | ⟨ht, hnq⟩
    · exact h.good p hp (by rcases lt_or_eq_of_le (Int.lt_add_one_iff.mp ht) with h' | h'; exacts [.inl h', .inr ⟨h', by simp⟩])
    · rw [← (turnQ_eq_iff ..).mp ht] at hnq
      have hlam := h.later p hp (by omega)
      have h1 : f p ≠ L - 1 := fun h' => hnq (h.gone p hp (by omega) h')
      refine ⟨fun h' => by rw [hlam]; exact hw p hp (by omega), fun hok => ?_⟩
      have hpre : ∀ q, LamRel k q p → inWH W H q = true → LamAll W H k f L st.lam q := by
        intro q hq hin
        have := turn_lt (W := W) (H := H) hk hq
        refine (h.good q hin ?_).2 hok
        rcases lt_or_eq_of_le (show turnQ W H k q ≤ s by omega) with h' | h'
        exacts [.inl h', .inr ⟨h', by simp⟩]
      rw [lamAll_iff hp hpre]
      have h0 := (lamAll_iff hp fun q _ hin => hok q hin).mp (hok p hp)
      intro n
      rw [hlam, h0]
      by_cases hL : L ≤ f p
      · have hs := h.same p hp (by omega) hL hnq
        have : L - 1 ≤ f p := by omega
        simp only [hL, this, true_and]
        refine or_congr Iff.rfl (exists_congr fun q => and_congr_right fun hq => and_congr_right fun hin => ?_)
        rw [hs q hq hin]
      · have : ¬ L - 1 ≤ f p := by omega
        simp only [hL, this, false_and]
  · intro l hl
    obtain ⟨p, p1, p2, p3, p4, p5⟩ := h.inQ _ l hl
    exact ⟨p, p1, (turnQ_eq_iff ..).mpr p3, p4, p5⟩
  · intro r l hl
    dsimp only at hl
    by_cases hr : r = rankAt W H k (s + 1)
    · subst hr
      rw [Function.update_self] at hl
      simp at hl
    · rw [Function.update_of_ne hr] at hl
      obtain ⟨p, p1, p2, p3, p4, p5⟩ := h.inQ _ l hl
      refine ⟨p, p1, ?_, p3, p4, p5⟩
      by_contra h'
      exact hr (by rw [← p3]; exact (turnQ_eq_iff ..).mp (by omega))
  · intro p hp ht hf
    dsimp only
    rw [Function.update_of_ne (hne p ht)]
    exact h.gone p hp (by omega) hf
  · intro p hp ht hf hpu
    dsimp only
    rw [Function.update_of_ne (hne p ht)]
    exact h.flag p hp (by omega) hf hpu
  · intro p hp ht hf hnq
    dsimp only at hnq ⊢
    rw [Function.update_of_ne (hne p ht)] at hnq
    exact h.same p hp (by omega) hf hnq

theorem UpdInv.drain {W H k : Nat} (hk : k < 8) {f : Int × Int → Int} {L : Int} {lam0 : Int × Int → Nat} {s : Int} {st : DirSt}
    (hw : ∀ p, inWH W H p = true → f p < L - 1 → lam0 p = 0) (h : UpdInv W H k f L lam0 s [] st) :
    ∃ st', drainQ W H k f L (rankAt W H k (s + 1)) st = some st' ∧ UpdInv W H k f L lam0 (s + 1) [] st' := by
  obtain ⟨st', e, h'⟩ := (h.take hk hw).popAll hk
  refine ⟨st', ?_, h'⟩
  unfold drainQ
  rw [e, Option.bind_some, if_pos]
  by_contra hne
  obtain ⟨l, hl⟩ := List.exists_mem_of_ne_nil _ hne
  obtain ⟨p, p1, p2, p3, _⟩ := h'.inQ _ l hl
  have := (turnQ_eq_iff ..).mpr p3
  omega

theorem UpdInv.run {W H k : Nat} (hk : k < 8) {f : Int × Int → Int} {L : Int} {lam0 : Int × Int → Nat} {st : DirSt}
    (hw : ∀ p, inWH W H p = true → f p < L - 1 → lam0 p = 0) (h : UpdInv W H k f L lam0 (-1) [] st) (n : Nat) :
    ∃ st', (List.range n).foldlM (fun (st : DirSt) (s : Nat) => drainQ W H k f L (rankAt W H k s) st) st = some st' ∧ UpdInv W H k f L lam0 (n - 1) [] st' := by
  induction n with
  | zero => exact ⟨st, rfl, h⟩
  | succ n ih =>
    obtain ⟨st1, e1, h1⟩ := ih
    obtain ⟨st2, e2, h2⟩ := h1.drain hk hw
    rw [show (n : Int) - 1 + 1 = n by omega] at e2 h2
    refine ⟨st2, ?_, by rw [show ((n + 1 : Nat) : Int) - 1 = n by omega]; exact h2⟩
    rw [List.range_succ, List.foldlM_append, e1]
    simpa using e2

/-- The state of a direction before the update of the level `L`. -/
structure Seeded (W H k : Nat) (f : Int × Int → Int) (L : Int) (st : DirSt) : Prop where
  inQ : ∀ r l, l ∈ st.q r ↔ ∃ p, inWH W H p = true ∧ rankQ W H k p = r ∧ encQ W H k p = l ∧ f p = L - 1
  flag : ∀ p, inWH W H p = true → (st.push p = true ↔ f p < L)
  low : ∀ p, inWH W H p = true → f p < L - 1 → st.lam p = 0

/-- The state of a direction after the update of the level `L`. -/
structure Drained (W H k : Nat) (f : Int × Int → Int) (L : Int) (st : DirSt) : Prop where
  empty : ∀ r, st.q r = []
  low : ∀ p, inWH W H p = true → f p < L → st.lam p = 0

theorem updateDir_spec {W H k : Nat} (hk : k < 8) {f : Int × Int → Int} {L : Int} {st : DirSt} (h : Seeded W H k f L st) :
    ∃ st', updateDir W H k f L st = some st' ∧ Drained W H k f L st' ∧
      ((∀ p, inWH W H p = true → LamAll W H k f (L - 1) st.lam p) → ∀ p, inWH W H p = true → LamAll W H k f L st'.lam p) := by
  have h0 : UpdInv W H k f L st.lam (-1) [] st := by
    have hneg : ∀ p, inWH W H p = true → ¬ turnQ W H k p ≤ -1 := fun p hp h' => by have := turn_bounds hk hp; omega
    refine ⟨fun p hp ht => absurd (by omega) (hneg p hp), fun _ _ _ => rfl, by simp, ?_, ?_, ?_, fun _ _ _ _ _ _ _ _ => rfl, fun p hp hf => (h.flag p hp).mpr hf⟩
    · intro r l hl
      obtain ⟨p, p1, p2, p3, p4⟩ := (h.inQ r l).mp hl
      exact ⟨p, p1, by have := turn_bounds hk p1; omega, p2, p3, by omega⟩
    · exact fun p hp _ hf => (h.inQ _ _).mpr ⟨p, hp, rfl, rfl, hf⟩
    · intro p hp _ hf hpu
      have := (h.flag p hp).mp hpu
      omega
  obtain ⟨st', e, h'⟩ := h0.run hk h.low (nRank W H k).toNat
  have hall : ∀ p, inWH W H p = true → turnQ W H k p ≤ ((nRank W H k).toNat : Int) - 1 := fun p hp => by have := turn_bounds hk hp; omega
  have hg : ∀ p, inWH W H p = true → turnQ W H k p < ((nRank W H k).toNat : Int) - 1 ∨ turnQ W H k p = ((nRank W H k).toNat : Int) - 1 ∧ encQ W H k p ∉ ([] : List Int) := by
    intro p hp
    rcases lt_or_eq_of_le (hall p hp) with h' | h'
    exacts [.inl h', .inr ⟨h', by simp⟩]
  refine ⟨st', e, ⟨fun r => ?_, fun p hp => (h'.good p hp (hg p hp)).1⟩, fun hok p hp => (h'.good p hp (hg p hp)).2 hok⟩
  by_contra hne
  obtain ⟨l, hl⟩ := List.exists_mem_of_ne_nil _ hne
  obtain ⟨p, p1, p2, _⟩ := h'.inQ _ l hl
  have := hall p p1
  omega

theorem pt2_inWH {W H i : Nat} (hi : i < W * H) : inWH W H (pt2 W i) = true := by
  have hW : 0 < W := Nat.pos_of_ne_zero fun h => by simp [h] at hi
  have := Nat.mod_lt i hW
  have : i / W < H := Nat.div_lt_of_lt_mul hi
  rw [inWH_iff]
  exact ⟨Int.natCast_nonneg _, Int.ofNat_lt.mpr ‹_›, Int.natCast_nonneg _, Int.ofNat_lt.mpr ‹_›⟩

theorem pt2_surjWH {W H : Nat} {p : Int × Int} (hp : inWH W H p = true) : ∃ i < W * H, pt2 W i = p := by
  obtain ⟨j, hj, e⟩ := (goodScan_0 W H).all p hp
  exact ⟨j, hj, e⟩

theorem seedDir_spec {W H k : Nat} (hk : k < 8) {f : Int × Int → Int} {L : Int} {st : DirSt} (h : Drained W H k f L st) :
    ∃ st', seedDir W H k f L st = some st' ∧ Seeded W H k f (L + 1) st' ∧ st'.lam = st.lam := by
  have key : ∀ (ps : List (Int × Int)) (st : DirSt), (∀ p ∈ ps, inWH W H p = true) →
      ∃ st', ps.foldlM (fun (st : DirSt) p => if f p = L then pushQ W H k st p else some st) st = some st' ∧ st'.lam = st.lam ∧ st'.push = st.push ∧
        ∀ r l, l ∈ st'.q r ↔ l ∈ st.q r ∨ ∃ p ∈ ps, rankQ W H k p = r ∧ encQ W H k p = l ∧ f p = L := by
    intro ps
    induction ps with
    | nil => exact fun st _ => ⟨st, rfl, rfl, rfl, by simp⟩
    | cons a ps ih =>
      intro st hin
      rw [List.foldlM_cons]
      by_cases hf : f a = L
      · rw [if_pos hf, pushQ_some hk _ (hin a (by simp))]
        obtain ⟨st', e1, e2, e3, e4⟩ := ih { st with q := Function.update st.q (rankQ W H k a) (st.q (rankQ W H k a) ++ [encQ W H k a]) }
          fun p hp => hin p (List.mem_cons_of_mem _ hp)
        refine ⟨st', e1, e2, e3, fun r l => ?_⟩
        rw [e4]
        dsimp only
        rw [mem_update_push]
        constructor
        · rintro ((h | h) | ⟨p, p1, p2⟩)
          · exact .inl h
          · exact .inr ⟨a, by simp, h.1, h.2, hf⟩
          · exact .inr ⟨p, List.mem_cons_of_mem _ p1, p2⟩
        · rintro (h | ⟨p, p1, p2, p3, p4⟩)
          · exact .inl (.inl h)
          · rcases List.mem_cons.mp p1 with h | h
            · rw [h] at p2 p3
              exact .inl (.inr ⟨p2, p3⟩)
            · exact .inr ⟨p, h, p2, p3, p4⟩
      · rw [if_neg hf]
        obtain ⟨st', e1, e2, e3, e4⟩ := ih st fun p hp => hin p (List.mem_cons_of_mem _ hp)
        refine ⟨st', e1, e2, e3, fun r l => ?_⟩
        rw [e4]
        constructor
        · rintro (h | ⟨p, p1, p2⟩)
          · exact .inl h
          · exact .inr ⟨p, List.mem_cons_of_mem _ p1, p2⟩
        · rintro (h | ⟨p, p1, p2, p3, p4⟩)
          · exact .inl h
          · rcases List.mem_cons.mp p1 with h | h
            · rw [h] at p4
              exact absurd p4 hf
            · exact .inr ⟨p, h, p2, p3, p4⟩
  obtain ⟨st', e1, e2, e3, e4⟩ := key ((List.range (W * H)).map (pt2 W)) { st with push := fun p => decide (f p ≤ L) } (by
    intro p hp
    obtain ⟨i, hi, rfl⟩ := List.mem_map.mp hp
    exact pt2_inWH (List.mem_range.mp hi))
  refine ⟨st', e1, ⟨fun r l => ?_, fun p _ => ?_, fun p hp hf => ?_⟩, e2⟩
  · rw [e4]
    dsimp only
    rw [h.empty r]
    simp only [List.not_mem_nil, false_or, Int.add_sub_cancel]
    constructor
    · rintro ⟨p, p1, p2⟩
      obtain ⟨i, hi, rfl⟩ := List.mem_map.mp p1
      exact ⟨_, pt2_inWH (List.mem_range.mp hi), p2⟩
    · rintro ⟨p, p1, p2⟩
      obtain ⟨i, hi, rfl⟩ := pt2_surjWH p1
      exact ⟨_, List.mem_map.mpr ⟨i, List.mem_range.mpr hi, rfl⟩, p2⟩
  · rw [e3]
    dsimp only
    rw [decide_eq_true_eq]
    omega
  · rw [e2]
    exact h.low p hp (by omega)

/-! ### The first lengths -/

theorem initLam_spec {W H k : Nat} (hk : k < 6) {f : Int × Int → Int} (hf : ∀ p, 0 ≤ f p) : ∀ p, inWH W H p = true → LamAll W H k f 0 (initLam W H k) p := by
  have key : ∀ (n : Nat) (p : Int × Int), inWH W H p = true → (turnQ W H k p).toNat < n → LamAll W H k f 0 (initLam W H k) p := by
    intro n
    induction n with
    | zero => intro p _ h; omega
    | succ n ih =>
      intro p hp hn
      rw [lamAll_iff hp fun q hq hin => ih q hin (by
        have h1 := turn_lt (W := W) (H := H) (show k < 8 by omega) hq
        have h2 := turn_bounds (k := k) (show k < 8 by omega) hin
        omega)]
      intro m
      have hfp := hf p
      simp only [hfp, true_and]
      clear ih hn
      rw [inWH_iff] at hp
      obtain ⟨x, y⟩ := p
      dsimp only at hp
      constructor
      · intro hm
        by_cases h0 : m = 0
        · exact .inl h0
        refine .inr ?_
        unfold LamRel
        interval_cases k <;> simp only [initLam] at hm
        · exact ⟨(x, y - 1), ⟨(0, -1), by simp [lamOffs], by ext <;> dsimp only <;> omega⟩, by rw [inWH_iff]; dsimp only; omega, by simp only [initLam]; omega⟩
        · exact ⟨(x, y + 1), ⟨(0, 1), by simp [lamOffs], by ext <;> dsimp only; omega⟩, by rw [inWH_iff]; dsimp only; omega, by simp only [initLam]; omega⟩
        · exact ⟨(x - 1, y), ⟨(-1, 0), by simp [lamOffs], by ext <;> dsimp only <;> omega⟩, by rw [inWH_iff]; dsimp only; omega, by simp only [initLam]; omega⟩
        · exact ⟨(x + 1, y), ⟨(1, 0), by simp [lamOffs], by ext <;> dsimp only; omega⟩, by rw [inWH_iff]; dsimp only; omega, by simp only [initLam]; omega⟩
        · by_cases hx : 1 ≤ x
          · exact ⟨(x - 1, y), ⟨(-1, 0), by simp [lamOffs], by ext <;> dsimp only <;> omega⟩, by rw [inWH_iff]; dsimp only; omega, by simp only [initLam]; omega⟩
          · exact ⟨(x, y - 1), ⟨(0, -1), by simp [lamOffs], by ext <;> dsimp only <;> omega⟩, by rw [inWH_iff]; dsimp only; omega, by simp only [initLam]; omega⟩
        · by_cases hx : x + 1 < W
          · exact ⟨(x + 1, y), ⟨(1, 0), by simp [lamOffs], by ext <;> dsimp only; omega⟩, by rw [inWH_iff]; dsimp only; omega, by simp only [initLam]; omega⟩
          · exact ⟨(x, y + 1), ⟨(0, 1), by simp [lamOffs], by ext <;> dsimp only; omega⟩, by rw [inWH_iff]; dsimp only; omega, by simp only [initLam]; omega⟩
      · rintro (rfl | ⟨q, ⟨o, ho, rfl⟩, hin, hm⟩)
        · interval_cases k <;> simp only [initLam] <;> omega
        · rw [inWH_iff] at hin
          dsimp only at hin
          interval_cases k <;> simp only [lamOffs, List.mem_cons, List.not_mem_nil, or_false] at ho <;> rcases ho with rfl | rfl | rfl <;>
            simp only [initLam] at hm ⊢ <;> omega
  exact fun p hp => key _ p hp (Nat.lt_succ_self _)

/-! ### The eight directions and the levels -/

theorem eachDir_spec {g : Nat → DirSt → Option DirSt} {d : Nat → DirSt} {P : Nat → DirSt → Prop} (h : ∀ k < 8, ∃ s, g k (d k) = some s ∧ P k s) :
    ∃ d', eachDir g d = some d' ∧ ∀ k < 8, P k (d' k) := by
  have key : ∀ n ≤ 8, ∃ d' : Nat → DirSt, (List.range n).foldlM (fun d k => (g k (d k)).map (Function.update d k)) d = some d' ∧ (∀ k < n, P k (d' k)) ∧ ∀ k, n ≤ k → d' k = d k := by
    intro n
    induction n with
    | zero => exact fun _ => ⟨d, rfl, by simp, fun _ _ => rfl⟩
    | succ n ih =>
      intro hn
      obtain ⟨d1, e1, h1, h2⟩ := ih (by omega)
      obtain ⟨s, e, hs⟩ := h n (by omega)
      refine ⟨Function.update d1 n s, ?_, fun k hk => ?_, fun k hk => ?_⟩
      · rw [List.range_succ, List.foldlM_append, e1]
        simp only [Option.bind_eq_bind, Option.bind_some, List.foldlM_cons, List.foldlM_nil]
        rw [h2 n le_rfl, e]
        rfl
      · by_cases hkn : k = n
        · subst hkn
          rw [Function.update_self]
          exact hs
        · rw [Function.update_of_ne hkn]
          exact h1 k (by omega)
      · rw [Function.update_of_ne (by omega)]
        exact h2 k (by omega)
  obtain ⟨d', e, h1, _⟩ := key 8 le_rfl
  exact ⟨d', e, h1⟩

/-- The state after the turn `L` for the image `f`. -/
structure FastPOInv {u : PT} (W H len : Nat) (f : Int × Int → Int) (L : Nat) (st : (Nat → DirSt) × (Nat → Px u)) : Prop where
  seeded : ∀ k < 8, Seeded W H k f (L + 1) (st.1 k)
  lens : ∀ k < 6, ∀ p, inWH W H p = true → LamAll W H k f L (st.1 k).lam p
  out : ∀ i < W * H, ∃ j : Nat, st.2 i = u.wrap j ∧ (j = 0 ∨ (j : Int) < f (pt2 W i)) ∧
    ∀ M : Nat, M < L → ∀ o : Fin 4, o ≠ 3 → (∃ l, IsPathIn (PathStep o) (binSet W H (levelBin f (M + 1))) l ∧ pt2 W i ∈ l ∧ len ≤ l.length) → M ≤ j

theorem fastInit {u : PT} {W H len : Nat} {f : Int × Int → Int} (hf : ∀ p, 0 ≤ f p) :
    ∃ d, eachDir (fun k => seedDir W H k f 0) (fun k => ⟨initLam W H k, fun _ => false, fun _ => []⟩) = some d ∧ FastPOInv (u := u) W H len f 0 (d, fun _ => u.wrap 0) := by
  obtain ⟨d, e, h⟩ := eachDir_spec (g := fun k => seedDir W H k f 0) (d := fun k => ⟨initLam W H k, fun _ => false, fun _ => []⟩)
    (P := fun k s => Seeded W H k f (0 + 1) s ∧ s.lam = initLam W H k) (fun k hk => by
      obtain ⟨s, e, h1, h2⟩ := seedDir_spec (L := 0) hk (st := ⟨initLam W H k, fun _ => false, fun _ => []⟩) (f := f)
        ⟨fun _ => rfl, fun p _ h => absurd (hf p) (by omega)⟩
      exact ⟨s, e, h1, h2⟩)
  refine ⟨d, e, fun k hk => by simpa using (h k hk).1, fun k hk p hp => ?_, fun i _ => ⟨0, rfl, .inl rfl, fun M hM => by omega⟩⟩
  dsimp only
  rw [(h k (by omega)).2]
  exact initLam_spec hk hf p hp

theorem FastPOInv.step {u : PT} {W H len : Nat} {f : Int × Int → Int} {L : Nat} {st : (Nat → DirSt) × (Nat → Px u)} {src : (Nat → Px u) → Int × Int → Int} (hsrc : src st.2 = f)
    (h : FastPOInv W H len f L st) : ∃ st', fastLevel W H len src st (L + 1) = some st' ∧ FastPOInv W H len f (L + 1) st' := by
  obtain ⟨d1, e1, h1⟩ := eachDir_spec (g := fun k => updateDir W H k f (L + 1)) (d := st.1)
    (P := fun k s => Drained W H k f (L + 1) s ∧ (k < 6 → ∀ p, inWH W H p = true → LamAll W H k f (L + 1) s.lam p)) (fun k hk => by
      obtain ⟨s, e, k1, k2⟩ := updateDir_spec hk (h.seeded k hk)
      refine ⟨s, e, k1, fun hk6 => k2 ?_⟩
      rw [Int.add_sub_cancel]
      exact h.lens k hk6)
  obtain ⟨d2, e2, h2⟩ := eachDir_spec (g := fun k => seedDir W H k f (L + 1)) (d := d1)
    (P := fun k s => Seeded W H k f (L + 1 + 1) s ∧ s.lam = (d1 k).lam) (fun k hk => seedDir_spec hk (h1 k hk).1)
  have hL : ((L + 1 : Nat) : Int) = (L : Int) + 1 := by omega
  unfold fastLevel
  rw [hsrc, hL, e1, Option.bind_some, e2, Option.map_some]
  refine ⟨_, rfl, fun k hk => by rw [hL]; exact (h2 k hk).1, fun k hk p hp => ?_, fun i hi => ?_⟩
  · rw [hL]
    dsimp only
    rw [(h2 k (by omega)).2]
    exact (h1 k (by omega)).2 hk p hp
  · dsimp only
    have hp := pt2_inWH hi
    obtain ⟨j, j1, j2, j3⟩ := h.out i hi
    have hpair : ∀ (k k' : Nat) (o : Fin 4), k < 6 → k' < 6 → (∀ q p, LamRel k q p ↔ PathStep o q p) → (∀ q p, LamRel k' q p ↔ PathStep o p q) →
        (len < (d1 k).lam (pt2 W i) + (d1 k').lam (pt2 W i) ↔
          ∃ l, IsPathIn (PathStep o) (binSet W H (levelBin f (L + 1))) l ∧ pt2 W i ∈ l ∧ len ≤ l.length) := by
      intro k k' o hk hk' hr hr'
      exact pair_spec (lam := fun k => (d1 k).lam) k k' o ((h1 k (by omega)).2 hk _ hp) ((h1 k' (by omega)).2 hk' _ hp) hr hr' len
    have r := lamRel_step
    have g0 := hpair 0 1 0 (by omega) (by omega) (fun q p => (r q p).1) (fun q p => (r q p).2.1)
    have g1 := hpair 2 3 1 (by omega) (by omega) (fun q p => (r q p).2.2.1) (fun q p => (r q p).2.2.2.1)
    have g2 := hpair 4 5 2 (by omega) (by omega) (fun q p => (r q p).2.2.2.2.1) (fun q p => (r q p).2.2.2.2.2.1)
    by_cases hc : (d1 0).lam (pt2 W i) + (d1 1).lam (pt2 W i) > len ∨ (d1 2).lam (pt2 W i) + (d1 3).lam (pt2 W i) > len ∨
        (d1 4).lam (pt2 W i) + (d1 5).lam (pt2 W i) > len ∨ (d1 6).lam (pt2 W i) + (d1 7).lam (pt2 W i) > len
    · rw [if_pos ⟨hi, hc⟩]
      refine ⟨L, by rw [Int.add_sub_cancel], .inr ?_, fun M hM _ _ _ => by omega⟩
      by_contra hlt
      have hz : ∀ k < 8, (d1 k).lam (pt2 W i) = 0 := fun k hk => (h1 k hk).1.low _ hp (by omega)
      rw [hz 0 (by omega), hz 1 (by omega), hz 2 (by omega), hz 3 (by omega), hz 4 (by omega), hz 5 (by omega), hz 6 (by omega), hz 7 (by omega)] at hc
      omega
    · rw [if_neg fun h => hc h.2]
      refine ⟨j, j1, j2, fun M hM o ho hl => ?_⟩
      by_cases hML : M < L
      · exact j3 M hML o ho hl
      · have : M = L := by omega
        subst this
        exfalso
        refine hc ?_
        fin_cases o
        · exact .inl (g0.mpr hl)
        · exact .inr (.inl (g1.mpr hl))
        · exact .inr (.inr (.inl (g2.mpr hl)))
        · exact absurd rfl ho

theorem FastPOInv.run {u : PT} {W H len : Nat} {f : Int × Int → Int} {src : (Nat → Px u) → Int × Int → Int} (hsrc : ∀ o, src o = f) (n : Nat) :
    ∀ {L : Nat} {st : (Nat → DirSt) × (Nat → Px u)}, FastPOInv W H len f L st →
      ∃ st', (List.range' (L + 1) n).foldlM (fastLevel W H len src) st = some st' ∧ FastPOInv W H len f (L + n) st' := by
  induction n with
  | zero => exact fun {L st} h => ⟨st, rfl, h⟩
  | succ n ih =>
    intro L st h
    obtain ⟨st1, e1, h1⟩ := h.step (hsrc _)
    obtain ⟨st2, e2, h2⟩ := ih h1
    refine ⟨st2, ?_, by rw [show L + (n + 1) = L + 1 + n by omega]; exact h2⟩
    rw [List.range'_succ, List.foldlM_cons, e1]
    exact e2

/-- In place, the input is filled with zeros: all the pixels stay at zero. -/
theorem fastZero_run {u : PT} {W H len : Nat} {src : (Nat → Px u) → Int × Int → Int} {z : Nat → Px u} (hsrc : src z = fun _ => 0) (n : Nat) :
    ∀ {L : Nat} {d : Nat → DirSt}, (∀ k < 8, Seeded W H k (fun _ => 0) (L + 1) (d k)) →
      ∃ d', (List.range' (L + 1) n).foldlM (fastLevel W H len src) (d, z) = some (d', z) := by
  induction n with
  | zero => exact fun {L d} _ => ⟨d, rfl⟩
  | succ n ih =>
    intro L d h
    obtain ⟨d1, e1, h1⟩ := eachDir_spec (g := fun k => updateDir W H k (fun _ => 0) (L + 1)) (d := d)
      (P := fun k s => Drained W H k (fun _ => 0) (L + 1) s) (fun k hk => by
        obtain ⟨s, e, k1, _⟩ := updateDir_spec hk (h k hk)
        exact ⟨s, e, k1⟩)
    obtain ⟨d2, e2, h2⟩ := eachDir_spec (g := fun k => seedDir W H k (fun _ => 0) (L + 1)) (d := d1)
      (P := fun k s => Seeded W H k (fun _ => 0) (L + 1 + 1) s) (fun k hk => by
        obtain ⟨s, e, k1, _⟩ := seedDir_spec hk (h1 k hk)
        exact ⟨s, e, k1⟩)
    have hL : ((L + 1 : Nat) : Int) = (L : Int) + 1 := by omega
    have e : fastLevel W H len src (d, z) (L + 1) = some (d2, z) := by
      unfold fastLevel
      rw [hsrc, hL, e1, Option.bind_some, e2, Option.map_some]
      congr 2
      funext i
      dsimp only
      by_cases hi : i < W * H
      · have hz : ∀ k < 8, (d1 k).lam (pt2 W i) = 0 := fun k hk => (h1 k hk).low _ (pt2_inWH hi) (by omega)
        rw [hz 0 (by omega), hz 1 (by omega), hz 2 (by omega), hz 3 (by omega), hz 4 (by omega), hz 5 (by omega), hz 6 (by omega), hz 7 (by omega)]
        exact if_neg (by omega)
      · exact if_neg fun h => hi h.1
    obtain ⟨d', e'⟩ := ih (L := L + 1) (d := d2) (fun k hk => by rw [hL]; exact h2 k hk)
    refine ⟨d', ?_⟩
    rw [List.range'_succ, List.foldlM_cons, e]
    exact e'

end Smil
