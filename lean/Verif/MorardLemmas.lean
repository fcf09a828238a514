import Verif.Morard
import Mathlib.Order.Bounds.Basic
import Mathlib.Data.List.Nodup

/-! # The opening of one line -/

namespace Smil
variable {α : Type} [LinearOrder α]

/-- `v` is the greatest level such that some run of at least `size` pixels (or the whole line) around pixel `i` is above
it. -/
def SegOpen (g : Nat → α) (n : Nat) (size : Int) (i : Nat) (v : α) : Prop :=
  IsGreatest { u | ∃ a c, a ≤ i ∧ i ≤ c ∧ c < n ∧ (size ≤ (c : Int) + 1 - a ∨ (a = 0 ∧ c + 1 = n)) ∧
    ∀ m, a ≤ m → m ≤ c → u ≤ g m } v

/-- The first `k` nodes of the stack, when the pixels before `wp` are treated. -/
structure MorPre (size : Int) (g : Nat → α) (wp : Nat) (stk : Nat → MNode α) (k : Nat) : Prop where
  starts : ∀ j, j + 1 < k → (stk j).start < (stk (j + 1)).start
  last : (stk (k - 1)).start < wp
  vals : ∀ j, j + 1 < k → (stk j).val < (stk (j + 1)).val
  low : ∀ j < k, ∀ m, (stk j).start ≤ m → m < wp → (stk j).val ≤ g m
  zend : ∀ j, j + 1 < k → g ((stk (j + 1)).start - 1) = (stk j).val
  np : ∀ j, 0 < j → j < k → (stk j).passed = false
  base : (stk 0).passed = false → (stk 0).start = 0
  pass : (stk 0).passed = true → g (stk 0).start = (stk 0).val ∧ ∃ a, a ≤ (stk 0).start ∧
    size ≤ ((stk 0).start : Int) - a ∧ ∀ m, a ≤ m → m < wp → (stk 0).val ≤ g m
  att : ∃ m, (stk 0).start ≤ m ∧ m < wp ∧ g m = (stk 0).val
  short : ∀ j < k, ∀ a c i, a ≤ i → i ≤ c → c < wp → (stk j).start ≤ i → (j + 1 < k → i < (stk (j + 1)).start) →
    (∀ m, a ≤ m → m ≤ c → (stk j).val < g m) → (c : Int) + 1 - a < size

theorem MorPre.start_le {size : Int} {g : Nat → α} {wp : Nat} {stk : Nat → MNode α} {k : Nat} (h : MorPre size g wp stk k) :
    ∀ j j', j ≤ j' → j' < k → (stk j).start + (j' - j) ≤ (stk j').start := by
  intro j j' hjj
  induction j', hjj using Nat.le_induction with
  | base => intro _; omega
  | succ m hm ih =>
    intro hk
    have h1 := ih (by omega)
    have h2 := h.starts m hk
    omega

theorem MorPre.val_le {size : Int} {g : Nat → α} {wp : Nat} {stk : Nat → MNode α} {k : Nat} (h : MorPre size g wp stk k) :
    ∀ j j', j ≤ j' → j' < k → (stk j).val ≤ (stk j').val := by
  intro j j' hjj
  induction j', hjj using Nat.le_induction with
  | base => intro _; exact le_rfl
  | succ m hm ih =>
    intro hk
    exact (ih (by omega)).trans (h.vals m hk).le

/-- Every pixel from the start of the first node on belongs to a node. -/
theorem MorPre.zone {size : Int} {g : Nat → α} {wp : Nat} {stk : Nat → MNode α} {k : Nat} (_h : MorPre size g wp stk k)
    (hk : 0 < k) (i : Nat) (hi : (stk 0).start ≤ i) :
    ∃ j < k, (stk j).start ≤ i ∧ (j + 1 < k → i < (stk (j + 1)).start) := by
  by_contra hc
  push Not at hc
  have : ∀ j < k, (stk j).start ≤ i := by
    intro j
    induction j with
    | zero => intro _; exact hi
    | succ j ih =>
      intro hj
      exact (hc j (by omega) (ih (by omega))).2
  have h1 := hc (k - 1) (by omega) (this (k - 1) (by omega))
  omega

/-- The last node is removed: it is too short. -/
theorem MorPre.pop {size : Int} {g : Nat → α} {wp : Nat} {stk : Nat → MNode α} {k : Nat}
    (h : MorPre size g wp stk (k + 2)) (hs : (wp : Int) - (stk (k + 1)).start < size) : MorPre size g wp stk (k + 1) := by
  have hst := h.starts k (by omega)
  have hlast := h.last
  rw [show k + 2 - 1 = k + 1 by omega] at hlast
  refine ⟨fun j hj => h.starts j (by omega), ?_, fun j hj => h.vals j (by omega), fun j hj => h.low j (by omega),
    fun j hj => h.zend j (by omega), fun j h1 h2 => h.np j h1 (by omega), h.base, h.pass, h.att, ?_⟩
  · rw [show k + 1 - 1 = k by omega]
    omega
  · intro j hj a c i h1 h2 h3 h4 h5 h6
    by_cases hjk : j + 1 < k + 1
    · exact h.short j (by omega) a c i h1 h2 h3 h4 (fun _ => h5 hjk) h6
    · have hjk' : j = k := by omega
      subst hjk'
      by_cases hi : i < (stk (j + 1)).start
      · exact h.short j (by omega) a c i h1 h2 h3 h4 (fun _ => hi) h6
      · by_cases ha : a < (stk (j + 1)).start
        · have := h6 ((stk (j + 1)).start - 1) (by omega) (by omega)
          rw [h.zend j (by omega)] at this
          exact absurd this (lt_irrefl _)
        · omega

/-- The values written when a node is long enough. -/
theorem MorPre.flush {size : Int} {g : Nat → α} {wp n : Nat} {stk : Nat → MNode α} {k : Nat}
    (h : MorPre size g wp stk (k + 1)) (hn : wp ≤ n)
    (hp : (stk k).passed = true ∨ size ≤ (wp : Int) - (stk k).start) (hF : wp < n → g wp < (stk k).val)
    (j i : Nat) (hj : j < k + 1) (hi1 : (stk j).start ≤ i) (hi2 : j + 1 < k + 1 → i < (stk (j + 1)).start) (hi3 : i < wp) :
    SegOpen g n size i (stk j).val := by
  constructor
  · -- a long run
    have hrun : (∃ a, a ≤ (stk j).start ∧ size ≤ (wp : Int) - a ∧ ∀ m, a ≤ m → m < wp → (stk j).val ≤ g m) := by
      rcases hp with hp | hp
      · have hk0 : k = 0 := by
          by_contra hk
          have := h.np k (by omega) (by omega)
          rw [this] at hp
          exact Bool.noConfusion hp
        subst hk0
        have hj0 : j = 0 := by omega
        subst hj0
        obtain ⟨-, a, h1, h2, h3⟩ := h.pass hp
        exact ⟨a, h1, by omega, h3⟩
      · have := h.start_le j k (by omega) (by omega)
        exact ⟨(stk j).start, le_rfl, by omega, fun m h1 h2 => h.low j hj m h1 h2⟩
    obtain ⟨a, h1, h2, h3⟩ := hrun
    exact ⟨a, wp - 1, by omega, by omega, by omega, .inl (by omega), fun m h4 h5 => h3 m h4 (by omega)⟩
  · rintro u ⟨a, c, h1, h2, h3, h4, h5⟩
    by_contra hlt
    have hlt' : (stk j).val < u := lt_of_not_ge hlt
    by_cases hc : c < wp
    · have hs := h.short j hj a c i h1 h2 hc hi1 hi2 fun m h6 h7 => lt_of_lt_of_le hlt' (h5 m h6 h7)
      rcases h4 with h4 | ⟨h4, h4'⟩
      · omega
      · -- the whole line
        have hwn : wp = n := by omega
        subst h4
        rcases hp with hp | hp
        · have hk0 : k = 0 := by
            by_contra hk
            have := h.np k (by omega) (by omega)
            rw [this] at hp
            exact Bool.noConfusion hp
          subst hk0
          obtain ⟨-, a, g1, g2, g3⟩ := h.pass hp
          have := h.last
          simp only [Nat.zero_add, Nat.sub_self] at this
          omega
        · omega
    · -- the run contains the next pixel
      have hk := h5 wp (by omega) (by omega)
      by_cases hjk : j + 1 < k + 1
      · have h6 := h.start_le (j + 1) k (by omega) (by omega)
        have h7 := h.last
        rw [Nat.add_sub_cancel] at h7
        have h8 := hi2 hjk
        have := h5 ((stk (j + 1)).start - 1) (by omega) (by omega)
        rw [h.zend j hjk] at this
        exact hlt this
      · have : j = k := by omega
        subst this
        exact absurd (hk.trans_lt (hF (by omega))) (not_lt.2 hlt'.le)

/-- The values written at the end of a line when no node is long enough. -/
theorem MorPre.rest {size : Int} {g : Nat → α} {wp : Nat} {stk : Nat → MNode α}
    (h : MorPre size g wp stk 1) (hs : (wp : Int) - (stk 0).start < size) (i : Nat) (hi1 : (stk 0).start ≤ i) (hi3 : i < wp) :
    SegOpen g wp size i (stk 0).val := by
  by_cases hp : (stk 0).passed = true
  · exact h.flush (k := 0) le_rfl (.inl hp) (fun hh => absurd hh (lt_irrefl _)) 0 i (by omega) hi1 (by omega) hi3
  · have h0 := h.base (by simpa using hp)
    constructor
    · exact ⟨0, wp - 1, by omega, by omega, by omega, .inr ⟨rfl, by omega⟩, fun m _ h5 => h.low 0 (by omega) m (by omega) (by omega)⟩
    · rintro u ⟨a, c, h1, h2, h3, h4, h5⟩
      rcases h4 with h4 | ⟨h4, h4'⟩
      · omega
      · obtain ⟨m, g1, g2, g3⟩ := h.att
        rw [← g3]
        exact h5 m (by omega) (by omega)

/-- The state between two pixels. -/
structure MorInv (size : Int) (g : Nat → α) (wp : Nat) (stk : Nat → MNode α) (k : Nat) : Prop where
  pre : MorPre size g wp stk k
  pos : 0 < k
  top : g (wp - 1) = (stk (k - 1)).val

theorem MorInv.first (size : Int) (g : Nat → α) (stk : Nat → MNode α) (h : stk 0 = ⟨0, false, g 0⟩) :
    MorInv size g 1 stk 1 := by
  refine ⟨⟨fun j hj => absurd hj (by omega), ?_, fun j hj => absurd hj (by omega), ?_, fun j hj => absurd hj (by omega),
    fun j h1 h2 => absurd h2 (by omega), fun _ => by rw [h], fun hp => ?_, ⟨0, by rw [h], by omega, by rw [h]⟩, ?_⟩,
    by omega, ?_⟩
  · simp [h]
  · intro j hj m h1 h2
    have : j = 0 := by omega
    subst this
    have : m = 0 := by omega
    subst this
    rw [h]
  · rw [h] at hp
    exact Bool.noConfusion hp
  · intro j hj a c i h1 h2 h3 h4 h5 h6
    have : j = 0 := by omega
    subst this
    have hi := h6 0 (by omega) (by omega)
    rw [h] at hi
    exact absurd hi (lt_irrefl _)
  · simp [h]

/-- A rising pixel. -/
theorem MorInv.push {size : Int} {g : Nat → α} {wp : Nat} {stk : Nat → MNode α} {k : Nat} (h : MorInv size g wp stk k)
    (hF : (stk (k - 1)).val < g wp) :
    MorInv size g (wp + 1) (Function.update stk k ⟨wp, false, g wp⟩) (k + 1) := by
  have hp := h.pos
  have hlast := h.pre.last
  have ne : ∀ j < k, Function.update stk k ⟨wp, false, g wp⟩ j = stk j := fun j hj =>
    Function.update_of_ne (by omega) _ _
  have se : Function.update stk k ⟨wp, false, g wp⟩ k = ⟨wp, false, g wp⟩ := Function.update_self _ _ _
  refine ⟨⟨?_, ?_, ?_, ?_, ?_, ?_, ?_, ?_, ?_, ?_⟩, by omega, ?_⟩
  · intro j hj
    by_cases hjk : j + 1 < k
    · rw [ne j (by omega), ne (j + 1) hjk]; exact h.pre.starts j hjk
    · have : j + 1 = k := by omega
      rw [ne j (by omega), this, se, show j = k - 1 by omega]
      exact hlast
  · rw [Nat.add_sub_cancel, se]
    exact Nat.lt_succ_self _
  · intro j hj
    by_cases hjk : j + 1 < k
    · rw [ne j (by omega), ne (j + 1) hjk]; exact h.pre.vals j hjk
    · have : j + 1 = k := by omega
      rw [ne j (by omega), this, se, show j = k - 1 by omega]
      exact hF
  · intro j hj m h1 h2
    by_cases hjk : j < k
    · rw [ne j hjk] at h1 ⊢
      by_cases hm : m < wp
      · exact h.pre.low j hjk m h1 hm
      · rw [show m = wp by omega]
        exact ((h.pre.val_le j (k - 1) (by omega) (by omega)).trans_lt hF).le
    · have : j = k := by omega
      rw [this, se] at h1 ⊢
      rw [show m = wp by simp only at h1; omega]
  · intro j hj
    by_cases hjk : j + 1 < k
    · rw [ne j (by omega), ne (j + 1) hjk]; exact h.pre.zend j hjk
    · have : j + 1 = k := by omega
      rw [ne j (by omega), this, se, show j = k - 1 by omega]
      exact h.top
  · intro j h1 h2
    by_cases hjk : j < k
    · rw [ne j hjk]; exact h.pre.np j h1 hjk
    · rw [show j = k by omega, se]
  · rw [ne 0 hp]; exact h.pre.base
  · rw [ne 0 hp]
    intro hpa
    obtain ⟨h1, a, h2, h3, h4⟩ := h.pre.pass hpa
    refine ⟨h1, a, h2, h3, fun m h5 h6 => ?_⟩
    by_cases hm : m < wp
    · exact h4 m h5 hm
    · rw [show m = wp by omega]
      exact ((h.pre.val_le 0 (k - 1) (by omega) (by omega)).trans_lt hF).le
  · rw [ne 0 hp]
    obtain ⟨m, h1, h2, h3⟩ := h.pre.att
    exact ⟨m, h1, by omega, h3⟩
  · intro j hj a c i h1 h2 h3 h4 h5 h6
    by_cases hjk : j < k
    · rw [ne j hjk] at h4 h6
      by_cases hj1 : j + 1 < k
      · have h5' := h5 (by omega)
        rw [ne (j + 1) hj1] at h5'
        have hsl := h.pre.start_le (j + 1) (k - 1) (by omega) (by omega)
        by_cases hc : c < wp
        · exact h.pre.short j hjk a c i h1 h2 hc h4 (fun _ => h5') h6
        · have := h6 ((stk (j + 1)).start - 1) (by omega) (by omega)
          rw [h.pre.zend j hj1] at this
          exact absurd this (lt_irrefl _)
      · have hjj : j = k - 1 := by omega
        have h5' := h5 (by omega)
        rw [show j + 1 = k by omega, se] at h5'
        simp only at h5'
        by_cases hc : c < wp
        · exact h.pre.short j hjk a c i h1 h2 hc h4 (fun hh => absurd hh hj1) h6
        · have := h6 (wp - 1) (by omega) (by omega)
          rw [h.top, hjj] at this
          exact absurd this (lt_irrefl _)
    · have hjj : j = k := by omega
      rw [hjj, se] at h4 h6
      simp only at h4 h6
      have := h6 wp (by omega) (by omega)
      exact absurd this (lt_irrefl _)
  · rw [Nat.add_sub_cancel, Nat.add_sub_cancel, se]

/-- A pixel with the value of the last node. -/
theorem MorPre.extend {size : Int} {g : Nat → α} {wp : Nat} {stk : Nat → MNode α} {k : Nat}
    (h : MorPre size g wp stk (k + 1)) (hF : g wp = (stk k).val) : MorInv size g (wp + 1) stk (k + 1) := by
  have hlast := h.last
  rw [Nat.add_sub_cancel] at hlast
  refine ⟨⟨h.starts, ?_, h.vals, ?_, h.zend, h.np, h.base, ?_, ?_, ?_⟩, by omega, ?_⟩
  · rw [Nat.add_sub_cancel]; omega
  · intro j hj m h1 h2
    by_cases hm : m < wp
    · exact h.low j hj m h1 hm
    · rw [show m = wp by omega, hF]
      exact h.val_le j k (by omega) (by omega)
  · intro hpa
    obtain ⟨h1, a, h2, h3, h4⟩ := h.pass hpa
    refine ⟨h1, a, h2, h3, fun m h5 h6 => ?_⟩
    by_cases hm : m < wp
    · exact h4 m h5 hm
    · rw [show m = wp by omega, hF]
      exact h.val_le 0 k (by omega) (by omega)
  · obtain ⟨m, h1, h2, h3⟩ := h.att
    exact ⟨m, h1, by omega, h3⟩
  · intro j hj a c i h1 h2 h3 h4 h5 h6
    by_cases hc : c < wp
    · exact h.short j hj a c i h1 h2 hc h4 h5 h6
    · have h7 := h6 wp (by omega) (by omega)
      by_cases hjk : j + 1 < k + 1
      · have hsl := h.start_le (j + 1) k (by omega) (by omega)
        have h5' := h5 hjk
        have := h6 ((stk (j + 1)).start - 1) (by omega) (by omega)
        rw [h.zend j hjk] at this
        exact absurd this (lt_irrefl _)
      · rw [show j = k by omega, hF] at h7
        exact absurd h7 (lt_irrefl _)
  · rw [Nat.add_sub_cancel, Nat.add_sub_cancel, hF]

/-- The last node takes a lower value. -/
theorem MorPre.replace {size : Int} {g : Nat → α} {wp : Nat} {stk : Nat → MNode α} {k : Nat}
    (h : MorPre size g wp stk (k + 1)) (hF : g wp < (stk k).val) (hp : (stk k).passed = false)
    (hs : (wp : Int) - (stk k).start < size) (hk : k = 0 ∨ (stk (k - 1)).val < g wp) :
    MorInv size g (wp + 1) (Function.update stk k ⟨(stk k).start, (stk k).passed, g wp⟩) (k + 1) := by
  have hlast := h.last
  rw [Nat.add_sub_cancel] at hlast
  have ne : ∀ j < k, Function.update stk k ⟨(stk k).start, (stk k).passed, g wp⟩ j = stk j := fun j hj =>
    Function.update_of_ne (by omega) _ _
  have se : Function.update stk k ⟨(stk k).start, (stk k).passed, g wp⟩ k = ⟨(stk k).start, (stk k).passed, g wp⟩ :=
    Function.update_self _ _ _
  generalize hu : Function.update stk k ⟨(stk k).start, (stk k).passed, g wp⟩ = stk' at ne se
  have st : ∀ j ≤ k, (stk' j).start = (stk j).start := by
    intro j hj
    by_cases hjk : j < k
    · rw [ne j hjk]
    · rw [show j = k by omega, se]
  have pa : ∀ j ≤ k, (stk' j).passed = (stk j).passed := by
    intro j hj
    by_cases hjk : j < k
    · rw [ne j hjk]
    · rw [show j = k by omega, se]
  have vk : (stk' k).val = g wp := by rw [se]
  refine ⟨⟨?_, ?_, ?_, ?_, ?_, ?_, ?_, ?_, ?_, ?_⟩, by omega, ?_⟩
  · intro j hj
    rw [st j (by omega), st (j + 1) (by omega)]; exact h.starts j hj
  · rw [Nat.add_sub_cancel, st k le_rfl]; omega
  · intro j hj
    by_cases hjk : j + 1 < k
    · rw [ne j (by omega), ne (j + 1) hjk]; exact h.vals j hj
    · have hj1 : j + 1 = k := by omega
      rw [ne j (by omega), hj1, vk]
      rcases hk with hk | hk
      · omega
      · rw [show j = k - 1 by omega]; exact hk
  · intro j hj m h1 h2
    rw [st j (by omega)] at h1
    by_cases hjk : j < k
    · rw [ne j hjk]
      by_cases hm : m < wp
      · exact h.low j hj m h1 hm
      · rw [show m = wp by omega]
        rcases hk with hk | hk
        · omega
        · exact (h.val_le j (k - 1) (by omega) (by omega)).trans hk.le
    · rw [show j = k by omega, vk]
      by_cases hm : m < wp
      · rw [show j = k by omega] at h1
        exact hF.le.trans (h.low k (by omega) m h1 hm)
      · rw [show m = wp by omega]
  · intro j hj
    rw [st (j + 1) (by omega), ne j (by omega)]; exact h.zend j hj
  · intro j h1 h2
    rw [pa j (by omega)]; exact h.np j h1 h2
  · rw [pa 0 (by omega), st 0 (by omega)]; exact h.base
  · intro hpa
    rw [pa 0 (by omega)] at hpa
    have hk0 : 0 < k := by
      by_contra hk0
      rw [show k = 0 by omega, hpa] at hp
      exact Bool.noConfusion hp
    obtain ⟨h1, a, h2, h3, h4⟩ := h.pass hpa
    rw [ne 0 hk0]
    refine ⟨h1, a, h2, h3, fun m h5 h6 => ?_⟩
    by_cases hm : m < wp
    · exact h4 m h5 hm
    · rw [show m = wp by omega]
      rcases hk with hk | hk
      · omega
      · exact (h.val_le 0 (k - 1) (by omega) (by omega)).trans hk.le
  · by_cases hk0 : 0 < k
    · rw [ne 0 hk0]
      obtain ⟨m, h1, h2, h3⟩ := h.att
      exact ⟨m, h1, by omega, h3⟩
    · have hk0' : k = 0 := by omega
      subst hk0'
      exact ⟨wp, by rw [st 0 le_rfl]; omega, by omega, vk.symm⟩
  · intro j hj a c i h1 h2 h3 h4 h5 h6
    by_cases hjk : j < k
    · have h5' := h5 (by omega)
      rw [st (j + 1) (by omega)] at h5'
      rw [st j (by omega)] at h4
      rw [ne j hjk] at h6
      have hsl := h.start_le (j + 1) k (by omega) (by omega)
      by_cases hc : c < wp
      · exact h.short j (by omega) a c i h1 h2 hc h4 (fun _ => h5') h6
      · have := h6 ((stk (j + 1)).start - 1) (by omega) (by omega)
        rw [h.zend j (by omega)] at this
        exact absurd this (lt_irrefl _)
    · have hjj : j = k := by omega
      subst hjj
      rw [st j le_rfl] at h4
      rw [vk] at h6
      by_cases hc : c < wp
      · by_cases ha : a < (stk j).start
        · exfalso
          have hj0 : 0 < j := by
            by_contra hj0
            rw [show j = 0 by omega] at ha hp
            have := h.base hp
            omega
          have h7 := h6 ((stk j).start - 1) (by omega) (by omega)
          have h8 := h.zend (j - 1) (by omega)
          rw [show j - 1 + 1 = j by omega] at h8
          rw [h8] at h7
          rcases hk with hk | hk
          · omega
          · exact lt_asymm h7 hk
        · omega
      · have := h6 wp (by omega) (by omega)
        exact absurd this (lt_irrefl _)
  · rw [Nat.add_sub_cancel, Nat.add_sub_cancel, vk]

/-- A node was long enough: the stack starts again. -/
theorem MorPre.restart {size : Int} {g : Nat → α} {wp : Nat} {stk : Nat → MNode α} {k : Nat}
    (h : MorPre size g wp stk (k + 1)) (hF : g wp < (stk k).val)
    (hp : (stk k).passed = true ∨ size ≤ (wp : Int) - (stk k).start) (stk' : Nat → MNode α)
    (h' : stk' 0 = ⟨wp, true, g wp⟩) : MorInv size g (wp + 1) stk' 1 := by
  have hlast := h.last
  rw [Nat.add_sub_cancel] at hlast
  refine ⟨⟨fun j hj => absurd hj (by omega), ?_, fun j hj => absurd hj (by omega), ?_, fun j hj => absurd hj (by omega),
    fun j h1 h2 => absurd h2 (by omega), ?_, ?_, ⟨wp, by rw [h'], by omega, by rw [h']⟩, ?_⟩, by omega, ?_⟩
  · rw [Nat.sub_self, h']; exact Nat.lt_succ_self _
  · intro j hj m h1 h2
    have : j = 0 := by omega
    subst this
    rw [h'] at h1 ⊢
    rw [show m = wp by simp only at h1; omega]
  · intro hpa
    rw [h'] at hpa
    exact Bool.noConfusion hpa
  · intro _
    rw [h']
    refine ⟨rfl, ?_⟩
    rcases hp with hp | hp
    · have hk0 : k = 0 := by
        by_contra hk
        have := h.np k (by omega) (by omega)
        rw [this] at hp
        exact Bool.noConfusion hp
      subst hk0
      obtain ⟨h1, a, h2, h3, h4⟩ := h.pass hp
      refine ⟨a, by simp only; omega, by simp only; omega, fun m h5 h6 => ?_⟩
      by_cases hm : m < wp
      · exact hF.le.trans (h4 m h5 hm)
      · rw [show m = wp by omega]
    · refine ⟨(stk k).start, hlast.le, hp, fun m h5 h6 => ?_⟩
      by_cases hm : m < wp
      · exact hF.le.trans (h.low k (by omega) m h5 hm)
      · rw [show m = wp by omega]
  · intro j hj a c i h1 h2 h3 h4 h5 h6
    have : j = 0 := by omega
    subst this
    rw [h'] at h4 h6
    simp only at h4 h6
    have := h6 wp (by omega) (by omega)
    exact absurd this (lt_irrefl _)
  · rw [Nat.add_sub_cancel, Nat.sub_self, h']

end Smil
