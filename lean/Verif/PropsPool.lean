import Verif.Pool

/-! # C05: buffer pool, C60: freezer -/

namespace Smil
namespace Pool

/-- The available and the held buffers are the created ones, all alive. -/
structure OK (p : Pool) : Prop where
  perm : (p.available ++ p.out).Perm p.buffers
  nodup : p.buffers.Nodup
  live : ∀ b, p.live b = true ↔ b ∈ p.buffers
  fresh : ∀ b ∈ p.buffers, b < p.next

theorem OK.init (m : Option Nat) : (Pool.init m).OK :=
  ⟨by simp [Pool.init], by simp [Pool.init], by simp [Pool.init], by simp [Pool.init]⟩

theorem OK.takeTop {p p' : Pool} (h : p.OK) (e : p.takeTop = .ok p') :
    p'.OK ∧ ∃ b, p.available = b :: p'.available ∧ p'.out = b :: p.out ∧ b ∉ p.out ∧
      p'.live b = true ∧ p'.buffers = p.buffers := by
  unfold Pool.takeTop at e
  cases ha : p.available with
  | nil => rw [ha] at e; exact absurd e (by simp)
  | cons b bs =>
      rw [ha] at e
      obtain rfl := PoolRes.ok.inj e
      have hp := h.perm
      rw [ha] at hp
      have hnd : (b :: bs ++ p.out).Nodup := hp.nodup_iff.mpr h.nodup
      refine ⟨⟨?_, h.nodup, h.live, h.fresh⟩, b, rfl, rfl, ?_, ?_, rfl⟩
      · exact List.perm_middle.trans (by simpa using hp)
      · intro hb
        simp only [List.cons_append, List.nodup_cons, List.mem_append] at hnd
        exact hnd.1 (Or.inr hb)
      · exact (h.live b).mpr (hp.mem_iff.mp (by simp))

theorem OK.create {p p' : Pool} (h : p.OK) (e : p.createBuffer = some p') :
    p'.OK ∧ p'.out = p.out ∧ p'.available ≠ [] ∧ (∀ b ∈ p.buffers, p'.live b = true) := by
  unfold createBuffer at e
  split_ifs at e
  obtain rfl := Option.some.inj e
  have hn : p.next ∉ p.buffers := fun hb => absurd (h.fresh _ hb) (by omega)
  refine ⟨⟨?_, ?_, ?_, ?_⟩, rfl, by simp, ?_⟩
  · simp only [List.cons_append]
    exact (h.perm.cons p.next).trans (List.perm_append_singleton p.next p.buffers).symm
  · simp only
    rw [List.nodup_append]
    refine ⟨h.nodup, by simp, ?_⟩
    intro a ha b hb
    simp only [List.mem_singleton] at hb
    rintro rfl
    exact hn (hb ▸ ha)
  · intro b
    by_cases hb : b = p.next
    · simp [hb]
    · simp [hb, h.live b]
  · intro b hb
    simp only [List.mem_append, List.mem_singleton] at hb
    rcases hb with hb | rfl
    · have := h.fresh b hb; simp only; omega
    · simp
  · intro b hb
    have : b ≠ p.next := by rintro rfl; exact hn hb
    simp [this, (h.live b).mpr hb]

theorem OK.call {p p' : Pool} (h : p.OK) (c : Call) (e : p.call c = .ok p') : p'.OK := by
  cases c with
  | get =>
      simp only [Pool.call, getBuffer] at e
      split_ifs at e with h1
      · cases hc : p.createBuffer with
        | none => rw [hc] at e; exact absurd e (by simp)
        | some p1 => rw [hc] at e; exact ((h.create hc).1.takeTop e).1
      · exact (h.takeTop e).1
  | release b =>
      simp only [Pool.call, releaseBuffer] at e
      split_ifs at e with h1
      obtain rfl := PoolRes.ok.inj e
      refine ⟨?_, h.nodup, h.live, h.fresh⟩
      refine List.Perm.trans ?_ h.perm
      have h2 := List.perm_cons_erase h1
      simp only [List.cons_append]
      exact (List.perm_middle.symm).trans (List.Perm.append_left p.available h2.symm)

theorem OK.run {p p' : Pool} (h : p.OK) (cs : List Call) (e : p.run cs = .ok p') : p'.OK := by
  induction cs generalizing p with
  | nil => obtain rfl := PoolRes.ok.inj e; exact h
  | cons c cs ih =>
      simp only [Pool.run] at e
      cases hc : p.call c with
      | ok p1 => rw [hc] at e; exact ih (h.call c hc) e
      | ub => rw [hc] at e; exact absurd e (by simp)
      | hang => rw [hc] at e; exact absurd e (by simp)
      | misuse => rw [hc] at e; exact absurd e (by simp)

theorem deleteAll_ok (p : Pool) (l : List Nat) (hnd : l.Nodup) (hl : ∀ b ∈ l, p.live b = true) :
    ∃ p', p.deleteAll l = some p' ∧ p'.live = (fun b => if b ∈ l then false else p.live b) ∧
      p'.available = p.available ∧ p'.buffers = p.buffers ∧ p'.out = p.out := by
  induction l generalizing p with
  | nil => exact ⟨p, rfl, by simp, rfl, rfl, rfl⟩
  | cons b l ih =>
      rw [List.nodup_cons] at hnd
      obtain ⟨p', e, hl', r⟩ := ih { p with live := Function.update p.live b false } hnd.2
        (fun c hc => by
          have : c ≠ b := by rintro rfl; exact hnd.1 hc
          simp [this, hl c (by simp [hc])])
      refine ⟨p', by simp [deleteAll, hl b (by simp), e], ?_, r⟩
      rw [hl']
      funext c
      by_cases hc : c = b
      · subst hc; simp
      · simp [hc]

theorem deleteAll_dead (p : Pool) (l : List Nat) (b : Nat) (hb : b ∈ l) (hd : p.live b = false) :
    p.deleteAll l = none := by
  induction l generalizing p with
  | nil => simp at hb
  | cons c l ih =>
      unfold deleteAll
      by_cases hcb : c = b
      · subst hcb; simp [hd]
      · by_cases hlc : p.live c = true
        · simp only [hlc, if_true]
          apply ih
          · simpa [Ne.symm hcb] using hb
          · simp [Ne.symm hcb, hd]
        · simp [hlc]

end Pool

open Pool

/-- **C05 (histories)**: over any history of `getBuffer`/`releaseBuffer`, nothing undefined
happens and the buffers held by users are pairwise distinct and alive. -/
theorem C05_histories (m : Option Nat) (cs : List Call) :
    (Pool.init m).run cs ≠ .ub ∧
    ∀ p, (Pool.init m).run cs = .ok p →
      p.out.Nodup ∧ (∀ b ∈ p.out, p.live b = true) ∧ (∀ b ∈ p.out, b ∉ p.available) ∧
      ∀ k, m = some k → p.out.length ≤ k := by
  have noUb : ∀ (cs : List Call) (p : Pool), p.OK → p.run cs ≠ .ub := by
    intro cs
    induction cs with
    | nil => intro p _; simp [Pool.run]
    | cons c cs ih =>
        intro p h
        simp only [Pool.run]
        cases hc : p.call c with
        | ok p1 => exact ih p1 (h.call c hc)
        | hang => simp
        | misuse => simp
        | ub =>
            exfalso
            cases c with
            | get =>
                simp only [Pool.call, getBuffer] at hc
                split_ifs at hc with h1
                · cases hcr : p.createBuffer with
                  | none => rw [hcr] at hc; exact absurd hc (by simp)
                  | some p1 =>
                      rw [hcr] at hc
                      obtain ⟨-, -, hne, -⟩ := h.create hcr
                      simp only [takeTop] at hc
                      cases ha : p1.available with
                      | nil => exact hne ha
                      | cons => rw [ha] at hc; exact absurd hc (by simp)
                · simp only [takeTop] at hc
                  cases ha : p.available with
                  | nil => exact h1 ha
                  | cons => rw [ha] at hc; exact absurd hc (by simp)
            | release b =>
                simp only [Pool.call, releaseBuffer] at hc
                split_ifs at hc
  have maxOk : ∀ (cs : List Call) (p p' : Pool), p.run cs = .ok p' →
      p'.maxBuffers = p.maxBuffers ∧
      ∀ k, p.maxBuffers = some k → p.buffers.length ≤ k → p'.buffers.length ≤ k := by
    intro cs
    induction cs with
    | nil => intro p p' e; obtain rfl := PoolRes.ok.inj e; exact ⟨rfl, fun _ _ h => h⟩
    | cons c cs ih =>
        intro p p' e
        simp only [Pool.run] at e
        cases hc : p.call c with
        | ub => rw [hc] at e; exact absurd e (by simp)
        | hang => rw [hc] at e; exact absurd e (by simp)
        | misuse => rw [hc] at e; exact absurd e (by simp)
        | ok p1 =>
            rw [hc] at e
            have h1 : p1.maxBuffers = p.maxBuffers ∧
                ∀ k, p.maxBuffers = some k → p.buffers.length ≤ k → p1.buffers.length ≤ k := by
              have tk : ∀ q q' : Pool, q.takeTop = .ok q' →
                  q'.maxBuffers = q.maxBuffers ∧ q'.buffers = q.buffers := by
                intro q q' hq
                unfold takeTop at hq
                cases ha : q.available with
                | nil => rw [ha] at hq; exact absurd hq (by simp)
                | cons => rw [ha] at hq; obtain rfl := PoolRes.ok.inj hq; exact ⟨rfl, rfl⟩
              cases c with
              | get =>
                  simp only [Pool.call, getBuffer] at hc
                  split_ifs at hc with h1
                  · cases hcr : p.createBuffer with
                    | none => rw [hcr] at hc; exact absurd hc (by simp)
                    | some p2 =>
                        rw [hcr] at hc
                        obtain ⟨t1, t2⟩ := tk _ _ hc
                        unfold createBuffer at hcr
                        split_ifs at hcr with hmx
                        obtain rfl := Option.some.inj hcr
                        refine ⟨t1, fun k hk hl => ?_⟩
                        rw [t2]
                        simp only [hk, Option.elim, decide_eq_true_eq] at hmx
                        simp only [List.length_append, List.length_singleton]
                        omega
                  · obtain ⟨t1, t2⟩ := tk _ _ hc
                    exact ⟨t1, fun k _ hl => by rw [t2]; exact hl⟩
              | release b =>
                  simp only [Pool.call, releaseBuffer] at hc
                  split_ifs at hc
                  obtain rfl := PoolRes.ok.inj hc
                  exact ⟨rfl, fun k _ hl => hl⟩
            obtain ⟨g1, g2⟩ := ih p1 p' e
            exact ⟨g1.trans h1.1, fun k hk hl => g2 k (by rw [h1.1]; exact hk) (h1.2 k hk hl)⟩
  refine ⟨noUb cs _ (OK.init m), fun p e => ?_⟩
  have h := (OK.init m).run cs e
  have hnd : (p.available ++ p.out).Nodup := h.perm.nodup_iff.mpr h.nodup
  rw [List.nodup_append] at hnd
  refine ⟨hnd.2.1, fun b hb => (h.live b).mpr (h.perm.mem_iff.mp (by simp [hb])),
    fun b hb ha => hnd.2.2 b ha b hb rfl, fun k hk => ?_⟩
  have hl := (maxOk cs _ p e).2 k (by simpa [Pool.init] using hk) (by simp [Pool.init])
  have hp := h.perm.length_eq
  rw [List.length_append] at hp
  omega

/-- **C05 (reuse)**: a released buffer is the next one handed out. -/
theorem C05_reuse (p p1 p2 : Pool) (b : Nat) (h1 : p.releaseBuffer b = .ok p1)
    (h2 : p1.getBuffer = .ok p2) : p2.out = b :: p1.out ∧ p2.available = p.available := by
  unfold releaseBuffer at h1
  split_ifs at h1
  obtain rfl := PoolRes.ok.inj h1
  simp only [getBuffer, takeTop] at h2
  obtain rfl := PoolRes.ok.inj h2
  exact ⟨rfl, rfl⟩

/-- **C05 (destruction), partial**: after any `getBuffer`/`releaseBuffer` history, destroying the
pool deletes every created buffer exactly once.  Missing: histories with `clear`/`initialize`
while a buffer is available, see `C05_clear_bug`. -/
theorem C05_destroy_partial (m : Option Nat) (cs : List Call) (p : Pool)
    (e : (Pool.init m).run cs = .ok p) :
    ∃ p', p.destroy = .ok p' ∧ ∀ b, p'.live b = false := by
  have h := (OK.init m).run cs e
  obtain ⟨p', e', hl, -⟩ := deleteAll_ok p p.buffers h.nodup (fun b hb => (h.live b).mpr hb)
  refine ⟨p', by simp [destroy, e'], fun b => ?_⟩
  rw [hl]
  by_cases hb : b ∈ p.buffers
  · simp [hb]
  · have : p.live b = false := by
      rw [← Bool.not_eq_true, h.live b]; exact hb
    simp [hb, this]

/-- The code's defect: whenever a buffer is available, `clear` (hence also `initialize`) followed
by the destructor deletes a buffer twice. -/
theorem C05_clear_bug (m : Option Nat) (cs : List Call) (p : Pool)
    (e : (Pool.init m).run cs = .ok p) (ha : p.available ≠ []) :
    ∃ p', p.clear = .ok p' ∧ p.initPool = .ok p' ∧ p'.destroy = .ub := by
  have h := (OK.init m).run cs e
  have hnd : (p.available ++ p.out).Nodup := h.perm.nodup_iff.mpr h.nodup
  rw [List.nodup_append] at hnd
  obtain ⟨p', e', hl, -, hb, -⟩ := deleteAll_ok p p.available hnd.1
    (fun b hb => (h.live b).mpr (h.perm.mem_iff.mp (by simp [hb])))
  have hclear : p.clear = .ok { p' with available := [] } := by simp [clear, e']
  refine ⟨{ p' with available := [] }, hclear, ?_, ?_⟩
  · unfold initPool
    rw [if_pos, hclear]
    intro hlen
    obtain ⟨b, bs, hbs⟩ := List.exists_cons_of_ne_nil ha
    have : b ∈ p.buffers := h.perm.mem_iff.mp (by simp [hbs])
    rw [List.length_eq_zero_iff] at hlen
    rw [hlen] at this
    simp at this
  · obtain ⟨b, bs, hbs⟩ := List.exists_cons_of_ne_nil ha
    have hbm : b ∈ p.buffers := h.perm.mem_iff.mp (by simp [hbs])
    unfold destroy
    rw [deleteAll_dead _ _ b (by simpa [hb] using hbm) (by simp [hl, hbs])]

/-- `releaseAllBuffers` makes a buffer available that a user still holds, so the next
`getBuffer` hands it out a second time. -/
theorem C05_releaseAll_bug :
    (match (Pool.init none).getBuffer with
     | .ok p => match p.releaseAllBuffers.getBuffer with
        | .ok q => q.out
        | _ => []
     | _ => []) = [0, 0] := by decide

/-- At the limit `getBuffer` waits forever while holding the lock. -/
theorem C05_limit_hangs (p : Pool) (k : Nat) (hk : p.maxBuffers = some k)
    (ha : p.available = []) (hb : k ≤ p.buffers.length) : p.getBuffer = .hang := by
  simp [getBuffer, ha, createBuffer, hk, hb]

example : (match (Pool.init (some 2)).run [.get, .get, .release 0, .get, .release 1] with
    | .ok p => (p.out, p.available, p.buffers)
    | _ => ([], [], [])) = ([0], [1], [0, 1]) := by decide

/-! ## C60 -/

/-- **C60 (state restored)**: every fragment, with any nesting of freezes, leaves the update
flags of all images as they were. -/
theorem C60_restored (p : UProg) (s : UpdSt) : (p.exec s).enabled = s.enabled := by
  induction p generalizing s with
  | skip => rfl
  | modified i => simp only [UProg.exec, UpdSt.modified]; split_ifs <;> rfl
  | seq p q ihp ihq => simp only [UProg.exec]; rw [ihq, ihp]
  | freeze i u p ih =>
      simp only [UProg.exec]
      have : Function.update (p.exec { s with enabled := Function.update s.enabled i false }).enabled
          i (s.enabled i) = s.enabled := by
        rw [ih]
        simp
      split_ifs
      · simp only [UpdSt.modified]
        split_ifs <;> exact this
      · exact this

/-- **C60 (silence)**: an image whose updates are off emits nothing, whatever runs. -/
theorem C60_silent (p : UProg) (s : UpdSt) (i : Nat) (h : s.enabled i = false) :
    (p.exec s).events i = s.events i := by
  induction p generalizing s with
  | skip => rfl
  | modified j =>
      simp only [UProg.exec, UpdSt.modified]
      split_ifs with h1
      · rfl
      · have : i ≠ j := by rintro rfl; simp [h] at h1
        simp [this]
  | seq p q ihp ihq =>
      simp only [UProg.exec]
      rw [ihq _ (by rw [C60_restored]; exact h), ihp _ h]
  | freeze j u p ih =>
      simp only [UProg.exec]
      have h1 : (p.exec { s with enabled := Function.update s.enabled j false }).events i
          = s.events i := by
        rw [ih]
        by_cases hij : i = j
        · simp [hij]
        · simp [hij, h]
      split_ifs with hu
      · simp only [UpdSt.modified]
        split_ifs with h2
        · exact h1
        · have : i ≠ j := by
            rintro rfl
            simp [h] at h2
          simp [this, h1]
      · exact h1

/-- **C60 (refresh)**: a frozen block emits no event for the frozen image while it runs, and
exactly one at its end if the image had its updates on and refresh is asked for. -/
theorem C60_freeze (p : UProg) (s : UpdSt) (i : Nat) (u : Bool) :
    ((UProg.freeze i u p).exec s).events i
      = s.events i + (if s.enabled i && u then 1 else 0) ∧
    ((UProg.freeze i u p).exec s).enabled = s.enabled := by
  refine ⟨?_, C60_restored _ _⟩
  simp only [UProg.exec]
  have h1 : (p.exec { s with enabled := Function.update s.enabled i false }).events i
      = s.events i := by
    rw [C60_silent _ _ _ (by simp)]
  cases u with
  | false => simp [h1]
  | true =>
      simp only [if_true, UpdSt.modified, Function.update_self]
      cases he : s.enabled i with
      | false => simp [h1]
      | true => simp [h1]

/-- Nested freezes of two images. -/
example : let p : UProg := .freeze 0 true (.seq (.modified 0)
      (.seq (.freeze 0 true (.modified 0)) (.freeze 1 false (.seq (.modified 1) (.modified 0)))))
    let s := p.exec ⟨fun _ => true, fun _ => 0⟩
    (s.enabled 0, s.events 0, s.events 1) = (true, 1, 0) := by decide

end Smil
