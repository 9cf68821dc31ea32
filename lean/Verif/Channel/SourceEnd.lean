import Verif.Channel.SourceProps

/-!
# Sources come to rest (C110)

On the transition system of `Verif.Channel.Source` (include/stlab/concurrency/channel.hpp lines 909-990).
-/

namespace Verif.Source

open Verif.Channel (Msg sumTo sumTo_congr sumTo_le sumTo_change upd freeBuffer usub sizeMax)
open Verif.Process (sumTo_zero)

variable {σ : Type} {P : Src σ} {n N : Nat} {buf : Nat → Nat} {s s' : St σ}

/-- More than the number of steps that thread and what it starts still take until `yield` is called the next time. -/
def weight (n : Nat) : Pc → Nat
  | .none => 0
  | .unlock => 1
  | .inYield _ => 1
  | .later => 2
  | .decide => 4
  | .start => 5
  | .ready2 => 6
  | .own2 .. => 7
  | .own1 _ => 8
  | .send _ _ k => 9 * (n - k) + 9
  | .free _ _ k _ => (n - k) + 9 * n + 10

def threads (n : Nat) (s : St σ) : Nat := sumTo s.next fun j => weight n (s.pc j)

/-- The same for receiver `k`. -/
def receiver (s : St σ) (k : Nat) : Nat := 8 * (s.dq k).length + 7 * s.cr k + 6 * s.cy k + 6 * s.ca k

def receivers (n : Nat) (s : St σ) : Nat := sumTo n fun k => receiver s k

/-- `N`: how often the source yields. -/
def mu (N n : Nat) (s : St σ) : Nat :=
  (N - s.outs.length) * (10 * n + 10) + threads n s + receivers n s + 7 * (!s.ready).toNat

theorem threads_goto {j : Nat} {p : Pc} (hj : j < s.next) : threads n (goto j p s) + weight n (s.pc j) = threads n s + weight n p := by
  have := sumTo_change (f := fun i => weight n ((goto j p s).pc i)) (g := fun i => weight n (s.pc i)) hj
    (fun i hi => by simp [goto, upd, hi])
  simpa [threads, goto, upd] using this

theorem threads_spawn {p : Pc} : threads n (spawn p s) = threads n s + weight n p := by
  have := sumTo_congr (n := s.next) (f := fun i => weight n ((spawn p s).pc i)) (g := fun i => weight n (s.pc i))
    (fun i hi => by simp [spawn, upd, show i ≠ s.next by omega])
  have h2 : sumTo (s.next + 1) (fun i => weight n ((spawn p s).pc i)) = sumTo s.next (fun i => weight n ((spawn p s).pc i)) + weight n p := by
    simp [sumTo, spawn, upd]
  rw [this] at h2
  exact h2

theorem threads_crit {ps : Bool} : threads n (crit ps s) ≤ threads n s + 5 := by
  simp only [crit]
  split
  · split
    · rw [threads_spawn]; exact Nat.le_refl _
    · exact Nat.le_add_right ..
  · exact Nat.le_add_right ..

theorem crit_same {ps : Bool} : (crit ps s).outs = s.outs ∧ (crit ps s).ready = s.ready ∧ (crit ps s).dq = s.dq ∧ (crit ps s).cr = s.cr ∧
    (crit ps s).cy = s.cy ∧ (crit ps s).ca = s.ca ∧ s.next ≤ (crit ps s).next ∧ ∀ j, j < s.next → (crit ps s).pc j = s.pc j := by
  simp only [crit]
  split
  · split
    · refine ⟨rfl, rfl, rfl, rfl, rfl, rfl, Nat.le_succ _, fun j hj => ?_⟩
      simp [spawn, upd, show j ≠ s.next by omega]
    · exact ⟨rfl, rfl, rfl, rfl, rfl, rfl, Nat.le_refl _, fun _ _ => rfl⟩
  · exact ⟨rfl, rfl, rfl, rfl, rfl, rfl, Nat.le_refl _, fun _ _ => rfl⟩

theorem receivers_crit {ps : Bool} : receivers n (crit ps s) = receivers n s := by
  obtain ⟨-, -, h1, h2, h3, h4, -⟩ := crit_same (ps := ps) (s := s)
  refine sumTo_congr fun k _ => ?_
  simp only [receiver, h1, h2, h3, h4]

/-- Nothing is ever sent to other receivers. -/
structure Within (n : Nat) (s : St σ) : Prop where
  dq : ∀ k, n ≤ k → s.dq k = []
  cr : ∀ k, n ≤ k → s.cr k = 0
  cy : ∀ k, n ≤ k → s.cy k = 0
  ca : ∀ k, n ≤ k → s.ca k = 0

theorem Within.crit {ps : Bool} (h : Within n s) : Within n (crit ps s) := by
  obtain ⟨-, -, h1, h2, h3, h4, -⟩ := crit_same (ps := ps) (s := s)
  exact ⟨h1 ▸ h.dq, h2 ▸ h.cr, h3 ▸ h.cy, h4 ▸ h.ca⟩

theorem Within.step (h : Within n s) {a : Act} (hs : Source.step P n buf s a = some s') : Within n s' := by
  obtain ⟨h1, h2, h3, h4⟩ := h
  cases a with
  | job j =>
    simp only [Source.step] at hs
    unfold stepJob at hs
    split at hs
    case h_1 => cases hs
    case h_2 => cases hs; split <;> exact ⟨h1, h2, h3, h4⟩
    case h_3 => split at hs <;> cases hs; exact ⟨h1, h2, h3, h4⟩
    case h_4 => split at hs <;> cases hs <;> exact ⟨h1, h2, h3, h4⟩
    case h_5 => cases hs; exact ⟨h1, h2, h3, h4⟩
    case h_6 => cases hs; exact ⟨h1, h2, h3, h4⟩
    case h_7 => split at hs <;> cases hs <;> exact ⟨h1, h2, h3, h4⟩
    case h_8 t r k _ =>
      split at hs <;> cases hs
      · refine ⟨fun i hi => ?_, h2, h3, h4⟩
        simp only [goto, upd, show i ≠ k by omega, if_false]
        exact h1 i hi
      · exact ⟨h1, h2, h3, h4⟩
    case h_9 => cases hs; exact ⟨h1, h2, h3, h4⟩
    case h_10 =>
      cases hs
      have h := Within.crit (ps := ‹Bool›) ⟨h1, h2, h3, h4⟩
      exact ⟨h.dq, h.cr, h.cy, h.ca⟩
    case h_11 => cases hs; exact ⟨h1, h2, h3, h4⟩
  | fail j => simp only [Source.step] at hs; split at hs <;> cases hs; exact ⟨h1, h2, h3, h4⟩
  | ready => simp only [Source.step] at hs; split at hs <;> cases hs; exact ⟨h1, h2, h3, h4⟩
  | pop k =>
    simp only [Source.step] at hs
    split at hs <;> cases hs
    rename_i m q hq
    have hk : ∀ i, n ≤ i → i ≠ k := fun i hi e => by rw [← e, h1 i hi] at hq; cases hq
    refine ⟨fun i hi => ?_, fun i hi => ?_, h3, h4⟩ <;> simp only [upd, hk i hi, if_false]
    · exact h1 i hi
    · exact h2 i hi
  | ask k =>
    simp only [Source.step] at hs
    split at hs
    · cases hs
    · rename_i hc
      have hk : ∀ i, n ≤ i → i ≠ k := fun i hi e => hc (e ▸ h2 i hi)
      split at hs <;> cases hs
      · refine ⟨h1, fun i hi => ?_, fun i hi => ?_, h4⟩ <;> simp only [upd, hk i hi, if_false]
        · exact h2 i hi
        · exact h3 i hi
      · refine ⟨h1, fun i hi => ?_, h3, fun i hi => ?_⟩ <;> simp only [upd, hk i hi, if_false]
        · exact h2 i hi
        · exact h4 i hi
  | cts k ps =>
    simp only [Source.step] at hs
    split at hs <;> split at hs <;> cases hs
    · refine Within.crit ⟨h1, h2, fun i hi => ?_, h4⟩
      simp only [upd]
      split
      · rename_i e; rw [← e, h3 i hi]
      · exact h3 i hi
    · refine Within.crit ⟨h1, h2, h3, fun i hi => ?_⟩
      simp only [upd]
      split
      · rename_i e; rw [← e, h4 i hi]
      · exact h4 i hi

theorem within (h : Reachable P n buf s) : Within n s := by
  induction h with
  | init => exact ⟨fun _ _ => rfl, fun _ _ => rfl, fun _ _ => rfl, fun _ _ => rfl⟩
  | step _ hs ih => exact ih.step hs

/-- The source stops yielding after `N` results. -/
def YieldsOnly (P : Src σ) (N : Nat) : Prop := (∀ m, m < N → (P.state (P.after m)).isYield = true) ∧ (P.state (P.after N)).isYield = false

theorem outs_le (hc : Prompt P ∨ Narrow n buf) (hN : YieldsOnly P N) (h : Reachable P n buf s) : s.outs.length ≤ N := by
  induction h with
  | init => exact Nat.zero_le _
  | @step s0 _ _ hr hs ih =>
    rcases step_x hs with ⟨-, h2⟩ | ⟨⟨j, t, hj⟩, h1, h2⟩
    · rw [h2]; exact ih
    · have hy := c70_when_due_partial hc hr hj
      rw [(c70_values hr).2] at hy
      rcases Nat.lt_or_ge s0.outs.length N with h3 | h3
      · rw [h2, List.length_append, List.length_singleton]; omega
      · have h4 : s0.outs.length = N := by omega
        rw [h4, hN.2] at hy
        cases hy

/-- Failing `try_lock`s are not counted. -/
def Act.counts : Act → Bool
  | .fail _ => false
  | _ => true

/-- Failing `try_lock`s apart, every step takes the source nearer to its end. -/
theorem mu_step (hc : Prompt P ∨ Narrow n buf) (hN : YieldsOnly P N) (h : Reachable P n buf s) {a : Act}
    (hs : Source.step P n buf s a = some s') : mu N n s' + a.counts.toNat ≤ mu N n s := by
  have hb := Base.of_reachable h
  have hw := within h
  have hj : ∀ j, s.pc j ≠ .none → j < s.next := fun j h1 => Nat.lt_of_not_le fun h2 => h1 (hb.fr j h2)
  cases a <;> simp only [Act.counts, Bool.toNat_true, Bool.toNat_false]
  case job j =>
    simp only [Source.step] at hs
    unfold stepJob at hs
    split at hs
    case h_1 => cases hs
    case h_2 hp =>
      have hjn := hj j (by rw [hp]; simp)
      cases hs
      have h1 := threads_goto (n := n) (s := { s with running := true }) (p := .none) hjn
      simp only [hp, weight] at h1
      split
      · have h2 := threads_spawn (n := n) (p := .start) (s := goto j .none { s with running := true })
        simp only [weight] at h2
        simp only [mu, threads, receivers, receiver, spawn, goto] at h1 h2 ⊢
        omega
      · simp only [mu, threads, receivers, receiver, goto] at h1 ⊢
        omega
    case h_3 hp =>
      have hjn := hj j (by rw [hp]; simp)
      split at hs <;> cases hs
      have h1 := threads_goto (n := n) (s := { s with lock := some j }) (p := .decide) hjn
      simp only [hp, weight] at h1
      simp only [mu, threads, receivers, receiver, goto] at h1 ⊢
      omega
    case h_4 hp =>
      have hjn := hj j (by rw [hp]; simp)
      split at hs <;> cases hs
      · have h1 := threads_goto (n := n) (s := s) (p := .unlock) hjn
        simp only [hp, weight] at h1
        simp only [mu, threads, receivers, receiver, goto] at h1 ⊢
        omega
      · have h1 := threads_goto (n := n) (s := s) (p := .inYield false) hjn
        simp only [hp, weight] at h1
        simp only [mu, threads, receivers, receiver, goto] at h1 ⊢
        omega
      · have h1 := threads_goto (n := n) (s := spawn .later s) (j := j) (p := .unlock) (Nat.lt_succ_of_lt hjn)
        have h2 := threads_spawn (n := n) (p := .later) (s := s)
        have h3 : (spawn .later s).pc j = .decide := by simp [spawn, upd, show j ≠ s.next by omega, hp]
        simp only [h3, weight] at h1 h2
        simp only [mu, threads, receivers, receiver, goto, spawn] at h1 h2 ⊢
        omega
    case h_5 hp =>
      have hjn := hj j (by rw [hp]; simp)
      cases hs
      have h1 := threads_goto (n := n) (s := s) (p := .inYield true) hjn
      simp only [hp, weight] at h1
      simp only [mu, threads, receivers, receiver, goto] at h1 ⊢
      omega
    case h_6 t hp =>
      have hjn := hj j (by rw [hp]; simp)
      have hy := c70_when_due_partial hc h hp
      have hle := outs_le hc hN h
      have hlt : s.outs.length < N := by
        refine Nat.lt_of_le_of_ne hle fun e => ?_
        rw [(c70_values h).2, e, hN.2] at hy
        cases hy
      cases hs
      have h1 := threads_goto (n := n) (s := { s with x := (P.yield s.x).1, outs := s.outs ++ [(P.yield s.x).2] })
        (p := .free t (P.yield s.x).2 0 (if n = 0 then 0 else sizeMax)) hjn
      simp only [hp, weight] at h1
      obtain ⟨d, hd⟩ : ∃ d, N - s.outs.length = d + 1 := ⟨N - s.outs.length - 1, by omega⟩
      have hd' : N - (s.outs.length + 1) = d := by omega
      simp only [mu, threads, receivers, receiver, goto, List.length_append, List.length_singleton, hd, hd', Nat.succ_mul] at h1 ⊢
      omega
    case h_7 t r k acc hp =>
      have hjn := hj j (by rw [hp]; simp)
      split at hs <;> cases hs
      · have h1 := threads_goto (n := n) (s := s) (p := .free t r (k + 1) (min acc (freeBuffer (buf k) (s.dq k).length))) hjn
        simp only [hp, weight] at h1
        simp only [mu, threads, receivers, receiver, goto] at h1 ⊢
        omega
      · have h1 := threads_goto (n := n) (s := { s with susp := if acc ≤ 1 then n + 1 else 1 }) (p := .send t r 0) hjn
        simp only [hp, weight] at h1
        simp only [mu, threads, receivers, receiver, goto] at h1 ⊢
        omega
    case h_8 t r k hp =>
      have hjn := hj j (by rw [hp]; simp)
      split at hs <;> cases hs
      · rename_i hk
        have h1 := threads_goto (n := n) (s := { s with dq := upd s.dq k (s.dq k ++ [r]), sent := upd s.sent k (s.sent k ++ [r]) })
          (p := .send t r (k + 1)) hjn
        have h2 := sumTo_change (f := fun i => receiver { s with dq := upd s.dq k (s.dq k ++ [r]) } i) (g := fun i => receiver s i) hk
          (fun i hi => by simp [receiver, upd, hi])
        simp only [hp, weight] at h1
        simp only [mu, threads, receivers, receiver, goto] at h1 h2 ⊢
        simp only [upd, if_true, List.length_append, List.length_singleton] at h1 h2 ⊢
        omega
      · have h1 := threads_goto (n := n) (s := s) (p := .own1 t) hjn
        simp only [hp, weight] at h1
        simp only [mu, threads, receivers, receiver, goto] at h1 ⊢
        omega
    case h_9 t hp =>
      have hjn := hj j (by rw [hp]; simp)
      cases hs
      have h1 := threads_goto (n := n) (s := s) (p := .own2 t (P.state s.x).isYield) hjn
      simp only [hp, weight] at h1
      simp only [mu, threads, receivers, receiver, goto] at h1 ⊢
      omega
    case h_10 t ps hp =>
      have hjn := hj j (by rw [hp]; simp)
      cases hs
      have hc := crit_same (ps := ps) (s := s)
      have h1 := threads_goto (n := n) (s := crit ps s) (j := j) (p := if t then .none else .unlock) (by omega)
      have h2 := threads_crit (n := n) (ps := ps) (s := s)
      have h3 := receivers_crit (n := n) (ps := ps) (s := s)
      have h4 : weight n (if t then .none else .unlock) ≤ 1 := by cases t <;> simp [weight]
      rw [hc.2.2.2.2.2.2.2 j hjn, hp, show weight n (.own2 t ps) = 7 from rfl] at h1
      have h5 : receivers n (back j t (crit ps s)) = receivers n (crit ps s) := rfl
      have h6 : (back j t (crit ps s)).outs = s.outs := hc.1
      have h7 : (back j t (crit ps s)).ready = s.ready := hc.2.1
      have h8 : threads n (back j t (crit ps s)) = threads n (goto j (if t then .none else .unlock) (crit ps s)) := rfl
      simp only [mu, h5, h6, h7, h8]
      omega
    case h_11 hp =>
      have hjn := hj j (by rw [hp]; simp)
      cases hs
      have h1 := threads_goto (n := n) (s := { s with lock := none }) (p := .none) hjn
      simp only [hp, weight] at h1
      simp only [mu, threads, receivers, receiver, goto] at h1 ⊢
      omega
  case fail j =>
    simp only [Source.step] at hs
    split at hs <;> cases hs
    rename_i hp
    have hjn := hj j (by rw [hp]; simp)
    have h1 := threads_goto (n := n) (s := s) (p := .none) hjn
    have h2 := threads_spawn (n := n) (p := .start) (s := goto j .none s)
    simp only [hp, weight] at h1 h2
    simp only [mu, threads, receivers, receiver, spawn, goto] at h1 h2 ⊢
    omega
  case ready =>
    simp only [Source.step] at hs
    split at hs <;> cases hs
    rename_i hr
    have h2 := threads_spawn (n := n) (p := .ready2) (s := { s with ready := true })
    simp only [weight] at h2
    simp only [mu, threads, receivers, receiver, spawn, hr] at h2 ⊢
    simp only [Bool.not_true, Bool.not_false, Bool.toNat_true, Bool.toNat_false]
    omega
  case pop k =>
    simp only [Source.step] at hs
    split at hs <;> cases hs
    rename_i m q hq
    have hk : k < n := Nat.lt_of_not_le fun hk => by rw [hw.dq k hk] at hq; cases hq
    have h2 := sumTo_change (g := fun i => receiver s i) hk
      (f := fun i => receiver { s with dq := upd s.dq k q, cr := upd s.cr k (s.cr k + if q.length ≤ usub (buf k) 1 then 1 else 0) } i)
      (fun i hi => by simp [receiver, upd, hi])
    have h3 : (if q.length ≤ usub (buf k) 1 then 1 else 0) ≤ 1 := by split <;> omega
    have h4 : (s.dq k).length = q.length + 1 := by rw [hq]; rfl
    generalize (if q.length ≤ usub (buf k) 1 then 1 else 0) = e at *
    simp only [mu, receivers, threads]
    simp only [receiver, upd, if_true] at h2 ⊢
    omega
  case ask k =>
    simp only [Source.step] at hs
    split at hs
    · cases hs
    · rename_i hc0
      have hk : k < n := Nat.lt_of_not_le fun hk => hc0 (hw.cr k hk)
      split at hs <;> cases hs
      · have h2 := sumTo_change (g := fun i => receiver s i) hk
          (f := fun i => receiver { s with cr := upd s.cr k (s.cr k - 1), cy := upd s.cy k (s.cy k + 1) } i)
          (fun i hi => by simp [receiver, upd, hi])
        simp only [mu, receivers, threads]
        simp only [receiver, upd, if_true] at h2 ⊢
        omega
      · have h2 := sumTo_change (g := fun i => receiver s i) hk
          (f := fun i => receiver { s with cr := upd s.cr k (s.cr k - 1), ca := upd s.ca k (s.ca k + 1) } i)
          (fun i hi => by simp [receiver, upd, hi])
        simp only [mu, receivers, threads]
        simp only [receiver, upd, if_true] at h2 ⊢
        omega
  case cts k ps =>
    simp only [Source.step] at hs
    split at hs <;> split at hs <;> cases hs
    · rename_i _ hc0
      have hk : k < n := Nat.lt_of_not_le fun hk => hc0 (hw.cy k hk)
      have h2 := sumTo_change (g := fun i => receiver s i) hk
        (f := fun i => receiver { s with cy := upd s.cy k (s.cy k - 1) } i) (fun i hi => by simp [receiver, upd, hi])
      generalize hs1 : ({ s with cy := upd s.cy k (s.cy k - 1) } : St σ) = s1 at h2 ⊢
      have h3 := threads_crit (n := n) (ps := true) (s := s1)
      have h4 := receivers_crit (n := n) (ps := true) (s := s1)
      have h5 := crit_same (ps := true) (s := s1)
      have h6 : threads n s1 = threads n s := by rw [← hs1]; rfl
      have h7 : s1.outs = s.outs ∧ s1.ready = s.ready := by rw [← hs1]; exact ⟨rfl, rfl⟩
      have h8 : receiver s1 k + 6 = receiver s k := by rw [← hs1]; simp only [receiver, upd, if_true]; omega
      simp only [mu, h5.1, h5.2.1, h7.1, h7.2, h4]
      simp only [receivers]
      omega
    · rename_i _ hc0
      have hk : k < n := Nat.lt_of_not_le fun hk => hc0 (hw.ca k hk)
      have h2 := sumTo_change (g := fun i => receiver s i) hk
        (f := fun i => receiver { s with ca := upd s.ca k (s.ca k - 1) } i) (fun i hi => by simp [receiver, upd, hi])
      generalize hs1 : ({ s with ca := upd s.ca k (s.ca k - 1) } : St σ) = s1 at h2 ⊢
      have h3 := threads_crit (n := n) (ps := false) (s := s1)
      have h4 := receivers_crit (n := n) (ps := false) (s := s1)
      have h5 := crit_same (ps := false) (s := s1)
      have h6 : threads n s1 = threads n s := by rw [← hs1]; rfl
      have h7 : s1.outs = s.outs ∧ s1.ready = s.ready := by rw [← hs1]; exact ⟨rfl, rfl⟩
      have h8 : receiver s1 k + 6 = receiver s k := by rw [← hs1]; simp only [receiver, upd, if_true]; omega
      simp only [mu, h5.1, h5.2.1, h7.1, h7.2, h4]
      simp only [receivers]
      omega

end Verif.Source
