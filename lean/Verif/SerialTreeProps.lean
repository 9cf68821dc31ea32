import Verif.SerialTree
import Verif.ThreadPoolInv

/-!
# Serial queues over serial queues: properties (C112)
-/

namespace Verif.SerialTree

open Verif.SerialQueue (Mode Pc)
open Verif.ThreadPool (sumTo)

variable {C : Cfg} {s s' : St}

/-- **C112**: each queue behaves as a serial queue modelled alone: its tasks are started in the order in which they were given to it (C21), one after the
other (C22), and every theorem about its reachable states applies. -/
theorem c112_parts (O : C.Ok) (r : Reachable C s) (j : Nat) : SerialQueue.Reachable (C.mode j) (s.q j) := (r.inv O).reach j

/-- **C112**: nothing is undefined. -/
theorem c112_no_undefined (O : C.Ok) (r : Reachable C s) (j : Nat) (a : SerialQueue.Act) : SerialQueue.step (C.mode j) (s.q j) a ≠ .ub :=
  SerialQueue.c23_no_undefined (c112_parts O r j) a

/-- Queue `j` is `n` levels over queue `r`. -/
inductive Over (C : Cfg) (r : Nat) : Nat → Nat → Prop where
  | here : Over C r 0 r
  | up {n k p : Nat} : C.parent k = some p → Over C r n p → Over C r (n + 1) k

/-- Queue `j` is calling task `t`, which was given to it by a user. -/
def Calling (s : St) (j t : Nat) : Prop := (∃ ts, (s.q j).jobs = [.calling t ts]) ∧ s.owner j t = none

/-- **C112**: a queue executes a job only while the queue it is over is calling a task, namely that job. -/
theorem c112_inside (O : C.Ok) (r : Reachable C s) {k p : Nat} (h : C.parent k = some p) (hj : (s.q k).jobs ≠ []) :
    ∃ t ts, (s.q p).jobs = [.calling t ts] ∧ s.owner p t = some k := (r.inv O).act k p h hj

theorem one_level (I : Inv C s none) {r : Nat} : ∀ {n j j' : Nat}, Over C r n j → Over C r n j' → (s.q j).jobs ≠ [] → (s.q j').jobs ≠ [] → j = j'
  | 0, _, _, .here, .here, _, _ => rfl
  | n + 1, j, j', .up (p := p) h1 h2, .up (p := p') h3 h4, a, b => by
    obtain ⟨t, ts, g1, g2⟩ := I.act _ _ h1 a
    obtain ⟨t', ts', g3, g4⟩ := I.act _ _ h3 b
    have := one_level I h2 h4 (by simp [g1]) (by simp [g3])
    subst this
    rw [g1] at g3
    simp only [List.cons.injEq, Pc.calling.injEq, and_true] at g3
    rw [g3.1, g4] at g2
    exact (Option.some.inj g2).symm

theorem below (I : Inv C s none) {r : Nat} : ∀ {n j : Nat}, Over C r n j → (s.q j).jobs ≠ [] → ∀ m < n,
    ∃ i t ts k, Over C r m i ∧ (s.q i).jobs = [.calling t ts] ∧ s.owner i t = some k
  | n + 1, j, .up (p := p) h1 h2, a, m, hm => by
    obtain ⟨t, ts, g1, g2⟩ := I.act _ _ h1 a
    by_cases h : m = n
    · subst h; exact ⟨p, t, ts, j, h2, g1, g2⟩
    · exact below I h2 (by simp [g1]) m (by omega)

/-- **C112**: of all tasks users gave to queues that are, directly or through others, over the same queue, only one is executed at a time. -/
theorem c112_exclusive (O : C.Ok) (r : Reachable C s) {a n n' j j' t t' : Nat} (hj : Over C a n j) (hj' : Over C a n' j')
    (ht : Calling s j t) (ht' : Calling s j' t') : j = j' ∧ t = t' := by
  have I := r.inv O
  obtain ⟨⟨ts, h1⟩, h2⟩ := ht
  obtain ⟨⟨ts', h3⟩, h4⟩ := ht'
  have key : ∀ {n n' j j' t t' : Nat} {ts ts' : List Nat}, Over C a n j → Over C a n' j' → (s.q j).jobs = [.calling t ts] → s.owner j t = none →
      (s.q j').jobs = [.calling t' ts'] → ¬ n < n' := by
    intro n n' j j' t t' ts ts' o o' h1 h2 h3 hn
    obtain ⟨i, u, us, k, g1, g2, g3⟩ := below I o' (by simp [h3]) n hn
    have := one_level I o g1 (by simp [h1]) (by simp [g2])
    subst this
    rw [h1] at g2
    simp only [List.cons.injEq, Pc.calling.injEq, and_true] at g2
    rw [← g2.1, h2] at g3
    cases g3
  have e1 := key hj hj' h1 h2 h3
  have e2 := key hj' hj h3 h4 h1
  have : n = n' := by omega
  subst this
  have := one_level I hj hj' (by simp [h1]) (by simp [h3])
  subst this
  rw [h1] at h3
  simp only [List.cons.injEq, Pc.calling.injEq, and_true] at h3
  exact ⟨rfl, h3.1⟩

/-- **C112**: a job that is being executed and calls no task of a user is not in the way of one: while a queue calls a job of a queue over it, what is
executed is that job or, when it has ended, nothing. -/
theorem c112_call_is_job (O : C.Ok) (r : Reachable C s) {p k t : Nat} {ts : List Nat} (h : (s.q p).jobs = [.calling t ts]) (ho : s.owner p t = some k)
    {i : Nat} (hi : C.parent i = some p) (hj : (s.q i).jobs ≠ []) : i = k := by
  obtain ⟨t', ts', h1, h2⟩ := c112_inside O r hi hj
  rw [h] at h1
  simp only [List.cons.injEq, Pc.calling.injEq, and_true] at h1
  rw [← h1.1, ho] at h2
  exact (Option.some.inj h2).symm

/-! ## The queues come to rest -/

/-- The queues go from one state to another by themselves. -/
def Next (C : Cfg) (s s' : St) : Prop := ∃ a, internal a = true ∧ step C s a = some s'

/-- Nothing is left to do. -/
def AtRest (C : Cfg) (s : St) : Prop := ∀ s', ¬Next C s s'

/-- Whatever order the steps are taken in, `Q` holds at some time. -/
inductive Eventually (C : Cfg) (Q : St → Prop) : St → Prop where
  | now {s : St} : Q s → Eventually C Q s
  | later {s : St} : (∃ s', Next C s s') → (∀ s', Next C s s' → Eventually C Q s') → Eventually C Q s

/-- What giving a job to the executor costs at most. -/
def cost (k : Nat) : Nat := 12 * 3 ^ k

/-- What is left to do for a job of a queue that pays `S` for one. -/
def wjob (S : Nat) : Pc → Nat
  | .begin => 2
  | .loop ts => S + 3 + 2 * ts.length
  | .calling _ ts => S + 4 + 2 * ts.length
  | .resubmit => S + 2

def wqueue (S : Nat) (q : SerialQueue.St) : Nat :=
  q.queue.length * (S + 6) + q.kicks * (S + 2) + q.pending * 3 + (q.jobs.map (wjob S)).sum

/-- What is left to do. -/
def mu (C : Cfg) (s : St) : Nat := sumTo C.M fun j => wqueue (cost j) (s.q j)

theorem cost_pos (k : Nat) : 12 ≤ cost k := by
  have := Nat.pow_pos (n := k) (show 0 < 3 by omega)
  simp only [cost]; omega

theorem cost_parent {k p : Nat} (h : p < k) : 2 * cost p + 10 ≤ cost k := by
  have h1 : 3 ^ (p + 1) ≤ 3 ^ k := Nat.pow_le_pow_right (by omega) h
  have h2 := Nat.pow_pos (n := p) (show 0 < 3 by omega)
  simp only [cost]
  rw [Nat.pow_succ] at h1
  omega

theorem sumTo_change (w : Nat → SerialQueue.St → Nat) (f : Nat → SerialQueue.St) (v : SerialQueue.St) (k : Nat) :
    ∀ {n : Nat}, k < n → sumTo n (fun i => w i (upd f k v i)) + w k (f k) = sumTo n (fun i => w i (f i)) + w k v
  | n + 1, h => by
    simp only [sumTo]
    by_cases hk : k = n
    · subst hk
      rw [ThreadPool.sumTo_congr (g := fun i => w i (f i)) (fun i hi => by rw [upd_ne _ _ (by omega)]), upd_same]
      omega
    · have := sumTo_change w f v k (n := n) (by omega)
      rw [upd_ne _ _ (Ne.symm hk)]
      omega

/-- What a step of one queue changes. -/
theorem mu_put {j : Nat} {q : SerialQueue.St} (hj : j < C.M) :
    mu C { s with q := upd s.q j q } + wqueue (cost j) (s.q j) = mu C s + wqueue (cost j) q :=
  sumTo_change (fun j => wqueue (cost j)) s.q q j hj

theorem wqueue_enqueue {m : Mode} {S : Nat} {q q' : SerialQueue.St} (h : SerialQueue.step m q .enqueue = .ok q') :
    wqueue S q' ≤ wqueue S q + 2 * S + 8 := by
  simp only [SerialQueue.step, SerialQueue.Out.ok.injEq] at h
  subst h
  simp only [wqueue, List.length_append, List.length_singleton, Nat.add_mul, Nat.one_mul]
  split
  · omega
  · simp only [Nat.add_mul, Nat.one_mul]; omega

theorem wqueue_kick {m : Mode} {S : Nat} {q q' : SerialQueue.St} (h : SerialQueue.step m q .kick = .ok q') :
    wqueue S q' + S = wqueue S q + 1 := by
  simp only [SerialQueue.step] at h
  split at h <;> cases h
  obtain ⟨n, hn⟩ : ∃ n, q.kicks = n + 1 := ⟨q.kicks - 1, by omega⟩
  simp only [wqueue, hn, Nat.succ_mul, Nat.add_sub_cancel]
  omega

theorem wqueue_runJob {m : Mode} {S : Nat} {q q' : SerialQueue.St} (h : SerialQueue.step m q .runJob = .ok q') :
    wqueue S q' + 1 = wqueue S q := by
  simp only [SerialQueue.step] at h
  split at h <;> cases h
  obtain ⟨n, hn⟩ : ∃ n, q.pending = n + 1 := ⟨q.pending - 1, by omega⟩
  simp only [wqueue, hn, Nat.succ_mul, Nat.add_sub_cancel, List.map_append, List.sum_append, List.map_cons, List.map_nil, List.sum_cons, List.sum_nil, wjob]
  omega

theorem wqueue_advance {m : Mode} {S : Nat} {q q' : SerialQueue.St} (r : SerialQueue.Reachable m q)
    (h : SerialQueue.step m q (.advance 0) = .ok q') :
    (q.jobs = [.resubmit] → wqueue S q' + S = wqueue S q + 1) ∧ (q.jobs ≠ [.resubmit] → wqueue S q' < wqueue S q) := by
  have h1 := SerialQueue.c22_one_job r
  have V := r.inv.token
  obtain ⟨pc, hj⟩ : ∃ pc, q.jobs = [pc] := by
    cases hj : q.jobs with
    | nil => simp [SerialQueue.step, hj] at h
    | cons pc l =>
      rw [hj, List.length_cons] at h1
      exact ⟨pc, by rw [List.eq_nil_of_length_eq_zero (l := l) (by omega)]⟩
  have hne : pc = .begin → q.queue ≠ [] := by
    intro hb
    cases V with
    | job pc' _ _ _ h5 h6 => rw [hj] at h5; cases h5; exact h6 (.inl hb)
    | idle _ _ _ _ h5 => simp [hj] at h5
    | kick _ _ _ _ h5 => simp [hj] at h5
    | pending _ _ _ _ h5 => simp [hj] at h5
  simp only [SerialQueue.step, hj, List.getElem?_cons_zero] at h
  cases pc with
  | begin =>
    refine ⟨fun h => by simp [hj] at h, fun _ => ?_⟩
    have hq := hne rfl
    simp only at h
    split at h <;> cases h
    rename_i ts q1 hf
    cases hm : m <;> rw [hm] at hf <;> simp only [SerialQueue.fetch] at hf
    · split at hf <;> cases hf
      rename_i h0
      simp only [wqueue, hj, h0, List.length_cons, List.length_nil, Nat.succ_mul, List.set_cons_zero, List.map_cons, List.map_nil, List.sum_cons, List.sum_nil, wjob]
      omega
    · cases hf
      simp only [wqueue, hj, List.length_nil, List.set_cons_zero, List.map_cons, List.map_nil, List.sum_cons, List.sum_nil, wjob]
      obtain ⟨n, hn⟩ : ∃ n, q.queue.length = n + 1 := ⟨q.queue.length - 1, by have := List.length_pos_iff.mpr hq; omega⟩
      rw [hn, Nat.add_mul, Nat.one_mul]
      have : n * 6 ≤ n * (S + 6) := Nat.mul_le_mul_left _ (by omega)
      omega
  | loop ts =>
    refine ⟨fun h => by simp [hj] at h, fun _ => ?_⟩
    cases ts with
    | nil =>
      simp only at h
      split at h <;> cases h <;>
        simp only [wqueue, hj, List.eraseIdx_cons_zero, List.set_cons_zero, List.map_cons, List.map_nil, List.sum_cons, List.sum_nil, wjob,
          List.length_nil] <;> omega
    | cons t ts =>
      cases h
      simp only [wqueue, hj, List.set_cons_zero, List.map_cons, List.map_nil, List.sum_cons, List.sum_nil, wjob, List.length_cons]
      omega
  | calling t ts =>
    refine ⟨fun h => by simp [hj] at h, fun _ => ?_⟩
    cases h
    simp only [wqueue, hj, List.set_cons_zero, List.map_cons, List.map_nil, List.sum_cons, List.sum_nil, wjob]
    omega
  | resubmit =>
    refine ⟨fun _ => ?_, fun h => absurd hj h⟩
    cases h
    simp only [wqueue, hj, List.eraseIdx_cons_zero, List.map_cons, List.map_nil, List.sum_cons, List.sum_nil, wjob, Nat.succ_mul]
    omega

/-- Giving a job to the executor makes work, less than what was set aside for it. -/
theorem mu_submit (O : C.Ok) {k : Nat} (hk : k < C.M) (h : submit C s k = some s') : mu C s' + 2 ≤ mu C s + cost k := by
  have h0 := cost_pos k
  simp only [submit] at h
  split at h
  · cases h; omega
  · next p hp =>
    obtain ⟨s1, h1, h2⟩ := Option.map_eq_some_iff.mp h
    obtain ⟨q, hq, rfl⟩ := put_ok h1
    subst h2
    have h3 := wqueue_enqueue (S := cost p) hq
    have h4 := cost_parent (O.parent k p hp)
    have h5 := mu_put (s := s) (q := q) (parent_lt O hk hp)
    simp only [mu] at h5 ⊢
    omega

/-- **C112**: every step the queues take by themselves leaves less to do. -/
theorem c112_terminates (O : C.Ok) (r : Reachable C s) {a : Act} (ha : internal a = true) (h : step C s a = some s') : mu C s' < mu C s := by
  have I := r.inv O
  cases a with
  | enqueue j => cases ha
  | kick j =>
    obtain ⟨s1, h1, h2⟩ := Option.bind_eq_some_iff.mp h
    have hj := (I.kick O h1).1
    have h3 := mu_submit O hj h2
    obtain ⟨q, hq, rfl⟩ := put_ok h1
    have h4 := mu_put (s := s) (q := q) hj
    have h5 := wqueue_kick (S := cost j) hq
    omega
  | run j =>
    simp only [step] at h
    split at h
    · obtain ⟨q, hq, rfl⟩ := put_ok h
      have h4 := mu_put (s := s) (q := q) (I.lt hq (by simp))
      have h5 := wqueue_runJob (S := cost j) hq
      omega
    · cases h
  | adv j =>
    simp only [step] at h
    split at h
    · next t ts hj =>
      obtain ⟨s1, h1, h2⟩ := Option.bind_eq_some_iff.mp h
      obtain ⟨q, hq, rfl⟩ := put_ok h1
      have h4 := mu_put (s := s) (q := q) (I.lt hq (by simp))
      have h5 := (wqueue_advance (S := cost j) (I.reach j) hq).2 (by simp [hj])
      simp only [enter] at h2
      split at h2
      · cases h2; omega
      · next k ho =>
        have hkj := O.parent _ _ (I.own j t k ho).1
        obtain ⟨q', hq', rfl⟩ := put_ok h2
        simp only [upd_ne _ _ (show k ≠ j by omega)] at hq'
        have h6 := mu_put (s := { s with q := upd s.q j q }) (q := q') (I.lt hq' (by simp))
        have h7 := wqueue_runJob (S := cost k) hq'
        simp only [upd_ne _ _ (show k ≠ j by omega)] at h6
        simp only at h6 ⊢
        omega
    · next t ts hj =>
      split at h
      · obtain ⟨q, hq, rfl⟩ := put_ok h
        have h4 := mu_put (s := s) (q := q) (I.lt hq (by simp))
        have h5 := (wqueue_advance (S := cost j) (I.reach j) hq).2 (by simp [hj])
        omega
      · cases h
    · next hj =>
      obtain ⟨s1, h1, h2⟩ := Option.bind_eq_some_iff.mp h
      obtain ⟨q, hq, rfl⟩ := put_ok h1
      have hlt := I.lt hq (by simp)
      have h3 := mu_submit O hlt h2
      have h4 := mu_put (s := s) (q := q) hlt
      have h5 := (wqueue_advance (S := cost j) (I.reach j) hq).1 hj
      omega
    · next n1 n2 n3 =>
      obtain ⟨q, hq, rfl⟩ := put_ok h
      have h4 := mu_put (s := s) (q := q) (I.lt hq (by simp))
      have h5 := (wqueue_advance (S := cost j) (I.reach j) hq).2 n3
      omega

/-- **C112**: there is no infinite run in which, from some time on, no user gives a task to a queue. -/
theorem c112_no_infinite_run (O : C.Ok) (run : Nat → St) (r : Reachable C (run 0)) : ¬∀ n, Next C (run n) (run (n + 1)) := by
  intro h
  have reach : ∀ n, Reachable C (run n) := by
    intro n
    induction n with
    | zero => exact r
    | succ n ih => obtain ⟨a, _, hs⟩ := h n; exact .step a ih hs
  have key : ∀ n, mu C (run n) + n ≤ mu C (run 0) := by
    intro n
    induction n with
    | zero => omega
    | succ n ih =>
      obtain ⟨a, ha, hs⟩ := h n
      have := c112_terminates O (reach n) ha hs
      omega
  have := key (mu C (run 0) + 1)
  omega

/-- **C112**: whatever order the steps are taken in, the queues come to rest. -/
theorem c112_rest (O : C.Ok) (r : Reachable C s) : Eventually C (AtRest C) s := by
  generalize hm : mu C s = m
  induction m using Nat.strongRecOn generalizing s with
  | ind m ih =>
    by_cases h : ∃ s', Next C s s'
    · refine .later h fun s' hn => ?_
      obtain ⟨a, ha, hs⟩ := hn
      exact ih (mu C s') (hm ▸ c112_terminates O r ha hs) (.step a r hs) rfl
    · exact .now fun s' hs => h ⟨s', hs⟩

theorem submit_some (C : Cfg) (s : St) (k : Nat) : ∃ s', submit C s k = some s' := by
  simp only [submit]
  split
  · exact ⟨_, rfl⟩
  · next p _ =>
    have : ∃ q, SerialQueue.step (C.mode p) (s.q p) .enqueue = .ok q := ⟨_, rfl⟩
    obtain ⟨q, hq⟩ := this
    rw [put_of hq]
    exact ⟨_, rfl⟩

theorem advance_some {m : Mode} {q : SerialQueue.St} (r : SerialQueue.Reachable m q) {pc : Pc} (h : q.jobs = [pc]) :
    ∃ q', SerialQueue.step m q (.advance 0) = .ok q' := by
  have hu := SerialQueue.c23_no_undefined r (.advance 0)
  simp only [SerialQueue.step, h, List.getElem?_cons_zero] at hu ⊢
  cases pc with
  | begin =>
    simp only at hu ⊢
    split
    · next hf => rw [hf] at hu; exact absurd rfl hu
    · exact ⟨_, rfl⟩
  | loop ts =>
    cases ts with
    | nil => simp only; split <;> exact ⟨_, rfl⟩
    | cons t ts => exact ⟨_, rfl⟩
  | calling t ts => exact ⟨_, rfl⟩
  | resubmit => exact ⟨_, rfl⟩

/-- A queue at rest executes no job. -/
theorem rest_jobs (O : C.Ok) (r : Reachable C s) (h : AtRest C s) (j : Nat) : (s.q j).jobs = [] := by
  have I := r.inv O
  have no : ∀ a s', internal a = true → step C s a ≠ some s' := fun a s' ha hs => h s' ⟨a, ha, hs⟩
  generalize hd : C.M - j = d
  induction d using Nat.strongRecOn generalizing j with
  | ind d ih =>
    rcases Nat.lt_or_ge j C.M with hj | hj
    · have h1 := SerialQueue.c22_one_job (I.reach j)
      cases hl : (s.q j).jobs with
      | nil => rfl
      | cons pc l =>
        exfalso
        rw [hl, List.length_cons] at h1
        have hl' : l = [] := List.eq_nil_of_length_eq_zero (by omega)
        subst hl'
        obtain ⟨q, hq⟩ := advance_some (I.reach j) hl
        have hp := put_of (s := s) hq
        cases pc with
        | begin => exact no (.adv j) _ rfl (by simp only [step, hl]; exact hp)
        | loop ts =>
          cases ts with
          | nil => exact no (.adv j) _ rfl (by simp only [step, hl]; exact hp)
          | cons t ts =>
            have hs : step C s (.adv j) = enter C { s with q := upd s.q j q } j t := by simp only [step, hl, hp, Option.bind_some]
            cases ho : s.owner j t with
            | none => exact no (.adv j) { s with q := upd s.q j q } rfl (by rw [hs]; simp only [enter, ho])
            | some k =>
              have hkj := (I.own j t k ho).1
              have hlt := O.parent _ _ hkj
              have hw := I.pen k j hkj
              have hw1 : 0 < waiting s j k := by
                simp only [waiting, List.countP_pos_iff]
                exact ⟨t, by simp [unstarted, hl, SerialQueue.localTasks], by simp [ho]⟩
              have hk : ∃ q', SerialQueue.step (C.mode k) (s.q k) .runJob = .ok q' := by
                simp only [SerialQueue.step]
                rw [if_neg (by omega)]
                exact ⟨_, rfl⟩
              obtain ⟨q', hq'⟩ := hk
              have := put_of (C := C) (s := { s with q := upd s.q j q }) (j := k) (a := .runJob) (q := q')
                (by simp only [upd_ne _ _ (show k ≠ j by omega)]; exact hq')
              exact no (.adv j) _ rfl (by rw [hs]; simp only [enter, ho]; exact this)
        | calling t ts =>
          have ho : over s j t = true := by
            simp only [over]
            split
            · rfl
            · next k ho =>
              have hlt := O.parent _ _ (I.own j t k ho).1
              rw [ih (C.M - k) (by omega) k rfl]
              rfl
          exact no (.adv j) _ rfl (by simp only [step, hl, ho, if_true]; exact hp)
        | resubmit =>
          obtain ⟨s2, h2⟩ := submit_some C { s with q := upd s.q j q } j
          exact no (.adv j) s2 rfl (by simp only [step, hl, hp, Option.bind_some]; exact h2)
    · rw [I.out j hj]

theorem rest_kicks (h : AtRest C s) (j : Nat) : (s.q j).kicks = 0 := by
  rcases Nat.eq_zero_or_pos (s.q j).kicks with h0 | h0
  · exact h0
  · exfalso
    have : ∃ q, SerialQueue.step (C.mode j) (s.q j) .kick = .ok q := by
      simp only [SerialQueue.step]
      rw [if_neg (by omega)]
      exact ⟨_, rfl⟩
    obtain ⟨q, hq⟩ := this
    obtain ⟨s2, h2⟩ := submit_some C { s with q := upd s.q j q } j
    exact h s2 ⟨.kick j, rfl, by simp only [step, put_of hq, Option.bind_some]; exact h2⟩

theorem rest_pending (O : C.Ok) (r : Reachable C s) (h : AtRest C s) (j : Nat) : (s.q j).pending = 0 := by
  have I := r.inv O
  induction j using Nat.strongRecOn with
  | ind j ih =>
    cases hp : C.parent j with
    | none =>
      rcases Nat.eq_zero_or_pos (s.q j).pending with h0 | h0
      · exact h0
      · exfalso
        have : ∃ q, SerialQueue.step (C.mode j) (s.q j) .runJob = .ok q := by
          simp only [SerialQueue.step]
          rw [if_neg (by omega)]
          exact ⟨_, rfl⟩
        obtain ⟨q, hq⟩ := this
        exact h _ ⟨.run j, rfl, by simp only [step, hp, if_true]; exact put_of hq⟩
    | some p =>
      have h1 := ih p (O.parent _ _ hp)
      have h2 := rest_kicks h p
      have h3 := rest_jobs O r h p
      have h4 : (s.q p).queue = [] := by
        cases (I.reach p).inv.token with
        | idle _ h5 _ _ _ => exact h5
        | kick _ _ h5 _ _ => omega
        | pending _ _ _ h5 _ => omega
        | job pc _ _ _ h5 _ => rw [h3] at h5; cases h5
      have h5 := I.pen j p hp
      simp [waiting, unstarted, h3, h4, SerialQueue.localTasks] at h5
      omega

/-- **C112**: when the queues are at rest, every task given to any of them was executed, in the order in which they were given to it. -/
theorem c112_all_executed (O : C.Ok) (r : Reachable C s) (h : AtRest C s) (j : Nat) :
    SerialQueue.finished (s.q j).trace = SerialQueue.submitted (s.q j).trace :=
  SerialQueue.c23_quiescent (c112_parts O r j) ⟨rest_kicks h j, rest_pending O r h j, rest_jobs O r h j⟩

theorem put_next {i : Nat} {a : SerialQueue.Act} (r : SerialQueue.Reachable (C.mode i) (s.q i)) (ha : a ≠ .advance 0 → ∀ n, a ≠ .advance n)
    (h : put C s i a = some s') (j : Nat) : (s.q j).next ≤ (s'.q j).next := by
  obtain ⟨q, hq, rfl⟩ := put_ok h
  by_cases hj : j = i
  · subst hj
    simp only [upd_same]
    cases a with
    | enqueue => have := (enqueue_ok hq).2.2.1; omega
    | kick => have := (kick_ok hq).2.2.1; omega
    | runJob => have := (runJob_ok r hq).2.2.2.1; omega
    | advance n =>
      by_cases hn : n = 0
      · subst hn; have := (advance_ok r hq).1; omega
      · exact absurd rfl (ha (by simp [hn]) n)
  · simp only [upd_ne _ _ hj]; exact Nat.le_refl _

theorem submit_next {k : Nat} (r : ∀ j, SerialQueue.Reachable (C.mode j) (s.q j)) (h : submit C s k = some s') (j : Nat) :
    (s.q j).next ≤ (s'.q j).next := by
  simp only [submit] at h
  split at h
  · cases h; exact Nat.le_refl _
  · obtain ⟨s1, h1, rfl⟩ := Option.map_eq_some_iff.mp h
    exact put_next (r _) (by simp) h1 j

theorem put_reach {i : Nat} {a : SerialQueue.Act} (r : ∀ j, SerialQueue.Reachable (C.mode j) (s.q j)) (h : put C s i a = some s') (j : Nat) :
    SerialQueue.Reachable (C.mode j) (s'.q j) := by
  obtain ⟨q, hq, rfl⟩ := put_ok h
  by_cases hj : j = i
  · subst hj; simp only [upd_same]; exact snoc (r j) hq
  · simp only [upd_ne _ _ hj]; exact r j

theorem step_next (O : C.Ok) (r : Reachable C s) {a : Act} (h : step C s a = some s') (j : Nat) : (s.q j).next ≤ (s'.q j).next := by
  have R := (r.inv O).reach
  cases a with
  | enqueue i =>
    simp only [step] at h
    split at h
    · exact put_next (R _) (by simp) h j
    · cases h
  | kick i =>
    obtain ⟨s1, h1, h2⟩ := Option.bind_eq_some_iff.mp h
    exact Nat.le_trans (put_next (R _) (by simp) h1 j) (submit_next (put_reach R h1) h2 j)
  | run i =>
    simp only [step] at h
    split at h
    · exact put_next (R _) (by simp) h j
    · cases h
  | adv i =>
    simp only [step] at h
    split at h
    · obtain ⟨s1, h1, h2⟩ := Option.bind_eq_some_iff.mp h
      refine Nat.le_trans (put_next (R _) (by simp) h1 j) ?_
      simp only [enter] at h2
      split at h2
      · cases h2; exact Nat.le_refl _
      · exact put_next (put_reach R h1 _) (by simp) h2 j
    · split at h
      · exact put_next (R _) (by simp) h j
      · cases h
    · obtain ⟨s1, h1, h2⟩ := Option.bind_eq_some_iff.mp h
      exact Nat.le_trans (put_next (R _) (by simp) h1 j) (submit_next (put_reach R h1) h2 j)
    · exact put_next (R _) (by simp) h j

/-- **C112**: every task given to a queue is executed, whatever the queue is over and whatever order the steps are taken in. -/
theorem c112_executed (O : C.Ok) (r : Reachable C s) {j t : Nat} (h : SerialQueue.Event.submit t ∈ (s.q j).trace) :
    Eventually C (fun s' => SerialQueue.Event.finish t ∈ (s'.q j).trace) s := by
  have h0 : t < (s.q j).next := by
    have := SerialQueue.mem_submitted.2 h
    rw [((r.inv O).reach j).inv.subs] at this
    exact List.mem_range.mp this
  clear h
  generalize hm : mu C s = m
  induction m using Nat.strongRecOn generalizing s with
  | ind m ih =>
    by_cases h : ∃ s', Next C s s'
    · refine .later h fun s' hn => ?_
      obtain ⟨a, ha, hs⟩ := hn
      exact ih (mu C s') (hm ▸ c112_terminates O r ha hs) (.step a r hs) (Nat.lt_of_lt_of_le h0 (step_next O r hs j)) rfl
    · refine .now (SerialQueue.mem_finished.1 ?_)
      rw [c112_all_executed O r (fun s' hs => h ⟨s', hs⟩) j, ((r.inv O).reach j).inv.subs]
      exact List.mem_range.mpr h0

/-! ## A concrete case -/

theorem Reachable.exec : ∀ {as : List Act} {s s' : St}, Reachable C s → SerialTree.exec C s as = some s' → Reachable C s'
  | [], _, _, r, h => by cases h; exact r
  | a :: as, s, s', r, h => by
    obtain ⟨s1, h1, h2⟩ := Option.bind_eq_some_iff.mp h
    exact Reachable.exec (.step a r h1) h2

/-- Queue 0 is over an executor that is no serial queue, 1 and 3 are over 0, and 2 is over 1. -/
def cfg : Cfg where
  M := 4
  mode j := if j = 1 then .all else .single
  parent j := if j = 1 ∨ j = 3 then some 0 else if j = 2 then some 1 else none

theorem cfg_ok : cfg.Ok where
  parent k p h := by
    simp only [cfg] at h
    split at h
    · cases h; omega
    · split at h
      · cases h; omega
      · cases h

/-- Users give tasks to queues 2, 0 and 3, and the job of queue 2 is executed by that of queue 1, which is executed by that of queue 0. -/
def run : List Act :=
  [.enqueue 2, .enqueue 0, .kick 2, .enqueue 3, .kick 1, .kick 0, .kick 3, .run 0, .adv 0, .adv 0, .adv 0, .adv 0, .adv 0, .run 0, .adv 0, .adv 0, .adv 1, .adv 1,
    .adv 2, .adv 2]

def mid : St := (exec cfg {} run).getD {}

theorem mid_ok : exec cfg {} run = some mid := by
  have : (exec cfg {} run).isSome = true := by decide
  obtain ⟨x, hx⟩ := Option.isSome_iff_exists.mp this
  simp [mid, hx]

example : Reachable cfg mid := Reachable.init.exec mid_ok

/-- The task given to queue 2 is being called, by a job that is task 0 of queue 1, by a job that is task 1 of queue 0. -/
example : Calling mid 2 0 ∧ Over cfg 0 2 2 := by
  refine ⟨⟨⟨[], by decide⟩, by decide⟩, .up (p := 1) (by decide) (.up (p := 0) (by decide) .here)⟩

example : (mid.q 1).jobs = [.calling 0 []] ∧ mid.owner 1 0 = some 2 ∧ (mid.q 0).jobs = [.calling 1 []] ∧ mid.owner 0 1 = some 1 := by decide

/-- Queue 3 waits: its job is a task of queue 0 not started yet. -/
example : (mid.q 3).queue = [0] ∧ (mid.q 3).pending = 1 ∧ (mid.q 0).queue = [2] ∧ mid.owner 0 2 = some 3 := by decide

example : step cfg mid (.adv 0) = none ∧ step cfg mid (.adv 1) = none ∧ step cfg mid (.run 3) = none := by
  refine ⟨?_, ?_, ?_⟩ <;> rfl

def last : St :=
  (exec cfg mid [.adv 2, .adv 2, .adv 1, .adv 1, .adv 0, .adv 0, .adv 0, .run 0, .adv 0, .adv 0, .adv 3, .adv 3, .adv 3, .adv 3, .adv 0, .adv 0]).getD {}

example : (∀ j < 4, (last.q j).jobs = [] ∧ (last.q j).queue = [] ∧ (last.q j).kicks = 0 ∧ (last.q j).pending = 0) ∧
    SerialQueue.finished (last.q 0).trace = [0, 1, 2] ∧ SerialQueue.finished (last.q 2).trace = [0] ∧ SerialQueue.finished (last.q 3).trace = [0] := by decide

end Verif.SerialTree
