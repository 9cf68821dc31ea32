import Verif.SerialQueueProps

/-!
# Serial queues over serial queues (include/stlab/concurrency/serial_queue.hpp)

The executor a `serial_queue_t` is constructed with (lines 149-152) may be the one of another serial queue (lines 154-159), which may itself be over a
third one, and so on: the queues are the nodes of a forest. Every queue is a copy of the transition system of `Verif.SerialQueue`. The jobs of a queue at
a root are executed by an executor that may take any time; a job of any other queue is a task of the queue it is over: giving the job to the executor
(lines 86, 96, 131) is `enqueue` there, and the job is executed when that queue calls the task.

Simplifications are those of `Verif.SerialQueue`. A thread in `enqueue` of one queue that goes on into `enqueue` of the queue below it does this in one
step (the critical sections of different queues do not interact), and calls the executor of that queue in a later one.
-/

namespace Verif.SerialTree

open Verif.SerialQueue (Mode)

def upd {α : Type} (f : Nat → α) (i : Nat) (v : α) : Nat → α := fun j => if j = i then v else f j

structure Cfg where
  /-- number of queues -/
  M : Nat
  mode : Nat → Mode
  /-- the queue whose executor it was constructed with; none: another executor -/
  parent : Nat → Option Nat

/-- A queue is constructed after the one it is over. -/
structure Cfg.Ok (C : Cfg) : Prop where
  parent : ∀ k p, C.parent k = some p → p < k

structure St where
  q : Nat → SerialQueue.St := fun _ => {}
  /-- task `t` of queue `j` is a job of this queue; none: a task of a user -/
  owner : Nat → Nat → Option Nat := fun _ _ => none

inductive Act where
  /-- a user gives a task to queue `j` (lines 117-133) -/
  | enqueue (j : Nat)
  /-- a thread in `enqueue` of queue `j` calls its executor (line 131) -/
  | kick (j : Nat)
  /-- the executor of queue `j`, which is no serial queue, starts a job it was given -/
  | run (j : Nat)
  /-- the job of queue `j` that is being executed takes its next step -/
  | adv (j : Nat)
  deriving DecidableEq, Repr

/-- Queue `j` takes a step. -/
def put (C : Cfg) (s : St) (j : Nat) (a : SerialQueue.Act) : Option St :=
  match SerialQueue.step (C.mode j) (s.q j) a with
  | .ok q => some { s with q := upd s.q j q }
  | _ => none

/-- A job of queue `k` is given to its executor. -/
def submit (C : Cfg) (s : St) (k : Nat) : Option St :=
  match C.parent k with
  | none => some s
  | some p => (put C s p .enqueue).map fun s' => { s' with owner := upd s.owner p (upd (s.owner p) (s.q p).next (some k)) }

/-- Task `t` of queue `j` is called: if it is a job of another queue, that is executed now. -/
def enter (C : Cfg) (s : St) (j t : Nat) : Option St :=
  match s.owner j t with
  | none => some s
  | some k => put C s k .runJob

/-- Task `t` of queue `j` may return: if it is a job of another queue, nothing of that is left. -/
def over (s : St) (j t : Nat) : Bool :=
  match s.owner j t with
  | none => true
  | some k => (s.q k).jobs.isEmpty

def step (C : Cfg) (s : St) : Act → Option St
  | .enqueue j => if j < C.M then put C s j .enqueue else none
  | .kick j => (put C s j .kick).bind fun s => submit C s j
  | .run j => if C.parent j = none then put C s j .runJob else none
  | .adv j =>
    match (s.q j).jobs with
    | [.loop (t :: _)] => (put C s j (.advance 0)).bind fun s => enter C s j t
    | [.calling t _] => if over s j t then put C s j (.advance 0) else none
    | [.resubmit] => (put C s j (.advance 0)).bind fun s => submit C s j
    | _ => put C s j (.advance 0)

def exec (C : Cfg) (s : St) : List Act → Option St
  | [] => some s
  | a :: as => (step C s a).bind fun s' => exec C s' as

/-- States reachable by any steps. -/
inductive Reachable (C : Cfg) : St → Prop
  | init : Reachable C {}
  | step {s s' : St} (a : Act) : Reachable C s → step C s a = some s' → Reachable C s'

/-- The steps with which the queues go on by themselves. -/
def internal : Act → Bool
  | .enqueue _ => false
  | _ => true

/-! ## What a step of one queue does -/

variable {C : Cfg} {s s' : St}

/-- The tasks not started yet. -/
def unstarted (q : SerialQueue.St) : List Nat := SerialQueue.localTasks q.jobs ++ q.queue

theorem put_ok {j : Nat} {a : SerialQueue.Act} (h : put C s j a = some s') :
    ∃ q, SerialQueue.step (C.mode j) (s.q j) a = .ok q ∧ s' = { s with q := upd s.q j q } := by
  simp only [put] at h
  split at h <;> cases h
  exact ⟨_, ‹_›, rfl⟩

theorem put_of {j : Nat} {a : SerialQueue.Act} {q : SerialQueue.St} (h : SerialQueue.step (C.mode j) (s.q j) a = .ok q) :
    put C s j a = some { s with q := upd s.q j q } := by simp [put, h]

theorem snoc {m : Mode} {q q' : SerialQueue.St} (r : SerialQueue.Reachable m q) {a : SerialQueue.Act} (e : SerialQueue.step m q a = .ok q') :
    SerialQueue.Reachable m q' := by
  obtain ⟨as, h⟩ := r
  refine ⟨as ++ [a], ?_⟩
  generalize ({} : SerialQueue.St) = s0 at *
  induction as generalizing s0 with
  | nil => simp only [SerialQueue.exec, Option.some.injEq] at h; subst h; simp [SerialQueue.exec, e]
  | cons b bs ih =>
    simp only [SerialQueue.exec, List.cons_append] at h ⊢
    cases hb : SerialQueue.step m s0 b with
    | ok s1 => rw [hb] at h; exact ih s1 h
    | _ => rw [hb] at h; cases h

theorem enqueue_ok {m : Mode} {q q' : SerialQueue.St} (h : SerialQueue.step m q .enqueue = .ok q') :
    q'.jobs = q.jobs ∧ q'.pending = q.pending ∧ q'.next = q.next + 1 ∧ unstarted q' = unstarted q ++ [q.next] := by
  simp only [SerialQueue.step, SerialQueue.Out.ok.injEq] at h
  subst h
  simp [unstarted]

theorem kick_ok {m : Mode} {q q' : SerialQueue.St} (h : SerialQueue.step m q .kick = .ok q') :
    q'.jobs = q.jobs ∧ q'.pending = q.pending + 1 ∧ q'.next = q.next ∧ unstarted q' = unstarted q := by
  simp only [SerialQueue.step] at h
  split at h <;> cases h
  simp [unstarted]

theorem runJob_ok {m : Mode} {q q' : SerialQueue.St} (r : SerialQueue.Reachable m q) (h : SerialQueue.step m q .runJob = .ok q') :
    q.jobs = [] ∧ q'.jobs = [.begin] ∧ q.pending = q'.pending + 1 ∧ q'.next = q.next ∧ unstarted q' = unstarted q := by
  have h1 := SerialQueue.c22_one_job r
  simp only [SerialQueue.step] at h
  split at h <;> cases h
  have hj : q.jobs = [] := List.eq_nil_of_length_eq_zero (by omega)
  simp only [hj, unstarted, SerialQueue.localTasks, List.nil_append, and_true, true_and]
  omega

/-- A step of the job. -/
theorem advance_ok {m : Mode} {q q' : SerialQueue.St} (r : SerialQueue.Reachable m q) (h : SerialQueue.step m q (.advance 0) = .ok q') :
    q'.next = q.next ∧
      ((q.jobs = [.begin] ∧ (∃ ts, q'.jobs = [.loop ts]) ∧ q'.pending = q.pending ∧ unstarted q' = unstarted q) ∨
       (∃ t ts, q.jobs = [.loop (t :: ts)] ∧ q'.jobs = [.calling t ts] ∧ q'.pending = q.pending ∧ unstarted q = t :: unstarted q') ∨
       (∃ t ts, q.jobs = [.calling t ts] ∧ q'.jobs = [.loop ts] ∧ q'.pending = q.pending ∧ unstarted q' = unstarted q) ∨
       (q.jobs = [.loop []] ∧ (q'.jobs = [] ∨ q'.jobs = [.resubmit]) ∧ q'.pending = q.pending ∧ unstarted q' = unstarted q) ∨
       (q.jobs = [.resubmit] ∧ q'.jobs = [] ∧ q'.pending = q.pending + 1 ∧ unstarted q' = unstarted q)) := by
  have h1 := SerialQueue.c22_one_job r
  obtain ⟨pc, hj⟩ : ∃ pc, q.jobs = [pc] := by
    cases hj : q.jobs with
    | nil => simp [SerialQueue.step, hj] at h
    | cons pc l =>
      rw [hj, List.length_cons] at h1
      exact ⟨pc, by rw [List.eq_nil_of_length_eq_zero (l := l) (by omega)]⟩
  simp only [SerialQueue.step, hj, List.getElem?_cons_zero] at h
  cases pc with
  | begin =>
    simp only at h
    split at h <;> cases h
    rename_i ts q1 hf
    refine ⟨rfl, .inl ⟨hj, ⟨ts, by simp⟩, rfl, ?_⟩⟩
    cases hm : m <;> rw [hm] at hf <;> simp only [SerialQueue.fetch] at hf
    · split at hf <;> cases hf
      simp_all [unstarted, SerialQueue.localTasks]
    · cases hf
      simp_all [unstarted, SerialQueue.localTasks]
  | loop ts =>
    cases ts with
    | nil =>
      simp only at h
      split at h <;> cases h
      · exact ⟨rfl, .inr (.inr (.inr (.inl ⟨hj, .inl (by simp), rfl, by simp [unstarted, hj, SerialQueue.localTasks]⟩)))⟩
      · exact ⟨rfl, .inr (.inr (.inr (.inl ⟨hj, .inr (by simp), rfl, by simp [unstarted, hj, SerialQueue.localTasks]⟩)))⟩
    | cons t ts =>
      cases h
      exact ⟨rfl, .inr (.inl ⟨t, ts, hj, by simp, rfl, by simp [unstarted, hj, SerialQueue.localTasks]⟩)⟩
  | calling t ts =>
    cases h
    exact ⟨rfl, .inr (.inr (.inl ⟨t, ts, hj, by simp, rfl, by simp [unstarted, hj, SerialQueue.localTasks]⟩))⟩
  | resubmit =>
    cases h
    exact ⟨rfl, .inr (.inr (.inr (.inr ⟨hj, by simp, rfl, by simp [unstarted, hj, SerialQueue.localTasks]⟩)))⟩

/-! ## Invariant -/

/-- How many jobs of queue `k` are tasks of queue `p` that were not started. -/
def waiting (s : St) (p k : Nat) : Nat := (unstarted (s.q p)).countP fun t => s.owner p t = some k

/-- `e`: the queue a job of which was counted as given to the executor and is not a task there, in the middle of a step. -/
structure Inv (C : Cfg) (s : St) (e : Option Nat) : Prop where
  reach : ∀ j, SerialQueue.Reachable (C.mode j) (s.q j)
  own : ∀ p t k, s.owner p t = some k → C.parent k = some p ∧ t < (s.q p).next
  act : ∀ k p, C.parent k = some p → (s.q k).jobs ≠ [] → ∃ t ts, (s.q p).jobs = [.calling t ts] ∧ s.owner p t = some k
  pen : ∀ k p, C.parent k = some p → waiting s p k + (if e = some k then 1 else 0) = (s.q k).pending
  out : ∀ j, C.M ≤ j → s.q j = {}

theorem upd_same {α : Type} (f : Nat → α) (i : Nat) (v : α) : upd f i v i = v := by simp [upd]

theorem upd_ne {α : Type} (f : Nat → α) {i j : Nat} (v : α) (h : j ≠ i) : upd f i v j = f j := by simp [upd, h]

theorem Inv.init : Inv C {} none where
  reach _ := ⟨[], rfl⟩
  own _ _ _ h := by cases h
  act _ _ _ h := absurd rfl h
  pen _ _ _ := rfl
  out _ _ := rfl

/-- One queue takes a step. -/
theorem Inv.change {e e' : Option Nat} (O : C.Ok) (I : Inv C s e) {j : Nat} {q : SerialQueue.St} (hj : j < C.M)
    (hr : SerialQueue.Reachable (C.mode j) q) (hn : (s.q j).next ≤ q.next)
    (ha : q.jobs ≠ [] → ∀ p, C.parent j = some p → ∃ t ts, (s.q p).jobs = [.calling t ts] ∧ s.owner p t = some j)
    (hc : ∀ k, C.parent k = some j → (s.q k).jobs ≠ [] → ∃ t ts, q.jobs = [.calling t ts] ∧ s.owner j t = some k)
    (hp : ∀ p, C.parent j = some p → waiting s p j + (if e' = some j then 1 else 0) = q.pending)
    (hw : ∀ k, C.parent k = some j →
      (unstarted q).countP (fun t => s.owner j t = some k) + (if e' = some k then 1 else 0) = waiting s j k + (if e = some k then 1 else 0))
    (he : ∀ k, k ≠ j → C.parent k ≠ some j → (if e' = some k then 1 else 0) = (if e = some k then 1 else 0)) :
    Inv C { s with q := upd s.q j q } e' where
  reach k := by
    by_cases h : k = j
    · subst h; simp only [upd_same]; exact hr
    · simp only [upd_ne _ _ h]; exact I.reach k
  own p t k h := by
    obtain ⟨h1, h2⟩ := I.own p t k h
    refine ⟨h1, ?_⟩
    by_cases h : p = j
    · subst h; simp only [upd_same]; omega
    · simp only [upd_ne _ _ h]; exact h2
  act k p hkp h := by
    have hlt := O.parent k p hkp
    by_cases h1 : k = j
    · subst h1
      simp only [upd_same] at h
      simp only [upd_ne _ _ (show p ≠ k by omega)]
      exact ha h p hkp
    · simp only [upd_ne _ _ h1] at h
      by_cases h2 : p = j
      · subst h2; simp only [upd_same]; exact hc k hkp h
      · simp only [upd_ne _ _ h2]; exact I.act k p hkp h
  pen k p hkp := by
    have hlt := O.parent k p hkp
    have h0 := I.pen k p hkp
    by_cases h1 : k = j
    · subst h1
      have h3 := hp p hkp
      simp only [waiting, upd_same, upd_ne _ _ (show p ≠ k by omega)] at h3 ⊢
      exact h3
    · by_cases h2 : p = j
      · subst h2
        have h3 := hw k hkp
        simp only [waiting, upd_same, upd_ne _ _ h1] at h3 h0 ⊢
        omega
      · have h3 := he k h1 (fun h => h2 (by rw [hkp] at h; exact Option.some.inj h))
        simp only [waiting, upd_ne _ _ h1, upd_ne _ _ h2] at h0 ⊢
        omega
  out k hk := by
    simp only [upd_ne _ _ (show k ≠ j by omega)]
    exact I.out k hk

/-- A queue that takes a step other than `enqueue` is one of the queues. -/
theorem Inv.lt {e : Option Nat} (I : Inv C s e) {j : Nat} {a : SerialQueue.Act} {q : SerialQueue.St}
    (h : SerialQueue.step (C.mode j) (s.q j) a = .ok q) (ha : a ≠ .enqueue) : j < C.M := by
  rcases Nat.lt_or_ge j C.M with h1 | h1
  · exact h1
  · rw [I.out j h1] at h
    cases a <;> simp [SerialQueue.step] at h ha

theorem parent_lt (O : C.Ok) {j p : Nat} (hj : j < C.M) (hp : C.parent j = some p) : p < C.M :=
  Nat.lt_trans (O.parent j p hp) hj

theorem Inv.enqueue {e : Option Nat} (O : C.Ok) (I : Inv C s e) {j : Nat} (hj : j < C.M) (h : put C s j .enqueue = some s') : Inv C s' e := by
  obtain ⟨q, hq, rfl⟩ := put_ok h
  obtain ⟨h1, h2, h3, h4⟩ := enqueue_ok hq
  refine I.change O hj (snoc (I.reach j) hq) (by omega) (fun h p hp => I.act j p hp (h1 ▸ h)) (fun k hk h => h1 ▸ I.act k j hk h)
    (fun p hp => h2 ▸ I.pen j p hp) (fun k hk => ?_) (fun _ _ _ => rfl)
  have h5 : s.owner j (s.q j).next ≠ some k := fun h => by have := (I.own _ _ _ h).2; omega
  simp [h4, waiting, h5]

theorem Inv.kick (O : C.Ok) (I : Inv C s none) {j : Nat} (h : put C s j .kick = some s') : j < C.M ∧ Inv C s' (some j) := by
  obtain ⟨q, hq, rfl⟩ := put_ok h
  obtain ⟨h1, h2, h3, h4⟩ := kick_ok hq
  have hj := I.lt hq (by simp)
  refine ⟨hj, I.change O hj (snoc (I.reach j) hq) (by omega) (fun h p hp => I.act j p hp (h1 ▸ h)) (fun k hk h => h1 ▸ I.act k j hk h)
    (fun p hp => ?_) (fun k hk => ?_) (fun k h _ => by simp [Ne.symm h])⟩
  · have := I.pen j p hp
    simp only [h2, if_true]
    simpa using this
  · have : j ≠ k := by have := O.parent _ _ hk; omega
    simp [h4, waiting, this]

theorem Inv.run (O : C.Ok) (I : Inv C s none) {j : Nat} (hr : C.parent j = none) (h : put C s j .runJob = some s') : Inv C s' none := by
  obtain ⟨q, hq, rfl⟩ := put_ok h
  obtain ⟨h0, h1, h2, h3, h4⟩ := runJob_ok (I.reach j) hq
  refine I.change O (I.lt hq (by simp)) (snoc (I.reach j) hq) (by omega) (fun _ p hp => by simp [hr] at hp) (fun k hk h => ?_)
    (fun p hp => by simp [hr] at hp) (fun k hk => by simp [h4, waiting]) (fun _ _ _ => rfl)
  obtain ⟨t, ts, h5, _⟩ := I.act k j hk h
  simp [h0] at h5

theorem Inv.enter (O : C.Ok) {j t : Nat} {ts : List Nat} (I : Inv C s (s.owner j t)) (hj : (s.q j).jobs = [.calling t ts])
    (h : enter C s j t = some s') : Inv C s' none := by
  simp only [SerialTree.enter] at h
  split at h
  · next h0 => cases h; rw [h0] at I; exact I
  · next k h0 =>
    rw [h0] at I
    obtain ⟨q, hq, rfl⟩ := put_ok h
    obtain ⟨g0, h1, h2, h3, h4⟩ := runJob_ok (I.reach k) hq
    have hkj := (I.own _ _ _ h0).1
    refine I.change O (I.lt hq (by simp)) (snoc (I.reach k) hq) (by omega) (fun _ p hp => ?_) (fun i hi h => ?_)
      (fun p hp => ?_) (fun i hi => ?_) (fun i h _ => by simp [Ne.symm h])
    · rw [hkj] at hp; cases hp; exact ⟨t, ts, hj, h0⟩
    · obtain ⟨t, ts, h5, _⟩ := I.act i k hi h
      simp [g0] at h5
    · have := I.pen k p hp
      simp only [if_true] at this
      simp only [reduceCtorEq, if_false]
      omega
    · have : k ≠ i := by have := O.parent _ _ hi; omega
      simp [h4, waiting, this]

/-- The tasks a queue has not started, and the one it is calling, were given to it. -/
theorem unstarted_lt {m : Mode} {q : SerialQueue.St} (r : SerialQueue.Reachable m q) {t : Nat} (h : t ∈ unstarted q) : t < q.next := by
  have V := r.inv.order
  have h2 : t ∈ List.range q.next := by
    rw [← V, List.append_assoc]
    exact List.mem_append_right _ h
  exact List.mem_range.mp h2

theorem calling_lt {m : Mode} {q : SerialQueue.St} (r : SerialQueue.Reachable m q) {t : Nat} {ts : List Nat} (h : q.jobs = [.calling t ts]) :
    t < q.next := by
  have V := r.inv
  have h1 : t ∈ SerialQueue.started q.trace := by rw [← V.fin, h]; simp [SerialQueue.current]
  have h2 : t ∈ List.range q.next := by
    rw [← V.order, List.append_assoc]
    exact List.mem_append_left _ h1
  exact List.mem_range.mp h2

theorem Inv.submit (O : C.Ok) {k : Nat} (hk : k < C.M) (I : Inv C s (some k)) (h : submit C s k = some s') : Inv C s' none := by
  simp only [SerialTree.submit] at h
  split at h
  · next h0 =>
    cases h
    refine ⟨I.reach, I.own, I.act, fun i p hp => ?_, I.out⟩
    have := I.pen i p hp
    have hi : k ≠ i := fun h => by subst h; simp [h0] at hp
    simpa [hi] using this
  · next p h0 =>
    obtain ⟨s1, h1, h2⟩ := Option.map_eq_some_iff.mp h
    have J := I.enqueue O (parent_lt O hk h0) h1
    obtain ⟨q, hq, rfl⟩ := put_ok h1
    subst h2
    obtain ⟨g1, g2, g3, g4⟩ := enqueue_ok hq
    have hf : ∀ x t, upd s.owner p (upd (s.owner p) (s.q p).next (some k)) x t = if x = p ∧ t = (s.q p).next then some k else s.owner x t := by
      intro x t
      by_cases hx : x = p
      · subst hx; simp [upd]
      · simp [upd, hx]
    refine ⟨J.reach, fun x t i h => ?_, fun i x hi h => ?_, fun i x hi => ?_, J.out⟩
    · simp only [hf] at h
      split at h
      · next hx => cases h; exact ⟨hx.1 ▸ h0, by simp only [hx.1, upd_same]; omega⟩
      · exact J.own x t i h
    · obtain ⟨t, ts, h3, h4⟩ := J.act i x hi h
      refine ⟨t, ts, h3, ?_⟩
      simp only [hf]
      rw [if_neg]
      · exact h4
      · rintro ⟨rfl, rfl⟩
        simp only [upd_same, g1] at h3
        exact absurd (calling_lt (I.reach x) h3) (Nat.lt_irrefl _)
    · have h3 := J.pen i x hi
      rw [← h3]
      by_cases hx : x = p
      · subst hx
        have h5 : s.owner x (s.q x).next ≠ some i := fun h => by have := (I.own _ _ _ h).2; omega
        simp only [waiting, upd_same, g4, List.countP_append, hf, true_and]
        have h6 : (unstarted (s.q x)).countP (fun t => (if t = (s.q x).next then some k else s.owner x t) = some i) =
            (unstarted (s.q x)).countP (fun t => s.owner x t = some i) := by
          apply List.countP_congr
          intro t ht
          have := unstarted_lt (I.reach x) ht
          simp [show t ≠ (s.q x).next by omega]
        rw [h6]
        by_cases hki : k = i <;> simp [h5, hki]
      · have hki : k ≠ i := fun h => by subst h; rw [h0] at hi; exact hx (Option.some.inj hi).symm
        simp [waiting, hf, hx, hki]

/-- A step of a job that neither calls a task nor gives anything to the executor. -/
theorem Inv.plain (O : C.Ok) (I : Inv C s none) {j : Nat} {q : SerialQueue.St} (hq : SerialQueue.step (C.mode j) (s.q j) (.advance 0) = .ok q)
    (hn : q.next = (s.q j).next) (hne : (s.q j).jobs ≠ []) (hp : q.pending = (s.q j).pending) (hu : unstarted q = unstarted (s.q j))
    (hc : ∀ k, C.parent k = some j → (s.q k).jobs = []) : Inv C { s with q := upd s.q j q } none :=
  I.change O (I.lt hq (by simp)) (snoc (I.reach j) hq) (by omega) (fun _ p h => I.act j p h hne) (fun k hk h => absurd (hc k hk) h)
    (fun p h => hp ▸ I.pen j p h) (fun k _ => by simp [hu, waiting]) (fun _ _ _ => rfl)

/-- The queues over queue `j` execute nothing while that calls no task of theirs. -/
theorem Inv.above {e : Option Nat} (I : Inv C s e) {j k : Nat} (hk : C.parent k = some j)
    (h : ∀ t ts, (s.q j).jobs = [.calling t ts] → s.owner j t = some k → (s.q k).jobs = []) : (s.q k).jobs = [] := by
  by_cases h0 : (s.q k).jobs = []
  · exact h0
  · obtain ⟨t, ts, h1, h2⟩ := I.act k j hk h0
    exact h t ts h1 h2

theorem Inv.adv (O : C.Ok) (I : Inv C s none) {j : Nat} (h : step C s (.adv j) = some s') : Inv C s' none := by
  simp only [step] at h
  split at h
  · next t ts hj =>
    obtain ⟨s1, h1, h2⟩ := Option.bind_eq_some_iff.mp h
    obtain ⟨q, hq, rfl⟩ := put_ok h1
    obtain ⟨hn, ha⟩ := advance_ok (I.reach j) hq
    simp only [hj] at ha
    simp only [reduceCtorEq, false_and, false_or, or_false, List.cons.injEq, SerialQueue.Pc.loop.injEq, and_true, exists_false] at ha
    obtain ⟨t', ts', ⟨rfl, rfl⟩, hq1, hq2, hq3⟩ := ha
    have hk0 : ∀ k, C.parent k = some j → (s.q k).jobs = [] := fun k hk => I.above hk (fun t ts h _ => by simp [hj] at h)
    refine Inv.enter O (ts := ts) ?_ (by simp only [upd_same]; exact hq1) h2
    refine I.change O (I.lt hq (by simp)) (snoc (I.reach j) hq) (by omega) (fun _ p h => I.act j p h (by simp [hj]))
      (fun k hk h => absurd (hk0 k hk) h) (fun p hp => ?_) (fun k hk => ?_) (fun k h1 h2 => ?_)
    · have h3 : s.owner j t ≠ some j := fun h => by have := O.parent _ _ (I.own _ _ _ h).1; omega
      rw [if_neg h3, hq2]
      have := I.pen j p hp
      simpa using this
    · simp only [waiting, hq3, List.countP_cons]
      simp
    · have h3 : s.owner j t ≠ some k := fun h => h2 (I.own _ _ _ h).1
      simp [h3]
  · next t ts hj =>
    split at h
    · next ho =>
      obtain ⟨q, hq, rfl⟩ := put_ok h
      obtain ⟨hn, ha⟩ := advance_ok (I.reach j) hq
      simp only [hj] at ha
      rcases ha with ⟨ha, _⟩ | ⟨_, _, ha, _⟩ | ⟨_, _, _, hq1, hq2, hq3⟩ | ⟨ha, _⟩ | ⟨ha, _⟩
      · simp at ha
      · simp at ha
      · refine I.plain O hq hn (by simp [hj]) hq2 hq3 (fun k hk => I.above hk (fun t' ts' h h' => ?_))
        simp only [hj, List.cons.injEq, SerialQueue.Pc.calling.injEq, and_true] at h
        rw [← h.1] at h'
        simp only [over, h', List.isEmpty_iff] at ho
        exact ho
      · simp at ha
      · simp at ha
    · cases h
  · next hj =>
    obtain ⟨s1, h1, h2⟩ := Option.bind_eq_some_iff.mp h
    obtain ⟨q, hq, rfl⟩ := put_ok h1
    obtain ⟨hn, ha⟩ := advance_ok (I.reach j) hq
    simp only [hj] at ha
    rcases ha with ⟨ha, _⟩ | ⟨_, _, ha, _⟩ | ⟨_, _, ha, _⟩ | ⟨ha, _⟩ | ⟨_, hq1, hq2, hq3⟩
    · simp at ha
    · simp at ha
    · simp at ha
    · simp at ha
    · refine Inv.submit O (I.lt hq (by simp)) ?_ h2
      have hk0 : ∀ k, C.parent k = some j → (s.q k).jobs = [] := fun k hk => I.above hk (fun t ts h _ => by simp [hj] at h)
      refine I.change O (I.lt hq (by simp)) (snoc (I.reach j) hq) (by omega) (fun h => absurd hq1 h)
        (fun k hk h => absurd (hk0 k hk) h) (fun p hp => ?_) (fun k hk => ?_) (fun k h _ => by simp [Ne.symm h])
      · have := I.pen j p hp
        simp only [if_true, hq2]
        simpa using this
      · have : j ≠ k := by have := O.parent _ _ hk; omega
        simp [hq3, waiting, this]
  · next n1 n2 n3 =>
    obtain ⟨q, hq, rfl⟩ := put_ok h
    obtain ⟨hn, ha⟩ := advance_ok (I.reach j) hq
    have hk0 : ∀ k, C.parent k = some j → (s.q k).jobs = [] := fun k hk => I.above hk (fun t ts h _ => absurd h (n2 t ts))
    rcases ha with ⟨ha, _, hq2, hq3⟩ | ⟨t, ts, ha, _⟩ | ⟨t, ts, ha, _⟩ | ⟨ha, _, hq2, hq3⟩ | ⟨ha, _⟩
    · exact I.plain O hq hn (by simp [ha]) hq2 hq3 hk0
    · exact absurd ha (n1 t ts)
    · exact absurd ha (n2 t ts)
    · exact I.plain O hq hn (by simp [ha]) hq2 hq3 hk0
    · exact absurd ha n3

theorem Inv.step (O : C.Ok) (I : Inv C s none) {a : Act} (h : SerialTree.step C s a = some s') : Inv C s' none := by
  cases a with
  | enqueue j =>
    simp only [SerialTree.step] at h
    split at h
    · exact I.enqueue O ‹_› h
    · cases h
  | kick j =>
    obtain ⟨s1, h1, h2⟩ := Option.bind_eq_some_iff.mp h
    obtain ⟨hj, J⟩ := I.kick O h1
    exact J.submit O hj h2
  | run j =>
    simp only [SerialTree.step] at h
    split at h
    · exact I.run O ‹_› h
    · cases h
  | adv j => exact I.adv O h

theorem Reachable.inv (O : C.Ok) (r : Reachable C s) : Inv C s none := by
  induction r with
  | init => exact .init
  | step a _ h ih => exact ih.step O h

end Verif.SerialTree
