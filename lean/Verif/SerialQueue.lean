/-!
# `serial_queue_t` (include/stlab/concurrency/serial_queue.hpp)

Transition system of one serial queue shared by any number of threads. Every critical section
(`scope<lock_t>`) is one step; so is every call of a task, every return of one, and every call of the
underlying executor. Tasks are numbered by the order in which `enqueue` appends them.

Not modelled: what tasks do (they may enqueue more tasks: that is `enqueue` at any moment), `async` in
`operator()` (future.hpp), memory allocation failure.
-/

namespace Verif.SerialQueue

/-- `schedule_mode` (serial_queue.hpp:38). -/
inductive Mode where
  | single
  | all
  deriving DecidableEq, Repr

/-- Where one execution of a drain job (`single()`, serial_queue.hpp:89-97, or `all()`,
serial_queue.hpp:77-87) is. -/
inductive Pc where
  /-- entered, about to lock and fetch tasks -/
  | begin
  /-- holds `ts` in its local variable, about to look at it -/
  | loop (ts : List Nat)
  /-- executing task `t` -/
  | calling (t : Nat) (ts : List Nat)
  /-- `empty()` returned false; about to call `_executor` -/
  | resubmit
  deriving DecidableEq, Repr

/-- What an observer sees. -/
inductive Event where
  /-- task `n` is appended to the queue by a call of `enqueue` -/
  | submit (n : Nat)
  /-- the call of task `n` begins -/
  | start (n : Nat)
  /-- the call of task `n` ends -/
  | finish (n : Nat)
  deriving DecidableEq, Repr

/-- State of the `serial_instance_t` (serial_queue.hpp:46-55) and of the threads using it. -/
structure St where
  /-- `_running` -/
  running : Bool := false
  /-- `_queue` -/
  queue : List Nat := []
  /-- threads in `enqueue` which found `_running` false and are about to call `_executor`
  (serial_queue.hpp:130-132) -/
  kicks : Nat := 0
  /-- jobs handed to the underlying executor and not started yet -/
  pending : Nat := 0
  /-- drain jobs in execution -/
  jobs : List Pc := []
  /-- number of tasks submitted so far (ghost) -/
  next : Nat := 0
  /-- ghost -/
  trace : List Event := []

/-- Steps of the threads. -/
inductive Act where
  /-- critical section of `enqueue` (serial_queue.hpp:121-128), by any thread -/
  | enqueue
  /-- a thread in `enqueue` calls `_executor` (serial_queue.hpp:131) -/
  | kick
  /-- the underlying executor starts a job it was given -/
  | runJob
  /-- job `i` executes its next step -/
  | advance (i : Nat)
  deriving DecidableEq, Repr

/-- Outcome of a step: not possible in this state, undefined behaviour, or a new state. -/
inductive Out where
  | no
  | ub
  | ok (s : St)

/-- First critical section of a drain job: `single` pops one task (serial_queue.hpp:92; popping an
empty deque is undefined), `all` swaps the whole queue out (serial_queue.hpp:80). -/
def fetch (m : Mode) (q : List Nat) : Option (List Nat × List Nat) :=
  match m with
  | .single => match q with
    | [] => none
    | t :: q => some ([t], q)
  | .all => some (q, [])

/-- One step. -/
def step (m : Mode) (s : St) : Act → Out
  | .enqueue =>
    -- emplace_back, then swap(running, _running) with running == true
    .ok { s with queue := s.queue ++ [s.next], running := true,
                 kicks := if s.running then s.kicks else s.kicks + 1,
                 next := s.next + 1, trace := s.trace ++ [.submit s.next] }
  | .kick => if s.kicks = 0 then .no else .ok { s with kicks := s.kicks - 1, pending := s.pending + 1 }
  | .runJob =>
    if s.pending = 0 then .no else .ok { s with pending := s.pending - 1, jobs := s.jobs ++ [.begin] }
  | .advance i =>
    match s.jobs[i]? with
    | none => .no
    | some .begin =>
      match fetch m s.queue with
      | none => .ub
      | some (ts, q) => .ok { s with queue := q, jobs := s.jobs.set i (.loop ts) }
    | some (.loop (t :: ts)) =>
      .ok { s with jobs := s.jobs.set i (.calling t ts), trace := s.trace ++ [.start t] }
    | some (.calling t ts) =>
      .ok { s with jobs := s.jobs.set i (.loop ts), trace := s.trace ++ [.finish t] }
    | some (.loop []) =>
      -- `empty()` (serial_queue.hpp:63-75)
      if s.queue = [] then .ok { s with running := false, jobs := s.jobs.eraseIdx i }
      else .ok { s with jobs := s.jobs.set i .resubmit }
    | some .resubmit => .ok { s with pending := s.pending + 1, jobs := s.jobs.eraseIdx i }

/-- Run a sequence of steps; `none` if some step is impossible or undefined. -/
def exec (m : Mode) (s : St) : List Act → Option St
  | [] => some s
  | a :: as => match step m s a with
    | .ok s' => exec m s' as
    | _ => none

/-- States reachable from a newly constructed queue. -/
def Reachable (m : Mode) (s : St) : Prop := ∃ as, exec m {} as = some s

/-! ## Invariant -/

/-- Whatever holds the right to run tasks: nobody, a thread about to call the executor, a job waiting
in the executor, or one executing job. -/
inductive Token : St → Prop
  | idle {s} : s.running = false → s.queue = [] → s.kicks = 0 → s.pending = 0 → s.jobs = [] → Token s
  | kick {s} : s.running = true → s.queue ≠ [] → s.kicks = 1 → s.pending = 0 → s.jobs = [] → Token s
  | pending {s} : s.running = true → s.queue ≠ [] → s.kicks = 0 → s.pending = 1 → s.jobs = [] → Token s
  | job {s} (pc : Pc) : s.running = true → s.kicks = 0 → s.pending = 0 → s.jobs = [pc] →
      (pc = .begin ∨ pc = .resubmit → s.queue ≠ []) → Token s

/-- Tasks fetched by the executing job but not started. -/
def localTasks : List Pc → List Nat
  | [.loop ts] => ts
  | [.calling _ ts] => ts
  | _ => []

/-- Tasks started, in order. -/
def started (tr : List Event) : List Nat := tr.filterMap fun
  | .start n => some n
  | _ => none

/-- Tasks submitted, in order. -/
def submitted (tr : List Event) : List Nat := tr.filterMap fun
  | .submit n => some n
  | _ => none

/-- Tasks finished, in order. -/
def finished (tr : List Event) : List Nat := tr.filterMap fun
  | .finish n => some n
  | _ => none

/-- The task being called, if any. -/
def current : List Pc → Option Nat
  | [.calling t _] => some t
  | _ => none

/-- Scan a trace: the task executing after it, or `none` if two tasks overlap or a task finishes that
is not executing. -/
def scan : Option Nat → List Event → Option (Option Nat)
  | c, [] => some c
  | none, .start n :: tr => scan (some n) tr
  | some c, .finish n :: tr => if c = n then scan none tr else none
  | c, .submit _ :: tr => scan c tr
  | _, _ => none

/-- The invariant. -/
structure Inv (s : St) : Prop where
  token : Token s
  subs : submitted s.trace = List.range s.next
  order : started s.trace ++ localTasks s.jobs ++ s.queue = List.range s.next
  scan : scan none s.trace = some (current s.jobs)
  fin : finished s.trace ++ (current s.jobs).toList = started s.trace

theorem scan_append : ∀ (a b : List Event) (c : Option Nat),
    scan c (a ++ b) = (scan c a).bind (scan · b)
  | [], b, c => by simp [scan]
  | .submit n :: a, b, none => by simp only [List.cons_append, scan]; exact scan_append a b none
  | .submit n :: a, b, some c => by simp only [List.cons_append, scan]; exact scan_append a b (some c)
  | .start n :: a, b, none => by simp only [List.cons_append, scan]; exact scan_append a b (some n)
  | .start n :: a, b, some c => by simp [scan]
  | .finish n :: a, b, none => by simp [scan]
  | .finish n :: a, b, some c => by
    simp only [List.cons_append, scan]
    split
    · exact scan_append a b none
    · simp

theorem inv_init : Inv {} :=
  ⟨.idle rfl rfl rfl rfl rfl, rfl, rfl, rfl, rfl⟩

theorem inv_step {m : Mode} {s : St} (I : Inv s) (a : Act) :
    step m s a ≠ .ub ∧ ∀ s', step m s a = .ok s' → Inv s' := by
  obtain ⟨tok, subs, ord, scn, fin⟩ := I
  cases a with
  | enqueue =>
    refine ⟨by simp [step], ?_⟩
    intro s' hs
    simp only [step, Out.ok.injEq] at hs
    subst hs
    refine ⟨?_, ?_, ?_, ?_, ?_⟩
    · cases tok with
      | idle h1 h2 h3 h4 h5 => exact .kick rfl (by simp) (by simp [h1, h3]) h4 h5
      | kick h1 h2 h3 h4 h5 => exact .kick rfl (by simp) (by simp [h1, h3]) h4 h5
      | pending h1 h2 h3 h4 h5 => exact .pending rfl (by simp) (by simp [h1, h3]) h4 h5
      | job pc h1 h3 h4 h5 h6 => exact .job pc rfl (by simp [h1, h3]) h4 h5 (by simp)
    · simp only [submitted, List.filterMap_append] at subs ⊢
      rw [subs, List.range_succ]; simp
    · simp only [started, List.filterMap_append] at ord ⊢
      rw [List.range_succ, ← ord]; simp
    · simp only [scan_append, scn, Option.bind_some]
      cases current s.jobs <;> simp [scan]
    · simp only [finished, started, List.filterMap_append] at fin ⊢
      simpa using fin
  | kick =>
    simp only [step]
    split
    · simp
    · rename_i hk
      refine ⟨by simp, ?_⟩
      intro s' hs
      simp only [Out.ok.injEq] at hs
      subst hs
      refine ⟨?_, subs, ord, scn, fin⟩
      cases tok with
      | idle h1 h2 h3 h4 h5 => exact absurd h3 hk
      | kick h1 h2 h3 h4 h5 => exact .pending h1 h2 (by simp [h3]) (by simp [h4]) h5
      | pending h1 h2 h3 h4 h5 => exact absurd h3 hk
      | job pc h1 h3 h4 h5 h6 => exact absurd h3 hk
  | runJob =>
    simp only [step]
    split
    · simp
    · rename_i hk
      refine ⟨by simp, ?_⟩
      intro s' hs
      simp only [Out.ok.injEq] at hs
      subst hs
      cases tok with
      | idle h1 h2 h3 h4 h5 => exact absurd h4 hk
      | kick h1 h2 h3 h4 h5 => exact absurd h4 hk
      | pending h1 h2 h3 h4 h5 =>
        rw [h5] at ord scn fin
        exact ⟨.job .begin h1 h3 (by simp [h4]) (by simp [h5]) (fun _ => h2), subs,
          by simpa [h5, localTasks] using ord, by simpa [h5, current] using scn,
          by simpa [h5, current] using fin⟩
      | job pc h1 h3 h4 h5 h6 => exact absurd h4 hk
  | advance i =>
    cases tok with
    | idle h1 h2 h3 h4 h5 => simp [step, h5]
    | kick h1 h2 h3 h4 h5 => simp [step, h5]
    | pending h1 h2 h3 h4 h5 => simp [step, h5]
    | job pc h1 h3 h4 h5 h6 =>
      rw [h5] at ord scn fin
      cases i with
      | succ i => simp [step, h5]
      | zero =>
        cases pc with
        | begin =>
          have hq := h6 (Or.inl rfl)
          obtain ⟨t, q, hq⟩ := List.exists_cons_of_ne_nil hq
          have hs : step m s (.advance 0) = .ok { s with
              queue := (match m with | .single => q | .all => []),
              jobs := [.loop (match m with | .single => [t] | .all => t :: q)] } := by
            cases m <;> simp [step, h5, fetch, hq]
          rw [hs]
          refine ⟨by simp, ?_⟩
          intro s' he
          simp only [Out.ok.injEq] at he
          subst he
          refine ⟨.job _ h1 h3 h4 rfl (by simp), subs, ?_, scn, fin⟩
          rw [hq] at ord
          cases m <;> simpa [localTasks] using ord
        | loop ts =>
          cases ts with
          | nil =>
            by_cases hq : s.queue = []
            · refine ⟨by simp [step, h5, hq], ?_⟩
              intro s' he
              simp only [step, h5, List.getElem?_cons_zero, hq, if_true, Out.ok.injEq] at he
              subst he
              refine ⟨.idle rfl rfl h3 h4 rfl, subs, ?_, scn, fin⟩
              simpa [localTasks, hq] using ord
            · refine ⟨by simp [step, h5, hq], ?_⟩
              intro s' he
              simp only [step, h5, List.getElem?_cons_zero, hq, if_false, Out.ok.injEq] at he
              subst he
              refine ⟨.job .resubmit h1 h3 h4 rfl (fun _ => hq), subs, ?_, scn, fin⟩
              simpa [localTasks] using ord
          | cons t ts =>
            refine ⟨by simp [step, h5], ?_⟩
            intro s' he
            simp only [step, h5, List.getElem?_cons_zero, Out.ok.injEq] at he
            subst he
            refine ⟨.job (.calling t ts) h1 h3 h4 rfl (by simp), ?_, ?_, ?_, ?_⟩
            · simp only [submitted, List.filterMap_append] at subs ⊢
              rw [subs]; simp
            · simp only [started, List.filterMap_append] at ord ⊢
              rw [← ord]; simp [localTasks]
            · simp only [scan_append, scn, Option.bind_some]
              simp [current, scan]
            · simp only [finished, started, List.filterMap_append] at fin ⊢
              rw [← fin]; simp [current]
        | calling t ts =>
          refine ⟨by simp [step, h5], ?_⟩
          intro s' he
          simp only [step, h5, List.getElem?_cons_zero, Out.ok.injEq] at he
          subst he
          refine ⟨.job (.loop ts) h1 h3 h4 rfl (by simp), ?_, ?_, ?_, ?_⟩
          · simp only [submitted, List.filterMap_append] at subs ⊢
            rw [subs]; simp
          · simp only [started, List.filterMap_append] at ord ⊢
            rw [← ord]; simp [localTasks]
          · simp only [scan_append, scn, Option.bind_some]
            simp [current, scan]
          · simp only [finished, started, List.filterMap_append] at fin ⊢
            rw [← fin]; simp [current]
        | resubmit =>
          refine ⟨by simp [step, h5], ?_⟩
          intro s' he
          simp only [step, h5, List.getElem?_cons_zero, Out.ok.injEq] at he
          subst he
          refine ⟨.pending h1 (h6 (Or.inr rfl)) h3 (by simp [h4]) rfl, subs, ?_, scn, fin⟩
          simpa [localTasks] using ord

theorem inv_exec {m : Mode} : ∀ {as : List Act} {s s' : St}, Inv s → exec m s as = some s' → Inv s'
  | [], s, s', hi, he => by simp only [exec, Option.some.injEq] at he; exact he ▸ hi
  | a :: as, s, s', hi, he => by
    simp only [exec] at he
    split at he
    · rename_i s1 h1
      exact inv_exec ((inv_step hi a).2 _ h1) he
    · simp at he

theorem Reachable.inv {m : Mode} {s : St} (h : Reachable m s) : Inv s := by
  obtain ⟨as, h⟩ := h
  exact inv_exec inv_init h

end Verif.SerialQueue
