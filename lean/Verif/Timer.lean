/-!
# `system_timer` (include/stlab/concurrency/system_timer.hpp:209-281, portable task system)

Transition system: the timer thread, any number of threads scheduling tasks, a clock that advances
arbitrarily between (not within) critical sections, and the destructor. The vector kept as a heap by
`std::push_heap`/`std::pop_heap` is represented by the contract of these functions: the front is an element
with the least time point, and `pop_heap` with `pop_back` removes such an element. Which one of several equal
ones is left open: the first in submission order is taken here. Times are unbounded integers.
-/

namespace Verif.Timer

/-- What an observer sees. -/
inductive Event where
  /-- task `n` is scheduled, its deadline being `d` -/
  | submit (n : Nat) (d : Int)
  /-- the timer thread removes task `n` from the queue -/
  | take (n : Nat)
  /-- the call of task `n` begins at time `now` -/
  | start (n : Nat) (now : Int)
  /-- the call of task `n` ends -/
  | finish (n : Nat)
  deriving DecidableEq, Repr

/-- Where the timer thread is in `timed_queue_run` (lines 229-250). -/
inductive Pc where
  /-- about to lock the mutex -/
  | top
  /-- waiting in the first loop -/
  | asleep
  /-- woken in the first loop -/
  | awake
  /-- waiting until `w` in the second loop -/
  | asleepUntil (w : Int)
  /-- woken in the second loop -/
  | awakeUntil
  /-- about to call the task -/
  | taken (n : Nat)
  /-- calling the task -/
  | calling (n : Nat)
  | exited
  deriving DecidableEq, Repr

structure St where
  /-- `_timed_queue`: time points and tasks -/
  queue : List (Int × Nat) := []
  /-- `_stop` -/
  stop : Bool := false
  /-- the destructor has still to call `notify_one` -/
  notif : Bool := false
  pc : Pc := .top
  /-- `std::chrono::steady_clock::now()` -/
  now : Int := 0
  /-- number of tasks scheduled (ghost) -/
  next : Nat := 0
  trace : List Event := []

inductive Act where
  /-- `operator()(duration, f)` (lines 274-280), by any thread -/
  | submit (duration : Int)
  /-- time passes -/
  | tick (d : Nat)
  /-- the timer thread makes its next step -/
  | run
  /-- the wait of the timer thread ends because of the time -/
  | timeout
  /-- the timer thread is woken spuriously -/
  | spurious
  /-- critical section of the destructor (lines 258-261) -/
  | destroy
  /-- `notify_one` in the destructor (line 262) -/
  | notify
  deriving DecidableEq, Repr

inductive Out where
  | no
  | ub
  | ok (s : St)

/-- The front of the heap: an element such that no other compares `greater_first` below it. -/
def front : List (Int × Nat) → Option (Int × Nat)
  | [] => none
  | x :: xs => match front xs with
    | none => some x
    | some y => if x.1 > y.1 then some y else some x

/-- The second loop and what follows under the lock (lines 238-245). -/
def evalUntil (s : St) : Out :=
  match front s.queue with
  | none => .ub
  | some (w, n) =>
    if s.now < w then .ok { s with pc := .asleepUntil w }
    else .ok { s with queue := s.queue.erase (w, n), pc := .taken n, trace := s.trace ++ [.take n] }

/-- The first loop and what follows (lines 235-237). -/
def evalEmpty (s : St) : Out :=
  if s.queue = [] ∧ s.stop = false then .ok { s with pc := .asleep }
  else if s.stop then .ok { s with pc := .exited }
  else evalUntil s

/-- Effect of `notify_one` on the timer thread, the only one that waits. -/
def wake : Pc → Pc
  | .asleep => .awake
  | .asleepUntil _ => .awakeUntil
  | pc => pc

/-- One step. -/
def step (s : St) : Act → Out
  | .submit d =>
    .ok { s with queue := s.queue ++ [(s.now + d, s.next)], pc := wake s.pc, next := s.next + 1,
                 trace := s.trace ++ [.submit s.next (s.now + d)] }
  | .tick d => .ok { s with now := s.now + d }
  | .run =>
    match s.pc with
    | .top => evalEmpty s
    | .awake => evalEmpty s
    | .awakeUntil => if s.stop then .ok { s with pc := .exited } else evalUntil s
    | .taken n => .ok { s with pc := .calling n, trace := s.trace ++ [.start n s.now] }
    | .calling n => .ok { s with pc := .top, trace := s.trace ++ [.finish n] }
    | _ => .no
  | .timeout =>
    match s.pc with
    | .asleepUntil w => if w ≤ s.now then .ok { s with pc := .awakeUntil } else .no
    | _ => .no
  | .spurious =>
    match s.pc with
    | .asleep => .ok { s with pc := .awake }
    | .asleepUntil _ => .ok { s with pc := .awakeUntil }
    | _ => .no
  | .destroy => if s.stop then .no else .ok { s with stop := true, notif := true }
  | .notify => if s.notif then .ok { s with notif := false, pc := wake s.pc } else .no

def exec (s : St) : List Act → Option St
  | [] => some s
  | a :: as => match step s a with
    | .ok s' => exec s' as
    | _ => none

def Reachable (s : St) : Prop := ∃ as, exec {} as = some s

/-! ## Invariant -/

theorem front_mem : ∀ {l : List (Int × Nat)} {e : Int × Nat}, front l = some e → e ∈ l
  | [], e, h => by simp [front] at h
  | x :: xs, e, h => by
    simp only [front] at h
    split at h
    · simp_all
    · rename_i y hy
      split at h
      · simp only [Option.some.injEq] at h; subst h; exact List.mem_cons_of_mem _ (front_mem hy)
      · simp_all

theorem front_eq_none : ∀ {l : List (Int × Nat)}, front l = none ↔ l = []
  | [] => by simp [front]
  | x :: xs => by
    simp only [front]
    split
    · simp
    · split <;> simp

theorem front_le : ∀ {l : List (Int × Nat)} {e : Int × Nat}, front l = some e → ∀ x ∈ l, e.1 ≤ x.1
  | [], e, h, x, hx => by simp at hx
  | a :: xs, e, h, x, hx => by
    simp only [front] at h
    split at h
    · rename_i hn
      rw [front_eq_none] at hn
      subst hn
      simp only [Option.some.injEq] at h; subst h
      simp only [List.mem_singleton] at hx; subst hx; omega
    · rename_i y hy
      have ih := front_le hy
      split at h
      · simp only [Option.some.injEq] at h; subst h
        rcases List.mem_cons.1 hx with rfl | hx
        · omega
        · exact ih x hx
      · simp only [Option.some.injEq] at h; subst h
        rcases List.mem_cons.1 hx with rfl | hx
        · omega
        · have := ih x hx; omega

/-- Task taken but not yet called. -/
def pcTaken : Pc → Option Nat
  | .taken n => some n
  | _ => none

/-- Task being called. -/
def pcCalling : Pc → Option Nat
  | .calling n => some n
  | _ => none

def isTake (n : Nat) : Event → Bool
  | .take m => m == n
  | _ => false

def isStart (n : Nat) : Event → Bool
  | .start m _ => m == n
  | _ => false

def isFinish (n : Nat) : Event → Bool
  | .finish m => m == n
  | _ => false

def isSubmit (n : Nat) : Event → Bool
  | .submit m _ => m == n
  | _ => false

def one (b : Bool) : Nat := if b then 1 else 0

/-- The invariant, apart from sleeping. -/
structure Base (s : St) : Prop where
  lt : ∀ n d, Event.submit n d ∈ s.trace → n < s.next
  uniq : ∀ n d d', Event.submit n d ∈ s.trace → Event.submit n d' ∈ s.trace → d = d'
  submit : ∀ n, s.trace.countP (isSubmit n) = if n < s.next then 1 else 0
  queue : ∀ n, s.trace.countP (isSubmit n) = s.queue.countP (fun e => e.2 == n) + s.trace.countP (isTake n)
  take : ∀ n, s.trace.countP (isTake n) = one (pcTaken s.pc == some n) + s.trace.countP (isStart n)
  start : ∀ n, s.trace.countP (isStart n) = one (pcCalling s.pc == some n) + s.trace.countP (isFinish n)
  /-- queued tasks have the deadline they were submitted with -/
  mem : ∀ d n, (d, n) ∈ s.queue → Event.submit n d ∈ s.trace
  /-- and the others have been taken -/
  gone : ∀ d n, Event.submit n d ∈ s.trace → (d, n) ∈ s.queue ∨ Event.take n ∈ s.trace
  early : ∀ n d, pcTaken s.pc = some n → Event.submit n d ∈ s.trace → d ≤ s.now
  known : ∀ n, pcTaken s.pc = some n → n < s.next
  knownS : ∀ n now, Event.start n now ∈ s.trace → n < s.next
  started : ∀ n d now, Event.start n now ∈ s.trace → Event.submit n d ∈ s.trace → d ≤ now
  order : ∀ pre t post, s.trace = pre ++ .take t :: post → ∀ dt, Event.submit t dt ∈ s.trace →
    ∀ u du, Event.submit u du ∈ pre → du < dt → Event.take u ∈ pre
  orderKnown : ∀ pre t post, s.trace = pre ++ .take t :: post → t < s.next
  notif : s.notif = true → s.stop = true

/-- The invariant about sleeping. -/
structure Sleep (s : St) : Prop where
  asleep : s.pc = .asleep → s.queue = [] ∧ (s.stop = true → s.notif = true)
  til : ∀ w, s.pc = .asleepUntil w → (∀ e ∈ s.queue, w ≤ e.1) ∧
    (∃ e ∈ s.queue, e.1 = w) ∧ (s.stop = true → s.notif = true)
  awake : s.pc = .awakeUntil → s.queue ≠ []
  exited : s.pc = .exited → s.stop = true

theorem base_init : Base {} := by
  constructor <;> simp [pcTaken, pcCalling, one]

theorem sleep_init : Sleep {} := by
  constructor <;> simp

/-- The timer thread moves on without taking, calling or finishing a task. -/
theorem base_pc {s : St} (B : Base s) {pc : Pc} (h1 : pcTaken s.pc = none) (h2 : pcCalling s.pc = none)
    (h3 : pcTaken pc = none) (h4 : pcCalling pc = none) : Base { s with pc := pc } := by
  refine ⟨B.lt, B.uniq, B.submit, B.queue, ?_, ?_, B.mem, B.gone, ?_, ?_, B.knownS, B.started, B.order, B.orderKnown, B.notif⟩
  · intro n; have := B.take n; rw [h1] at this; simpa [h3] using this
  · intro n; have := B.start n; rw [h2] at this; simpa [h4] using this
  · intro n d h; simp [h3] at h
  · intro n h; simp [h3] at h

theorem base_wake {s : St} (B : Base s) : Base { s with pc := wake s.pc } := by
  cases hp : s.pc with
  | asleep => exact base_pc B (by simp [hp, pcTaken]) (by simp [hp, pcCalling]) rfl rfl
  | asleepUntil w => exact base_pc B (by simp [hp, pcTaken]) (by simp [hp, pcCalling]) rfl rfl
  | _ => simp only [wake]; rw [← hp]; exact B

/-- Splitting a trace with one more event at a `take`. -/
theorem append_take {tr pre post : List Event} {e : Event} {t : Nat} (h : tr ++ [e] = pre ++ .take t :: post) :
    (∃ post', tr = pre ++ .take t :: post') ∨ (tr = pre ∧ e = .take t) := by
  rcases List.eq_nil_or_concat post with rfl | ⟨post', x, rfl⟩
  · obtain ⟨h1, h2⟩ := List.append_inj' h rfl
    simp only [List.cons.injEq, and_true] at h2
    exact Or.inr ⟨h1, h2⟩
  · left
    refine ⟨post', ?_⟩
    have : tr ++ [e] = (pre ++ .take t :: post') ++ [x] := by rw [h]; simp
    exact (List.append_inj' this rfl).1

theorem base_submit {s : St} (B : Base s) (d : Int) :
    Base { s with queue := s.queue ++ [(s.now + d, s.next)], next := s.next + 1,
                  trace := s.trace ++ [.submit s.next (s.now + d)] } := by
  have hmem : ∀ n d', Event.submit n d' ∈ s.trace ++ [Event.submit s.next (s.now + d)] →
      Event.submit n d' ∈ s.trace ∨ (n = s.next ∧ d' = s.now + d) := by
    intro n d' h
    simpa using h
  refine ⟨?_, ?_, ?_, ?_, ?_, ?_, ?_, ?_, ?_, ?_, ?_, ?_, ?_, ?_, B.notif⟩
  · intro n d' h
    rcases hmem n d' h with h | ⟨rfl, -⟩
    · have := B.lt n d' h; dsimp only; omega
    · dsimp only; omega
  · intro n d1 d2 h1 h2
    rcases hmem n d1 h1 with h1 | ⟨e1, h1⟩ <;> rcases hmem n d2 h2 with h2 | ⟨e2, h2⟩
    · exact B.uniq n d1 d2 h1 h2
    · have := B.lt n d1 h1; omega
    · have := B.lt n d2 h2; omega
    · omega
  · intro n
    have := B.submit n
    simp only [List.countP_append, List.countP_cons, List.countP_nil, isSubmit, beq_iff_eq]
    rw [this]
    repeat' split
    all_goals omega
  · intro n
    have := B.queue n
    simp only [List.countP_append, List.countP_cons, List.countP_nil, isSubmit, isTake, beq_iff_eq] at this ⊢
    simp
    omega
  · intro n; simpa [List.countP_append, isTake, isStart] using B.take n
  · intro n; simpa [List.countP_append, isFinish, isStart] using B.start n
  · intro d' n h
    simp only [List.mem_append, List.mem_singleton, Prod.mk.injEq] at h
    rcases h with h | ⟨rfl, rfl⟩
    · exact List.mem_append_left _ (B.mem d' n h)
    · simp
  · intro d' n h
    rcases hmem n d' h with h | ⟨rfl, rfl⟩
    · rcases B.gone d' n h with h | h
      · exact Or.inl (List.mem_append_left _ h)
      · exact Or.inr (List.mem_append_left _ h)
    · left; simp
  · intro n d' hp h
    rcases hmem n d' h with h | ⟨rfl, rfl⟩
    · exact B.early n d' hp h
    · have := B.known _ hp; omega
  · intro n hp; have := B.known n hp; dsimp only; omega
  · intro n now h
    have h' : Event.start n now ∈ s.trace := by simpa using h
    have := B.knownS n now h'; dsimp only; omega
  · intro n d' now h1 h2
    have h1' : Event.start n now ∈ s.trace := by simpa using h1
    rcases hmem n d' h2 with h | ⟨rfl, rfl⟩
    · exact B.started n d' now h1' h
    · have := B.knownS _ _ h1'; omega
  · intro pre t post he dt hdt u du hu hlt
    rcases append_take he with ⟨post', he'⟩ | ⟨-, he'⟩
    · rcases hmem t dt hdt with h | ⟨rfl, rfl⟩
      · exact B.order pre t post' he' dt h u du hu hlt
      · have := B.orderKnown pre _ post' he'; omega
    · simp at he'
  · intro pre t post he
    rcases append_take he with ⟨post', he'⟩ | ⟨-, he'⟩
    · have := B.orderKnown pre t post' he'; dsimp only; omega
    · simp at he'

theorem base_take {s : St} (B : Base s) {w : Int} {n : Nat} (hf : front s.queue = some (w, n))
    (hw : ¬ s.now < w) (h1 : pcTaken s.pc = none) (h2 : pcCalling s.pc = none) :
    Base { s with queue := s.queue.erase (w, n), pc := .taken n, trace := s.trace ++ [.take n] } := by
  have hm := front_mem hf
  have hsub : ∀ m d, Event.submit m d ∈ s.trace ++ [Event.take n] ↔ Event.submit m d ∈ s.trace := by
    intro m d; simp
  have hsn := B.mem w n hm
  have hnn := B.lt n w hsn
  refine ⟨?_, ?_, ?_, ?_, ?_, ?_, ?_, ?_, ?_, ?_, ?_, ?_, ?_, ?_, B.notif⟩
  · intro m d h; exact B.lt m d ((hsub m d).1 h)
  · intro m d d' h h'; exact B.uniq m d d' ((hsub m d).1 h) ((hsub m d').1 h')
  · intro m; simpa [List.countP_append, isSubmit] using B.submit m
  · intro m
    have h3 := B.queue m
    have h4 := (List.perm_cons_erase hm).countP_eq fun e => e.2 == m
    simp only [List.countP_append, List.countP_cons, List.countP_nil, isSubmit, isTake, beq_iff_eq] at h3 h4 ⊢
    simp
    omega
  · intro m
    have h3 := B.take m
    rw [h1] at h3
    simp [List.countP_append, isTake, isStart, pcTaken, one, List.countP_cons] at h3 ⊢
    omega
  · intro m
    have h3 := B.start m
    rw [h2] at h3
    simpa [List.countP_append, isFinish, isStart, pcCalling, one] using h3
  · intro d m h; exact List.mem_append_left _ (B.mem d m (List.mem_of_mem_erase h))
  · intro d m h
    rcases B.gone d m ((hsub m d).1 h) with h | h
    · by_cases e : (d, m) = (w, n)
      · simp only [Prod.mk.injEq] at e; right; simp [e.2]
      · exact Or.inl ((List.mem_erase_of_ne e).2 h)
    · exact Or.inr (List.mem_append_left _ h)
  · intro m d hp h
    simp only [pcTaken, Option.some.injEq] at hp
    subst hp
    have := B.uniq n d w ((hsub n d).1 h) hsn
    dsimp only; omega
  · intro m hp
    simp only [pcTaken, Option.some.injEq] at hp
    exact hp ▸ hnn
  · intro m now h; exact B.knownS m now (by simpa using h)
  · intro m d now h h'; exact B.started m d now (by simpa using h) ((hsub m d).1 h')
  · intro pre t post he dt hdt u du hu hlt
    have hdt' := (hsub t dt).1 hdt
    rcases append_take he with ⟨post', he'⟩ | ⟨he1, he'⟩
    · exact B.order pre t post' he' dt hdt' u du hu hlt
    · subst he1
      simp only [Event.take.injEq] at he'
      subst he'
      rcases B.gone du u hu with h | h
      · have h5 := front_le hf _ h
        have h6 := B.uniq n dt w hdt' hsn
        dsimp only at h5; omega
      · exact h
  · intro pre t post he
    rcases append_take he with ⟨post', he'⟩ | ⟨-, he'⟩
    · exact B.orderKnown pre t post' he'
    · simp only [Event.take.injEq] at he'
      exact he' ▸ hnn

theorem base_start {s : St} (B : Base s) {n : Nat} (hp : s.pc = .taken n) :
    Base { s with pc := .calling n, trace := s.trace ++ [.start n s.now] } := by
  have hsub : ∀ m d, Event.submit m d ∈ s.trace ++ [Event.start n s.now] ↔ Event.submit m d ∈ s.trace := by
    intro m d; simp
  have hnn := B.known n (by simp [hp, pcTaken])
  refine ⟨?_, ?_, ?_, ?_, ?_, ?_, ?_, ?_, ?_, ?_, ?_, ?_, ?_, ?_, B.notif⟩
  · intro m d h; exact B.lt m d ((hsub m d).1 h)
  · intro m d d' h h'; exact B.uniq m d d' ((hsub m d).1 h) ((hsub m d').1 h')
  · intro m; simpa [List.countP_append, isSubmit] using B.submit m
  · intro m; simpa [List.countP_append, isSubmit, isTake] using B.queue m
  · intro m
    have h3 := B.take m
    simp [hp, List.countP_append, isTake, isStart, pcTaken, one, List.countP_cons] at h3 ⊢
    omega
  · intro m
    have h3 := B.start m
    simp [hp, List.countP_append, isFinish, isStart, pcCalling, one, List.countP_cons] at h3 ⊢
    omega
  · intro d m h; exact List.mem_append_left _ (B.mem d m h)
  · intro d m h
    rcases B.gone d m ((hsub m d).1 h) with h | h
    · exact Or.inl h
    · exact Or.inr (List.mem_append_left _ h)
  · intro m d h; simp [pcTaken] at h
  · intro m h; simp [pcTaken] at h
  · intro m now h
    simp only [List.mem_append, List.mem_singleton, Event.start.injEq] at h
    rcases h with h | ⟨rfl, -⟩
    · exact B.knownS m now h
    · exact hnn
  · intro m d now h h'
    simp only [List.mem_append, List.mem_singleton, Event.start.injEq] at h
    rcases h with h | ⟨rfl, rfl⟩
    · exact B.started m d now h ((hsub m d).1 h')
    · exact B.early m d (by simp [hp, pcTaken]) ((hsub m d).1 h')
  · intro pre t post he dt hdt u du hu hlt
    rcases append_take he with ⟨post', he'⟩ | ⟨-, he'⟩
    · exact B.order pre t post' he' dt ((hsub t dt).1 hdt) u du hu hlt
    · simp at he'
  · intro pre t post he
    rcases append_take he with ⟨post', he'⟩ | ⟨-, he'⟩
    · exact B.orderKnown pre t post' he'
    · simp at he'

theorem base_finish {s : St} (B : Base s) {n : Nat} (hp : s.pc = .calling n) :
    Base { s with pc := .top, trace := s.trace ++ [.finish n] } := by
  have hsub : ∀ m d, Event.submit m d ∈ s.trace ++ [Event.finish n] ↔ Event.submit m d ∈ s.trace := by
    intro m d; simp
  refine ⟨?_, ?_, ?_, ?_, ?_, ?_, ?_, ?_, ?_, ?_, ?_, ?_, ?_, ?_, B.notif⟩
  · intro m d h; exact B.lt m d ((hsub m d).1 h)
  · intro m d d' h h'; exact B.uniq m d d' ((hsub m d).1 h) ((hsub m d').1 h')
  · intro m; simpa [List.countP_append, isSubmit] using B.submit m
  · intro m; simpa [List.countP_append, isSubmit, isTake] using B.queue m
  · intro m
    have h3 := B.take m
    simpa [hp, List.countP_append, isTake, isStart, pcTaken, one] using h3
  · intro m
    have h3 := B.start m
    simp [hp, List.countP_append, isFinish, isStart, pcCalling, one, List.countP_cons] at h3 ⊢
    omega
  · intro d m h; exact List.mem_append_left _ (B.mem d m h)
  · intro d m h
    rcases B.gone d m ((hsub m d).1 h) with h | h
    · exact Or.inl h
    · exact Or.inr (List.mem_append_left _ h)
  · intro m d h; simp [pcTaken] at h
  · intro m h; simp [pcTaken] at h
  · intro m now h; exact B.knownS m now (by simpa using h)
  · intro m d now h h'; exact B.started m d now (by simpa using h) ((hsub m d).1 h')
  · intro pre t post he dt hdt u du hu hlt
    rcases append_take he with ⟨post', he'⟩ | ⟨-, he'⟩
    · exact B.order pre t post' he' dt ((hsub t dt).1 hdt) u du hu hlt
    · simp at he'
  · intro pre t post he
    rcases append_take he with ⟨post', he'⟩ | ⟨-, he'⟩
    · exact B.orderKnown pre t post' he'
    · simp at he'

theorem evalUntil_inv {s : St} (B : Base s) (hq : s.queue ≠ []) (hs : s.stop = false)
    (h1 : pcTaken s.pc = none) (h2 : pcCalling s.pc = none) :
    ∃ s', evalUntil s = .ok s' ∧ Base s' ∧ Sleep s' := by
  unfold evalUntil
  cases hf : front s.queue with
  | none => exact absurd (front_eq_none.1 hf) hq
  | some e =>
    obtain ⟨w, n⟩ := e
    dsimp only
    split
    · refine ⟨_, rfl, base_pc B h1 h2 rfl rfl, ?_⟩
      refine ⟨by simp, ?_, by simp, by simp⟩
      intro w' hw
      simp only [Pc.asleepUntil.injEq] at hw
      subst hw
      exact ⟨front_le hf, ⟨_, front_mem hf, rfl⟩, by simp [hs]⟩
    · rename_i hw
      exact ⟨_, rfl, base_take B hf hw h1 h2, ⟨by simp, by simp, by simp, by simp⟩⟩

theorem evalEmpty_inv {s : St} (B : Base s) (h1 : pcTaken s.pc = none) (h2 : pcCalling s.pc = none) :
    ∃ s', evalEmpty s = .ok s' ∧ Base s' ∧ Sleep s' := by
  unfold evalEmpty
  split
  · rename_i hc
    exact ⟨_, rfl, base_pc B h1 h2 rfl rfl, ⟨fun _ => ⟨hc.1, by simp [hc.2]⟩, by simp, by simp, by simp⟩⟩
  · rename_i hc
    split
    · rename_i hs
      exact ⟨_, rfl, base_pc B h1 h2 rfl rfl, ⟨by simp, by simp, by simp, fun _ => hs⟩⟩
    · rename_i hs
      have hs' : s.stop = false := by simpa using hs
      exact evalUntil_inv B (fun hq => hc ⟨hq, hs'⟩) hs' h1 h2

theorem inv_step {s : St} (B : Base s) (S : Sleep s) (a : Act) :
    step s a ≠ .ub ∧ ∀ s', step s a = .ok s' → Base s' ∧ Sleep s' := by
  cases a with
  | submit d =>
    refine ⟨by simp [step], ?_⟩
    intro s' h
    simp only [step, Out.ok.injEq] at h; subst h
    refine ⟨base_submit (s := { s with pc := wake s.pc }) (base_wake B) d, ?_⟩
    cases hp : s.pc with
    | asleep => exact ⟨by simp [wake], by simp [wake], by simp [wake], by simp [wake]⟩
    | asleepUntil w => exact ⟨by simp [wake], by simp [wake], by simp [wake], by simp [wake]⟩
    | exited => exact ⟨by simp [wake], by simp [wake], by simp [wake], fun _ => S.exited hp⟩
    | _ => exact ⟨by simp [wake], by simp [wake], by simp [wake], by simp [wake]⟩
  | tick d =>
    refine ⟨by simp [step], ?_⟩
    intro s' h
    simp only [step, Out.ok.injEq] at h; subst h
    refine ⟨⟨B.lt, B.uniq, B.submit, B.queue, B.take, B.start, B.mem, B.gone, ?_, B.known, B.knownS,
      B.started, B.order, B.orderKnown, B.notif⟩, ⟨S.asleep, S.til, S.awake, S.exited⟩⟩
    intro n d' hp h
    have := B.early n d' hp h
    dsimp only; omega
  | run =>
    simp only [step]
    cases hp : s.pc with
    | top =>
      obtain ⟨s', h1, h2⟩ := evalEmpty_inv B (by simp [hp, pcTaken]) (by simp [hp, pcCalling])
      simp only [h1]
      exact ⟨by simp, by intro s'' h; simp only [Out.ok.injEq] at h; exact h ▸ h2⟩
    | awake =>
      obtain ⟨s', h1, h2⟩ := evalEmpty_inv B (by simp [hp, pcTaken]) (by simp [hp, pcCalling])
      simp only [h1]
      exact ⟨by simp, by intro s'' h; simp only [Out.ok.injEq] at h; exact h ▸ h2⟩
    | awakeUntil =>
      dsimp only
      split
      · rename_i hs
        refine ⟨by simp, ?_⟩
        intro s' h
        simp only [Out.ok.injEq] at h; subst h
        exact ⟨base_pc B (by simp [hp, pcTaken]) (by simp [hp, pcCalling]) rfl rfl,
          ⟨by simp, by simp, by simp, fun _ => hs⟩⟩
      · rename_i hs
        obtain ⟨s', h1, h2⟩ := evalUntil_inv B (S.awake hp) (by simpa using hs) (by simp [hp, pcTaken])
          (by simp [hp, pcCalling])
        rw [h1]
        exact ⟨by simp, by intro s'' h; simp only [Out.ok.injEq] at h; exact h ▸ h2⟩
    | taken n =>
      refine ⟨by simp, ?_⟩
      intro s' h
      simp only [Out.ok.injEq] at h; subst h
      exact ⟨base_start B hp, ⟨by simp, by simp, by simp, by simp⟩⟩
    | calling n =>
      refine ⟨by simp, ?_⟩
      intro s' h
      simp only [Out.ok.injEq] at h; subst h
      exact ⟨base_finish B hp, ⟨by simp, by simp, by simp, by simp⟩⟩
    | asleep => simp
    | asleepUntil w => simp
    | exited => simp
  | timeout =>
    simp only [step]
    cases hp : s.pc with
    | asleepUntil w =>
      dsimp only
      split
      · refine ⟨by simp, ?_⟩
        intro s' h
        simp only [Out.ok.injEq] at h; subst h
        obtain ⟨-, ⟨e, he, -⟩, -⟩ := S.til w hp
        exact ⟨base_pc B (by simp [hp, pcTaken]) (by simp [hp, pcCalling]) rfl rfl,
          ⟨by simp, by simp, fun _ => List.ne_nil_of_mem he, by simp⟩⟩
      · simp
    | _ => simp
  | spurious =>
    simp only [step]
    cases hp : s.pc with
    | asleep =>
      refine ⟨by simp, ?_⟩
      intro s' h
      simp only [Out.ok.injEq] at h; subst h
      exact ⟨base_pc B (by simp [hp, pcTaken]) (by simp [hp, pcCalling]) rfl rfl,
          ⟨by simp, by simp, by simp, by simp⟩⟩
    | asleepUntil w =>
      refine ⟨by simp, ?_⟩
      intro s' h
      simp only [Out.ok.injEq] at h; subst h
      obtain ⟨-, ⟨e, he, -⟩, -⟩ := S.til w hp
      exact ⟨base_pc B (by simp [hp, pcTaken]) (by simp [hp, pcCalling]) rfl rfl,
        ⟨by simp, by simp, fun _ => List.ne_nil_of_mem he, by simp⟩⟩
    | _ => simp
  | destroy =>
    simp only [step]
    split
    · simp
    · refine ⟨by simp, ?_⟩
      intro s' h
      simp only [Out.ok.injEq] at h; subst h
      exact ⟨⟨B.lt, B.uniq, B.submit, B.queue, B.take, B.start, B.mem, B.gone, B.early, B.known, B.knownS,
        B.started, B.order, B.orderKnown, fun _ => rfl⟩,
        ⟨fun h => ⟨(S.asleep h).1, fun _ => rfl⟩, fun w h => ⟨(S.til w h).1, (S.til w h).2.1, fun _ => rfl⟩,
          S.awake, fun _ => rfl⟩⟩
  | notify =>
    simp only [step]
    split
    · rename_i hn
      refine ⟨by simp, ?_⟩
      intro s' h
      simp only [Out.ok.injEq] at h; subst h
      have hst := B.notif hn
      have B1 := base_wake B
      refine ⟨⟨B1.lt, B1.uniq, B1.submit, B1.queue, B1.take, B1.start, B1.mem, B1.gone, B1.early, B1.known,
        B1.knownS, B1.started, B1.order, B1.orderKnown, by simp⟩, ?_⟩
      cases hp : s.pc with
      | asleep => exact ⟨by simp [wake], by simp [wake], by simp [wake], by simp [wake]⟩
      | asleepUntil w =>
        obtain ⟨-, ⟨e, he, -⟩, -⟩ := S.til w hp
        exact ⟨by simp [wake], by simp [wake], fun _ => List.ne_nil_of_mem he, by simp [wake]⟩
      | awakeUntil => exact ⟨by simp [wake], by simp [wake], fun _ => S.awake hp, by simp [wake]⟩
      | _ => exact ⟨by simp [wake], by simp [wake], by simp [wake], fun _ => hst⟩
    · simp

theorem inv_exec : ∀ {as : List Act} {s s' : St}, Base s → Sleep s → exec s as = some s' → Base s' ∧ Sleep s'
  | [], s, s', B, S, h => by simp only [exec, Option.some.injEq] at h; exact h ▸ ⟨B, S⟩
  | a :: as, s, s', B, S, h => by
    simp only [exec] at h
    split at h
    · rename_i s1 h1
      obtain ⟨B1, S1⟩ := (inv_step B S a).2 _ h1
      exact inv_exec B1 S1 h
    · simp at h

theorem Reachable.inv {s : St} (h : Reachable s) : Base s ∧ Sleep s := by
  obtain ⟨as, h⟩ := h
  exact inv_exec base_init sleep_init h

/-! ## C27 -/

/-- C27: a task is never called before its deadline. -/
theorem c27_not_early {s : St} (h : Reachable s) {n : Nat} {d now : Int}
    (hs : Event.start n now ∈ s.trace) (hd : Event.submit n d ∈ s.trace) : d ≤ now :=
  h.inv.1.started n d now hs hd

/-- C27: when task `t` is taken, every task scheduled before with an earlier deadline has been taken
already. -/
theorem c27_deadline_order {s : St} (h : Reachable s) {pre post : List Event} {t : Nat}
    (ht : s.trace = pre ++ .take t :: post) {dt : Int} (hdt : Event.submit t dt ∈ pre)
    {u : Nat} {du : Int} (hu : Event.submit u du ∈ pre) (hlt : du < dt) : Event.take u ∈ pre :=
  h.inv.1.order pre t post ht dt (by rw [ht]; exact List.mem_append_left _ hdt) u du hu hlt

/-- C27: each task is called at most once, only after it was scheduled. -/
theorem c27_at_most_once {s : St} (h : Reachable s) (n : Nat) :
    s.trace.countP (isStart n) ≤ 1 ∧ s.trace.countP (isTake n) ≤ 1 ∧
    (∀ now, Event.start n now ∈ s.trace → ∃ d, Event.submit n d ∈ s.trace) := by
  obtain ⟨B, -⟩ := h.inv
  have h1 := B.submit n
  have h2 := B.queue n
  have h3 := B.take n
  refine ⟨by split at h1 <;> omega, by split at h1 <;> omega, ?_⟩
  intro now hs
  have : 0 < s.trace.countP (isStart n) := List.countP_pos_iff.2 ⟨_, hs, by simp [isStart]⟩
  have : 0 < s.trace.countP (isSubmit n) := by omega
  obtain ⟨e, he, hi⟩ := List.countP_pos_iff.1 this
  cases e <;> simp [isSubmit] at hi
  rename_i m d
  exact ⟨d, hi ▸ he⟩

/-- C27: nothing is undefined, in particular the front of the empty queue is never looked at. -/
theorem c27_no_undefined {s : St} (h : Reachable s) (a : Act) : step s a ≠ .ub :=
  (inv_step h.inv.1 h.inv.2 a).1

/-- C27: no lost wake-up. While a task is due (its deadline has passed) and has not been called, and the
timer is not being destroyed, the timer thread is not waiting for anything else: it can make a step. -/
theorem c27_no_lost_wakeup {s : St} (h : Reachable s) (hs : s.stop = false) {n : Nat} {d : Int}
    (hd : Event.submit n d ∈ s.trace) (hdue : d ≤ s.now) (hn : ∀ now, Event.start n now ∉ s.trace) :
    (∃ s', step s .run = .ok s') ∨ (∃ s', step s .timeout = .ok s') := by
  obtain ⟨B, S⟩ := h.inv
  have hno := (inv_step B S .run).1
  cases hp : s.pc with
  | asleep =>
    exfalso
    rcases B.gone d n hd with h1 | h1
    · rw [(S.asleep hp).1] at h1; simp at h1
    · have h2 := B.take n
      have : 0 < s.trace.countP (isTake n) := List.countP_pos_iff.2 ⟨_, h1, by simp [isTake]⟩
      have h3 : one (pcTaken s.pc == some n) = 0 := by simp [hp, pcTaken, one]
      obtain ⟨e, he, hi⟩ := List.countP_pos_iff.1 (show 0 < s.trace.countP (isStart n) by omega)
      cases e <;> simp [isStart] at hi
      exact hn _ (hi ▸ he)
  | asleepUntil w =>
    right
    rcases B.gone d n hd with h1 | h1
    · have := (S.til w hp).1 _ h1
      refine ⟨{ s with pc := .awakeUntil }, ?_⟩
      simp only [step, hp]
      rw [if_pos (by dsimp only at this; omega)]
    · exfalso
      have h2 := B.take n
      have : 0 < s.trace.countP (isTake n) := List.countP_pos_iff.2 ⟨_, h1, by simp [isTake]⟩
      have h3 : one (pcTaken s.pc == some n) = 0 := by simp [hp, pcTaken, one]
      obtain ⟨e, he, hi⟩ := List.countP_pos_iff.1 (show 0 < s.trace.countP (isStart n) by omega)
      cases e <;> simp [isStart] at hi
      exact hn _ (hi ▸ he)
  | exited => rw [S.exited hp] at hs; simp at hs
  | _ =>
    left
    cases hr : step s .run with
    | ub => exact absurd hr hno
    | ok s' => exact ⟨s', rfl⟩
    | no =>
      exfalso
      simp only [step, hp, evalEmpty, evalUntil] at hr
      repeat' split at hr
      all_goals simp at hr

/-! ## A concrete case

The first task is due in 10, the second in 5; a third one due at once arrives while the second executes. -/

def demo : List Act :=
  [.run, .submit 10, .submit 5, .run, .tick 7, .timeout, .run, .run, .submit 0, .run, .run, .run,
   .tick 4, .run, .run, .run]

example : (exec {} demo).map St.trace = some [.submit 0 10, .submit 1 5, .take 1, .start 1 7, .submit 2 7,
    .finish 1, .take 2, .start 2 7, .finish 2, .take 0, .start 0 11] := by decide

def dueActs : List Act := [.run, .submit 10, .run, .tick 12]

def due : St := (exec {} dueActs).getD {}

/-- `c27_no_lost_wakeup`: a due task while the timer thread sleeps until its deadline. -/
example : Reachable due ∧ due.stop = false ∧ Event.submit 0 10 ∈ due.trace ∧ (10 : Int) ≤ due.now ∧
    due.pc = .asleepUntil 10 :=
  ⟨⟨dueActs, rfl⟩, rfl, by decide, by decide, by decide⟩

end Verif.Timer
