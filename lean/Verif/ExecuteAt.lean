/-!
# `execute_at` (include/stlab/concurrency/executor_base.hpp:34-45)

The lambda returned by `execute_at` is one object with two data members, `_duration` and `_executor`; it is
`mutable` and moves `_executor` out of itself when it schedules a task. The executor is a number, `none` for a
moved-from `std::function` (which is empty with all standard libraries). The timer is represented by the list
of the functions scheduled with it, any of which may be called once it is due (see `Verif/Timer.lean`).
-/

namespace Verif.ExecuteAt

inductive Event where
  /-- the delayed executor is called with task `f` at time `now` -/
  | given (f : Nat) (now : Int)
  /-- executor `e` receives task `f` at time `now` -/
  | ran (e f : Nat) (now : Int)
  /-- an empty `std::function` is called in a `noexcept` function: `std::terminate` -/
  | terminate
  deriving DecidableEq, Repr

/-- What the timer holds: a lambda with its captured `_f` and `_executor` (lines 38-41). -/
structure Scheduled where
  deadline : Int
  f : Nat
  executor : Option Nat
  deriving DecidableEq, Repr

structure St where
  /-- `_duration` -/
  duration : Int
  /-- `_executor` -/
  executor : Option Nat
  timer : List Scheduled := []
  now : Int := 0
  trace : List Event := []

inductive Act where
  /-- the delayed executor is called with task `f` -/
  | use (f : Nat)
  | tick (d : Nat)
  /-- the timer calls its `i`-th function, which is due -/
  | fire (i : Nat)
  deriving DecidableEq, Repr

/-- Call a `std::function` executor (an empty one throws, which ends in `std::terminate`: the timer's
function is `noexcept`, and so are the tasks that call executors). -/
def callExecutor (e : Option Nat) (f : Nat) (now : Int) : Event :=
  match e with
  | some e => .ran e f now
  | none => .terminate

/-- One step; after `terminate` there is none. -/
def step (s : St) (a : Act) : Option St :=
  if Event.terminate ∈ s.trace then none else
  match a with
  | .use f =>
    if s.duration ≠ 0 then
      -- system_timer(_duration, [_f = move(f), _executor = move(_executor)]...)
      some { s with timer := s.timer ++ [⟨s.now + s.duration, f, s.executor⟩], executor := none,
                    trace := s.trace ++ [.given f s.now] }
    else some { s with trace := s.trace ++ [.given f s.now, callExecutor s.executor f s.now] }
  | .tick d => some { s with now := s.now + d }
  | .fire i =>
    match s.timer[i]? with
    | none => none
    | some x =>
      if x.deadline ≤ s.now then
        some { s with timer := s.timer.eraseIdx i, trace := s.trace ++ [callExecutor x.executor x.f s.now] }
      else none

def exec (s : St) : List Act → Option St
  | [] => some s
  | a :: as => match step s a with
    | none => none
    | some s' => exec s' as

/-- `execute_at(d, e)` -/
def executeAt (d : Int) (e : Nat) : St := { duration := d, executor := some e }

def isUse : Act → Bool
  | .use _ => true
  | _ => false

/-- C28 fails: the second task given to one delayed executor makes the program terminate instead of being run
by the executor; for every executor and every duration other than zero. -/
theorem c28_second_use_counterexample (d : Int) (hd : 0 < d) (e : Nat) :
    ∃ s, exec (executeAt d e) [.use 0, .use 1, .tick d.toNat, .fire 0, .fire 0] = some s ∧
      Event.ran e 0 d ∈ s.trace ∧ (∀ e' now, Event.ran e' 1 now ∉ s.trace) ∧ Event.terminate ∈ s.trace := by
  have h0 : d ≠ 0 := by omega
  have h1 : (d.toNat : Int) = d := Int.toNat_of_nonneg (by omega)
  refine ⟨⟨d, none, [], d, [.given 0 0, .given 1 0, .ran e 0 d, .terminate]⟩, ?_, ?_, ?_, ?_⟩
  · simp [exec, step, executeAt, h0, h1, callExecutor]
  · simp
  · simp
  · simp

/-- The delayed executor may be used `k` more times, or any number of times if the duration is zero. -/
structure Inv (e : Nat) (k : Nat) (s : St) : Prop where
  nt : Event.terminate ∉ s.trace
  executor : s.duration = 0 ∨ k = 1 → s.executor = some e
  timer : ∀ x ∈ s.timer, x.executor = some e ∧ ∃ t, Event.given x.f t ∈ s.trace ∧ x.deadline = t + s.duration
  ran : ∀ e' f now, Event.ran e' f now ∈ s.trace → e' = e ∧
    ∃ t, Event.given f t ∈ s.trace ∧ t + s.duration ≤ now
  given : ∀ f t, Event.given f t ∈ s.trace →
    (∃ now, Event.ran e f now ∈ s.trace) ∨ ∃ x ∈ s.timer, x.f = f

theorem mem_eraseIdx_or {α : Type} : ∀ {l : List α} {i : Nat} {x y : α}, l[i]? = some x → y ∈ l →
    y = x ∨ y ∈ l.eraseIdx i
  | [], i, x, y, h, hy => by simp at hy
  | a :: l, 0, x, y, h, hy => by
    simp only [List.getElem?_cons_zero, Option.some.injEq] at h
    subst h
    simpa using hy
  | a :: l, i + 1, x, y, h, hy => by
    simp only [List.getElem?_cons_succ] at h
    rcases List.mem_cons.1 hy with rfl | hy
    · right; simp
    · rcases mem_eraseIdx_or h hy with h | h
      · exact Or.inl h
      · right; simp [h]

theorem inv_step {e k : Nat} {s s' : St} (I : Inv e k s) {a : Act} (hk : k ≤ 1)
    (hu : s.duration = 0 ∨ (if isUse a then 1 else 0) ≤ k) (h : step s a = some s') :
    Inv e (k - if isUse a then 1 else 0) s' ∧ s'.duration = s.duration := by
  simp only [step, I.nt, if_false] at h
  cases a with
  | use f =>
    simp only [isUse, if_true] at hu ⊢
    have he := I.executor (by omega)
    dsimp only at h
    split at h
    · rename_i hd
      simp only [Option.some.injEq] at h; subst h
      refine ⟨⟨by simp [I.nt], ?_, ?_, ?_, ?_⟩, rfl⟩
      · intro hc
        exfalso
        dsimp only at hc
        omega
      · intro x hx
        simp only [List.mem_append, List.mem_singleton] at hx
        rcases hx with hx | rfl
        · obtain ⟨a, t, b, c⟩ := I.timer x hx
          exact ⟨a, t, List.mem_append_left _ b, c⟩
        · exact ⟨he, s.now, by simp, rfl⟩
      · intro e' f' now hr
        obtain ⟨a, t, b, c⟩ := I.ran e' f' now (by simpa using hr)
        exact ⟨a, t, List.mem_append_left _ b, c⟩
      · intro f' t hg
        simp only [List.mem_append, List.mem_singleton, Event.given.injEq] at hg
        rcases hg with hg | ⟨rfl, -⟩
        · rcases I.given f' t hg with ⟨now, h⟩ | ⟨x, hx, hf⟩
          · exact Or.inl ⟨now, List.mem_append_left _ h⟩
          · exact Or.inr ⟨x, List.mem_append_left _ hx, hf⟩
        · exact Or.inr ⟨_, List.mem_append_right _ (List.mem_singleton.2 rfl), rfl⟩
    · rename_i hd
      have hd0 : s.duration = 0 := by omega
      simp only [he, callExecutor, Option.some.injEq] at h; subst h
      refine ⟨⟨by simp [I.nt], fun _ => rfl, ?_, ?_, ?_⟩, rfl⟩
      · intro x hx
        obtain ⟨a, t, b, c⟩ := I.timer x hx
        exact ⟨a, t, List.mem_append_left _ b, c⟩
      · intro e' f' now hr
        simp only [List.mem_append, List.mem_cons, reduceCtorEq, Event.ran.injEq, List.not_mem_nil, or_false,
          false_or] at hr
        rcases hr with hr | ⟨rfl, rfl, rfl⟩
        · obtain ⟨a, t, b, c⟩ := I.ran e' f' now hr
          exact ⟨a, t, List.mem_append_left _ b, c⟩
        · exact ⟨rfl, s.now, by simp, by dsimp only; omega⟩
      · intro f' t hg
        simp only [List.mem_append, List.mem_cons, reduceCtorEq, Event.given.injEq, List.not_mem_nil, or_false] at hg
        rcases hg with hg | ⟨rfl, -⟩
        · rcases I.given f' t hg with ⟨now, h⟩ | ⟨x, hx, hf⟩
          · exact Or.inl ⟨now, List.mem_append_left _ h⟩
          · exact Or.inr ⟨x, hx, hf⟩
        · exact Or.inl ⟨s.now, by simp⟩
  | tick d =>
    simp only [Option.some.injEq] at h; subst h
    exact ⟨⟨I.nt, I.executor, I.timer, I.ran, I.given⟩, rfl⟩
  | fire i =>
    dsimp only at h
    split at h
    · simp at h
    · rename_i x hx
      split at h
      · rename_i hdl
        obtain ⟨hxe, t0, hg0, hdl0⟩ := I.timer x (List.mem_of_getElem? hx)
        simp only [hxe, callExecutor, Option.some.injEq] at h; subst h
        refine ⟨⟨by simp [I.nt], I.executor, ?_, ?_, ?_⟩, rfl⟩
        · intro y hy
          obtain ⟨a, t, b, c⟩ := I.timer y (List.mem_of_mem_eraseIdx hy)
          exact ⟨a, t, List.mem_append_left _ b, c⟩
        · intro e' f' now hr
          simp only [List.mem_append, List.mem_singleton, Event.ran.injEq] at hr
          rcases hr with hr | ⟨rfl, rfl, rfl⟩
          · obtain ⟨a, t, b, c⟩ := I.ran e' f' now hr
            exact ⟨a, t, List.mem_append_left _ b, c⟩
          · exact ⟨rfl, t0, List.mem_append_left _ hg0, by dsimp only; omega⟩
        · intro f' t hg
          have hg' : Event.given f' t ∈ s.trace := by simpa using hg
          rcases I.given f' t hg' with ⟨now, h⟩ | ⟨y, hy, hf⟩
          · exact Or.inl ⟨now, List.mem_append_left _ h⟩
          · rcases mem_eraseIdx_or hx hy with rfl | hy
            · exact Or.inl ⟨s.now, by simp [hf]⟩
            · exact Or.inr ⟨y, hy, hf⟩
      · simp at h

theorem inv_exec {e : Nat} : ∀ {as : List Act} {k : Nat} {s s' : St}, Inv e k s → k ≤ 1 →
    (s.duration = 0 ∨ as.countP isUse ≤ k) → exec s as = some s' →
    ∃ k', Inv e k' s' ∧ s'.duration = s.duration
  | [], k, s, s', I, _, _, h => by
    simp only [exec, Option.some.injEq] at h; exact ⟨k, h ▸ I, by rw [h]⟩
  | a :: as, k, s, s', I, hk, hu, h => by
    simp only [exec] at h
    split at h
    · simp at h
    · rename_i s1 h1
      simp only [List.countP_cons] at hu
      obtain ⟨I1, hd1⟩ := inv_step I hk (by omega) h1
      obtain ⟨k', I', hd'⟩ := inv_exec I1 (by omega) (by rw [hd1]; omega) h
      exact ⟨k', I', by rw [hd', hd1]⟩

/-- C28 for a delayed executor used at most once, or with a zero duration: the program does not terminate,
every task handed to an executor is handed to `e`, not before the duration has passed since it was given to
the delayed executor; and once the timer has called everything scheduled, `e` has got every task. -/
theorem c28_execute_at_partial {d : Int} {e : Nat} {as : List Act} {s : St}
    (h : exec (executeAt d e) as = some s) (hu : d = 0 ∨ as.countP isUse ≤ 1) :
    Event.terminate ∉ s.trace ∧
    (∀ e' f now, Event.ran e' f now ∈ s.trace → e' = e ∧ ∃ t, Event.given f t ∈ s.trace ∧ t + d ≤ now) ∧
    (s.timer = [] → ∀ f t, Event.given f t ∈ s.trace → ∃ now, Event.ran e f now ∈ s.trace) := by
  have I0 : Inv e 1 (executeAt d e) :=
    ⟨by simp [executeAt], by simp [executeAt], by simp [executeAt], by simp [executeAt], by simp [executeAt]⟩
  obtain ⟨k, I, hd⟩ := inv_exec I0 (Nat.le_refl _) hu h
  have hd' : s.duration = d := hd
  refine ⟨I.nt, ?_, ?_⟩
  · intro e' f now hr
    obtain ⟨a, t, b, c⟩ := I.ran e' f now hr
    exact ⟨a, t, b, by omega⟩
  · intro ht f t hg
    rcases I.given f t hg with h | ⟨x, hx, -⟩
    · exact h
    · rw [ht] at hx; simp at hx

example : (exec (executeAt 5 7) [.use 3, .tick 6, .fire 0]).map (fun s => (s.trace, s.timer)) =
    some ([.given 3 0, .ran 7 3 6], []) := by decide

example : (exec (executeAt 0 7) [.use 3, .tick 6, .use 4]).map (fun s => (s.trace, s.timer)) =
    some ([.given 3 0, .ran 7 3 0, .given 4 6, .ran 7 4 6], []) := by decide

end Verif.ExecuteAt
