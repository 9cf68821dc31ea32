import Verif.Future.RaceRun

/-!
# C73: accesses to the shared state of a future are ordered

The claim: however threads copy, hand over, attach to, look at, read, move out of, resolve and destroy a future, two accesses to the
same member of its shared state, one of which is a write, are ordered by "happens before".

It holds for programs that only read (`c73_read_partial`), for futures that are never copied (`c73_unique_partial`), in particular
those whose result cannot be copied (`c73_moveonly_partial`), and it would hold if `use_count()` were an acquire load (`c73_acquire_partial`). It does not hold in general: the result is moved out of the state
when `use_count()` is 1 (future.hpp lines 220-223, 841, 845), and as that is a relaxed load it does not order the move after the reads by owners
that are gone (`c73_move_counterexample`). Deprecated `error()` reads `_exception` whenever it is called
(`c73_error_counterexample`).
-/

namespace Verif.Race

/-- Every run in which no `error()` is called, and no result moved out of a future that had copies but has no more, is free of data
races. -/
theorem c73_no_race_partial (as : List Act) (h : FineRun false false init as) : exec false false init as ≠ .race := by
  intro e
  have := Good.exec (.inl Inv.init) h
  rw [e] at this
  exact this

theorem FineRun.of {acq mo : Bool} {as : List Act} (h : ∀ s, ∀ a ∈ as, Fine acq mo s a) (s : St) : FineRun acq mo s as := by
  induction as generalizing s with
  | nil => trivial
  | cons a as ih =>
    exact ⟨h s a (List.mem_cons_self ..), fun s' _ => ih (fun s a ha => h s a (List.mem_cons_of_mem _ ha)) s'⟩

/-- If results are only read (`get_ready`, `get_try`, `exception` on lvalues), nothing is a race; the state is destroyed after all
accesses to it. -/
theorem c73_read_partial (as : List Act) (he : ∀ t, Act.error t ∉ as) (hr : ∀ t, Act.rvalueTry t ∉ as ∧ Act.rvalueReady t ∉ as) :
    exec false false init as ≠ .race := by
  refine c73_no_race_partial as (FineRun.of (fun s a ha => ?_) _)
  cases a <;> first | trivial | skip
  case error t => exact he t ha
  case rvalueTry t => exact absurd ha (hr t).1
  case rvalueReady t => exact absurd ha (hr t).2

/-- If `use_count()` were an acquire load, everything but `error()` would be free of races. -/
theorem c73_acquire_partial (as : List Act) (he : ∀ t, Act.error t ∉ as) : exec true false init as ≠ .race := by
  intro e
  have := Good.exec (acq := true) (mo := false) (as := as) (.inl Inv.init) (FineRun.of (fun s a ha => ?_) _)
  · rw [e] at this; exact this
  · cases a <;> first | trivial | skip
    case error t => exact he t ha
    case rvalueTry t => exact .inr ⟨rfl, .inl rfl⟩
    case rvalueReady t => exact .inr ⟨rfl, .inl rfl⟩

theorem access_copied {s s' : St} {t : Nat} {l : Loc} {w : Bool} (h : access s t l w = .ok s') : s'.copied = s.copied := by
  simp only [access] at h
  split at h
  · cases h
  · cases h; rfl

theorem bind_ok {o : Out} {f : St → Out} {s' : St} (h : o.bind f = .ok s') : ∃ s, o = .ok s ∧ f s = .ok s' := by
  cases o with
  | no => cases h
  | race => cases h
  | ok s => exact ⟨s, rfl, h⟩

theorem take_copied {s s' : St} {t : Nat} {w : Bool} (h : take s t w = .ok s') : s'.copied = s.copied := by
  obtain ⟨s1, h1, h2⟩ := bind_ok h
  split at h2
  · rw [access_copied h2, access_copied h1]
  · cases h2; exact access_copied h1

theorem release_copied {s s' : St} {t : Nat} (h : release s t = .ok s') : s'.copied = s.copied := by
  simp only [release] at h
  split at h
  · obtain ⟨s1, h1, h⟩ := bind_ok h
    obtain ⟨s2, h2, h⟩ := bind_ok h
    rw [access_copied h, access_copied h2, access_copied h1]
  · cases h; rfl

theorem step_copied {s s' : St} {acq mo : Bool} {a : Act} (h : step acq mo s a = .ok s') (hc : ∀ t, a ≠ .copy t) (ha : ∀ t, a ≠ .attach t false) :
    s'.copied = s.copied := by
  cases a with
  | copy t => exact absurd rfl (hc t)
  | attach t mv =>
    cases mv with
    | false => exact absurd rfl (ha t)
    | true =>
      simp only [step, if_true] at h
      split at h
      · split at h
        · cases h; rfl
        · obtain ⟨s1, h1, h⟩ := bind_ok h
          cases h; have := access_copied h1; exact this
      · cases h
  | drop t =>
    simp only [step] at h
    split at h
    · have := release_copied h; exact this
    · cases h
  | read t =>
    simp only [step] at h
    split at h
    · exact take_copied h
    · cases h
  | error t =>
    simp only [step] at h
    split at h
    · exact access_copied h
    · cases h
  | next t =>
    simp only [step] at h
    split at h
    · cases h
    · obtain ⟨s1, h1, h⟩ := bind_ok h; cases h; have := access_copied h1; exact this
    · obtain ⟨s1, h1, h⟩ := bind_ok h; cases h; have := access_copied h1; exact this
    · split at h
      · have := release_copied h; exact this
      · cases h; rfl
    · split at h <;> cases h <;> rfl
    · obtain ⟨s1, h1, h⟩ := bind_ok h; cases h; have := take_copied h1; exact this
  | _ =>
    simp only [step] at h
    repeat' split at h
    all_goals first | (cases h; rfl) | cases h

/-- A future that is never copied (`then` and the like are called on rvalues) is free of races, also when its result is moved out:
the owner has it from the previous one, or from the thread that resolved the future. -/
theorem c73_unique_partial (as : List Act) (he : ∀ t, Act.error t ∉ as) (hc : ∀ t, Act.copy t ∉ as ∧ Act.attach t false ∉ as) :
    exec false false init as ≠ .race := by
  refine c73_no_race_partial as ?_
  have : ∀ s : St, s.copied = false → FineRun false false s as := by
    induction as with
    | nil => intros; trivial
    | cons a as ih =>
      intro s hs
      refine ⟨?_, fun s' h => ih (fun t h => he t (List.mem_cons_of_mem _ h))
        (fun t => ⟨fun h => (hc t).1 (List.mem_cons_of_mem _ h), fun h => (hc t).2 (List.mem_cons_of_mem _ h)⟩) s' ?_⟩
      · cases a <;> first | trivial | skip
        case error t => exact he t (List.mem_cons_self ..)
        case rvalueTry t => exact .inl hs
        case rvalueReady t => exact .inl hs
      · rw [step_copied h (fun t e => (hc t).1 (e ▸ List.mem_cons_self ..)) (fun t e => (hc t).2 (e ▸ List.mem_cons_self ..))]
        exact hs
  exact this init rfl

/-- Results that cannot be copied are always moved out, and also when the thread that resolves the future still has a reference to
the state; this is free of races. -/
theorem c73_moveonly_partial (acq : Bool) (as : List Act) (he : ∀ t, Act.error t ∉ as) : exec acq true init as ≠ .race := by
  have : ∀ s : St, s.copied = false → FineRun acq true s as := by
    induction as with
    | nil => intros; trivial
    | cons a as ih =>
      intro s hs
      refine ⟨?_, fun s' h => ih (fun t h => he t (List.mem_cons_of_mem _ h)) s' ?_⟩
      · cases a <;> first | trivial | skip
        case error t => exact he t (List.mem_cons_self ..)
        case rvalueTry t => exact .inl hs
        case rvalueReady t => exact .inl hs
      · rw [step_copied h, hs]
        · rintro t rfl; simp [step] at h
        · rintro t rfl; simp [step] at h
  intro e
  have := Good.exec (.inl Inv.init) (this init rfl)
  rw [e] at this
  exact this

def Out.raced : Out → Bool
  | .race => true
  | _ => false

def Out.accesses : Out → List (Loc × Bool × Nat)
  | .ok s => s.acc.map fun a => (a.loc, a.write, a.thread)
  | _ => []

/-- Thread 0 attaches a continuation to a copy of the future, waits until the future is ready, reads the result and destroys its
object. Thread 1 resolves the future, thread 2 runs the continuation: it sees that it has the only future object, and moves the
result out, but nothing orders this after the read by thread 0. -/
def readAndMove : List Act :=
  [.giveTask 0 1, .attach 0 false, .resolve 1 true, .next 1, .next 1, .next 1, .next 1,
   .look 0, .read 0, .drop 0, .start 2 0, .rvalueReady 2, .next 2]

theorem c73_move_counterexample : exec false false init readAndMove = .race ∧ (∀ t, Act.error t ∉ readAndMove) := by
  refine ⟨?_, by simp [readAndMove]⟩
  have h : (exec false false init readAndMove).raced = true := by decide
  cases e : exec false false init readAndMove with
  | race => rfl
  | no => rw [e] at h; cases h
  | ok s => rw [e] at h; cases h

/-- Thread 0 asks for the error while thread 1 stores it. -/
def errorWhile : List Act := [.giveTask 0 1, .resolve 1 false, .error 0, .next 1]

theorem c73_error_counterexample : exec false false init errorWhile = .race := by
  have h : (exec false false init errorWhile).raced = true := by decide
  cases e : exec false false init errorWhile with
  | race => rfl
  | no => rw [e] at h; cases h
  | ok s => rw [e] at h; cases h

/-! ## The theorems are about something -/

/-- With an acquire load the same run goes on to the end: the last access is the write of the result by thread 2. -/
example : (exec true false init readAndMove).accesses.head? = some (.result, true, 2) := by decide

/-- A future that is copied and read by two threads, while a third one resolves it; the last reader destroys it. -/
example : (exec false false init [.copy 0, .give 0 1, .giveTask 0 2, .resolve 2 true, .next 2, .look 0, .next 2, .isReady 1, .look 0,
    .read 1, .drop 1, .next 2, .read 0, .drop 0]).accesses =
    [(.thens, true, 0), (.exception, true, 0), (.result, true, 0), (.result, false, 0), (.exception, false, 0), (.result, false, 1),
     (.exception, false, 1), (.thens, true, 2), (.result, true, 2), (.result, true, 0), (.exception, true, 0), (.thens, true, 0)] := by
  decide

/-- A future that is not copied: thread 0 attaches a continuation, thread 1 resolves the future, thread 2 runs the continuation and
moves the result out. -/
example : (exec false false init [.giveTask 0 1, .attach 0 true, .resolve 1 true, .next 1, .next 1, .next 1, .start 2 0, .next 1,
    .rvalueReady 2, .next 2, .drop 2]).accesses.take 5 =
    [(.thens, true, 2), (.exception, true, 2), (.result, true, 2), (.result, true, 2), (.exception, false, 2)] := by
  decide

/-- A result that cannot be copied: thread 1 sees that the future is ready and moves the result out before thread 2, which resolved
it, has released the state; it then destroys the future, so thread 2 destroys the state. -/
example : (exec false true init [.giveTask 0 2, .give 0 1, .resolve 2 true, .next 2, .rvalueTry 1, .next 2, .next 1, .next 1, .drop 1,
    .next 2]).accesses.take 7 =
    [(.thens, true, 2), (.exception, true, 2), (.result, true, 2), (.result, true, 1), (.exception, false, 1), (.thens, true, 2),
     (.result, true, 2)] := by decide

/-- The future is destroyed by the thread that resolves it: the owner has dropped it in the meantime. -/
example : (exec false false init [.giveTask 0 1, .resolve 1 true, .drop 0, .next 1, .next 1, .next 1]).accesses.take 4 =
    [(.thens, true, 1), (.exception, true, 1), (.result, true, 1), (.thens, true, 1)] := by decide

/-- Reading `_result` without having looked whether the future is ready is not possible in the model: `get_ready` asserts it
(line 407). -/
example : (step false false init (.read 0)).raced = false ∧ (step false false init (.read 0)).accesses = [] := by decide

end Verif.Race
