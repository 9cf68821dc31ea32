/-!
# The progress tracker (include/stlab/concurrency/progress.hpp)

Any history of one tracker and of callables wrapped by it. The tracker is alive. The counters are `std::size_t`; they are
natural numbers here with the decrement of 0 as a distinct outcome, which is shown not to happen.
-/

namespace Verif.Progress

structure St where
  /-- `_task_number`, line 19 -/
  steps : Nat
  /-- `_done_tasks`, line 20 -/
  completed : Nat
  /-- the callables: `none` if destroyed, `some true` if `_p` is set -/
  objs : List (Option Bool)

inductive Op where
  /-- `progress_tracker::operator()`, lines 97-100, 65-67 -/
  | wrap
  /-- copy construction, lines 49-52 -/
  | copy (i : Nat)
  /-- move construction, line 62; also when a wrapped callable is given to another function by value -/
  | move (i : Nat)
  /-- `j = i`, lines 54-60 -/
  | assign (i j : Nat)
  /-- `j = std::move(i)`, line 63 -/
  | moveAssign (i j : Nat)
  /-- a call that returns, lines 74-80 -/
  | call (i : Nat)
  /-- a call in which the function throws -/
  | throw (i : Nat)
  /-- destruction, lines 69-72 -/
  | destroy (i : Nat)
  deriving DecidableEq, Repr

inductive Out where
  | ok (s : St)
  /-- the counter is decremented below 0 -/
  | underflow
  /-- no such object -/
  | invalid

/-- The object, if it has not been destroyed. -/
def St.get (s : St) (i : Nat) : Option Bool := (s.objs[i]?).join

def step (s : St) : Op → Out
  | .wrap => .ok { s with steps := s.steps + 1, objs := s.objs ++ [some true] }
  | .copy i => match s.get i with
    | some b => .ok { s with steps := s.steps + b.toNat, objs := s.objs ++ [some b] }
    | none => .invalid
  | .move i => match s.get i with
    | some b => .ok { s with objs := s.objs.set i (some false) ++ [some b] }
    | none => .invalid
  | .assign i j => match s.get i, s.get j with
    | some b, some _ => .ok { s with steps := s.steps + b.toNat, objs := s.objs.set j (some b) }
    | _, _ => .invalid
  | .moveAssign i j => match s.get i, s.get j with
    | some b, some _ => if i = j then .ok s else .ok { s with objs := (s.objs.set j (some b)).set i (some false) }
    | _, _ => .invalid
  | .call i => match s.get i with
    | some b => .ok { s with completed := s.completed + b.toNat }
    | none => .invalid
  | .throw i => match s.get i with
    | some _ => .ok s
    | none => .invalid
  | .destroy i => match s.get i with
    | some true => if s.steps = 0 then .underflow else .ok { s with steps := s.steps - 1, objs := s.objs.set i none }
    | some false => .ok { s with objs := s.objs.set i none }
    | none => .invalid

def Out.bind (o : Out) (f : St → Out) : Out :=
  match o with
  | .ok s => f s
  | .underflow => .underflow
  | .invalid => .invalid

def exec (s : St) : List Op → Out
  | [] => .ok s
  | a :: as => (step s a).bind fun s => exec s as

def init : St := ⟨0, 0, []⟩

def Reachable (s : St) : Prop := ∃ as, exec init as = .ok s

/-- The wrapped callables that exist. -/
def live (s : St) : Nat := s.objs.countP (· = some true)

/-- No wrapped callable is overwritten. -/
def Tidy (s : St) : Op → Prop
  | .assign _ j => s.get j ≠ some true
  | .moveAssign i j => i = j ∨ s.get j ≠ some true
  | _ => True

inductive TidyReachable : St → Prop where
  | init : TidyReachable init
  | step {s s' : St} {a : Op} : TidyReachable s → Tidy s a → step s a = .ok s' → TidyReachable s'

theorem get_some {s : St} {i : Nat} {b : Bool} (h : s.get i = some b) : s.objs[i]? = some (some b) := by
  unfold St.get at h
  cases hx : s.objs[i]? with
  | none => rw [hx] at h; cases h
  | some o => rw [hx] at h; have : o = some b := h; rw [this]

theorem countP_set' {α : Type} (f : α → Bool) (l : List α) (i : Nat) (a b : α) (h : l[i]? = some a) :
    (l.set i b).countP f + (if f a then 1 else 0) = l.countP f + (if f b then 1 else 0) := by
  induction l generalizing i with
  | nil => simp at h
  | cons x l ih =>
    cases i with
    | zero =>
      simp only [List.getElem?_cons_zero, Option.some.injEq] at h
      subst h
      simp only [List.set_cons_zero, List.countP_cons]
      omega
    | succ i =>
      have := ih i (by simpa using h)
      simp only [List.set_cons_succ, List.countP_cons]
      omega

/-- What a step does to the counter and the callables: the counter may grow by more, but not without an assignment. -/
theorem step_eff {s s' : St} {a : Op} (h : step s a = .ok s') :
    live s' + s.steps ≤ live s + s'.steps ∧ (Tidy s a → live s' + s.steps = live s + s'.steps) := by
  cases a with
  | wrap => cases h; simp [live, List.countP_append]; omega
  | copy i =>
    simp only [step] at h
    split at h <;> cases h
    next b _ => cases b <;> simp [live, List.countP_append] <;> omega
  | move i =>
    simp only [step] at h
    split at h <;> cases h
    next b hi =>
    have := countP_set' (· = some true) s.objs i _ (some false) (get_some hi)
    cases b <;> simp [live, List.countP_append] at this ⊢ <;> omega
  | assign i j =>
    simp only [step] at h
    split at h <;> cases h
    next b c hi hj =>
    have := countP_set' (· = some true) s.objs j _ (some b) (get_some hj)
    cases b <;> cases c <;> simp [live, Tidy, hj] at this ⊢ <;> omega
  | moveAssign i j =>
    simp only [step] at h
    split at h
    · next b c hi hj =>
      split at h <;> cases h
      · simp
      · next hij =>
        have h1 := countP_set' (· = some true) s.objs j _ (some b) (get_some hj)
        have h2 := countP_set' (· = some true) (s.objs.set j (some b)) i (some b) (some false)
          (by rw [List.getElem?_set_ne (Ne.symm hij)]; exact get_some hi)
        cases b <;> cases c <;> simp [live, Tidy, hj, hij] at h1 h2 ⊢ <;> omega
    · cases h
  | call i =>
    simp only [step] at h
    split at h <;> cases h
    simp [live]
  | throw i =>
    simp only [step] at h
    split at h <;> cases h
    simp
  | destroy i =>
    simp only [step] at h
    split at h
    · next hi =>
      split at h <;> cases h
      have := countP_set' (· = some true) s.objs i _ none (get_some hi)
      simp [live] at this ⊢; omega
    · next hi =>
      cases h
      have := countP_set' (· = some true) s.objs i _ none (get_some hi)
      simp [live] at this ⊢; omega
    · cases h

theorem reach {s s' : St} {as : List Op} (h : exec s as = .ok s') (h1 : live s ≤ s.steps) : live s' ≤ s'.steps := by
  induction as generalizing s with
  | nil => cases h; exact h1
  | cons a as ih =>
    simp only [exec] at h
    cases hs : step s a with
    | ok s1 =>
      rw [hs] at h
      have := step_eff hs
      exact ih h (by omega)
    | underflow => rw [hs] at h; cases h
    | invalid => rw [hs] at h; cases h

/-- Whatever is done: the counter does not wrap around. -/
theorem c49_no_underflow {s : St} (h : Reachable s) (a : Op) : step s a ≠ .underflow := by
  obtain ⟨as, h⟩ := h
  have h1 := reach h (by simp [init, live])
  cases a with
  | destroy i =>
    simp only [step]
    split
    · next hi =>
      have : 0 < live s := by
        rw [live, List.countP_pos_iff]
        exact ⟨_, List.mem_of_getElem? (get_some hi), by simp⟩
      rw [if_neg (by omega)]
      simp
    · simp
    · simp
  | moveAssign i j => simp only [step]; split
                      · split <;> simp
                      · simp
  | _ => simp only [step] <;> (try split) <;> simp

def Op.isCall : Op → Bool
  | .call _ => true
  | _ => false

def Op.isMove : Op → Bool
  | .move _ | .moveAssign .. => true
  | _ => false

theorem step_completed {s s' : St} {a : Op} (h : step s a = .ok s') :
    s'.completed ≤ s.completed + (if a.isCall then 1 else 0) ∧
      ((∀ o ∈ s.objs, o ≠ some false) → a.isMove = false →
        s'.completed = s.completed + (if a.isCall then 1 else 0) ∧ ∀ o ∈ s'.objs, o ≠ some false) := by
  have hset : ∀ {l : List (Option Bool)} {i : Nat} {x : Option Bool}, (∀ o ∈ l, o ≠ some false) → x ≠ some false →
      ∀ o ∈ l.set i x, o ≠ some false := by
    intro l i x h1 h2 o ho
    rcases List.mem_or_eq_of_mem_set ho with h | h
    · exact h1 o h
    · rw [h]; exact h2
  have hget : ∀ {i : Nat} {b : Bool}, s.get i = some b → (∀ o ∈ s.objs, o ≠ some false) → b = true := by
    intro i b hi h
    have := h _ (List.mem_of_getElem? (get_some hi))
    cases b <;> simp_all
  cases a with
  | wrap => cases h; refine ⟨by simp [Op.isCall], fun h1 _ => ⟨rfl, ?_⟩⟩
            intro o ho
            rcases List.mem_append.1 ho with h | h
            · exact h1 o h
            · simp at h; simp [h]
  | copy i =>
    simp only [step] at h
    split at h <;> cases h
    next b hi =>
    refine ⟨by simp [Op.isCall], fun h1 _ => ⟨rfl, ?_⟩⟩
    intro o ho
    have := hget hi h1
    rcases List.mem_append.1 ho with h | h
    · exact h1 o h
    · simp at h; simp [h, this]
  | move i =>
    simp only [step] at h
    split at h <;> cases h
    exact ⟨by simp [Op.isCall], fun _ h => by cases h⟩
  | assign i j =>
    simp only [step] at h
    split at h <;> cases h
    next b c hi hj =>
    exact ⟨by simp [Op.isCall], fun h1 _ => ⟨rfl, hset h1 (by rw [hget hi h1]; simp)⟩⟩
  | moveAssign i j =>
    refine ⟨?_, fun _ h => by cases h⟩
    simp only [step] at h
    split at h
    · split at h <;> cases h <;> simp [Op.isCall]
    · cases h
  | call i =>
    simp only [step] at h
    split at h <;> cases h
    next b hi =>
    refine ⟨by cases b <;> simp [Op.isCall], fun h1 _ => ⟨by rw [hget hi h1]; rfl, h1⟩⟩
  | throw i =>
    simp only [step] at h
    split at h <;> cases h
    exact ⟨by simp [Op.isCall], fun h1 _ => ⟨rfl, h1⟩⟩
  | destroy i =>
    simp only [step] at h
    split at h
    · split at h <;> cases h
      exact ⟨by simp [Op.isCall], fun h1 _ => ⟨rfl, hset h1 (by simp)⟩⟩
    · cases h
      exact ⟨by simp [Op.isCall], fun h1 _ => ⟨rfl, hset h1 (by simp)⟩⟩
    · cases h

/-- `completed()` is the number of calls that returned; calls of objects that were moved from are not counted. -/
theorem c49_completed {as : List Op} {s' : St} (h : exec init as = .ok s') :
    s'.completed ≤ as.countP (·.isCall) ∧ (as.all (!·.isMove) = true → s'.completed = as.countP (·.isCall)) := by
  have key : ∀ (as : List Op) (s s' : St), exec s as = .ok s' → s'.completed ≤ s.completed + as.countP (·.isCall) ∧
      ((∀ o ∈ s.objs, o ≠ some false) → as.all (!·.isMove) = true → s'.completed = s.completed + as.countP (·.isCall)) := by
    intro as
    induction as with
    | nil => intro s s' h; cases h; simp
    | cons a as ih =>
      intro s s' h
      simp only [exec] at h
      cases hs : step s a with
      | ok s1 =>
        rw [hs] at h
        have h1 := step_completed hs
        have h2 := ih s1 s' h
        rw [List.countP_cons]
        refine ⟨by have := h1.1; have := h2.1; omega, fun h3 h4 => ?_⟩
        simp only [List.all_cons, Bool.and_eq_true, Bool.not_eq_true'] at h4
        have h5 := h1.2 h3 h4.1
        have h6 := h2.2 h5.2 h4.2
        have := h5.1
        omega
      | underflow => rw [hs] at h; cases h
      | invalid => rw [hs] at h; cases h
  have := key as init s' h
  simpa [init] using this

/-- A case for each part: copies and assignments of copies are called, and all calls count; a moved one does not count. -/
example : (∃ s, exec init [.wrap, .copy 0, .wrap, .assign 0 2, .call 1, .call 2, .throw 1, .destroy 0] = .ok s ∧ s.completed = 2) ∧
    [Op.wrap, .copy 0, .wrap, .assign 0 2, .call 1, .call 2, .throw 1, .destroy 0].all (!·.isMove) = true ∧
    (∃ s, exec init [.wrap, .move 0, .call 0, .call 1] = .ok s ∧ s.completed = 1) :=
  ⟨⟨_, rfl, rfl⟩, rfl, ⟨_, rfl, rfl⟩⟩

/-- `steps()` is the number of wrapped callables that exist, called or not, if none is overwritten by an assignment. -/
theorem c49_steps_partial {s : St} (h : TidyReachable s) : s.steps = s.objs.countP (· = some true) := by
  show s.steps = live s
  induction h with
  | init => rfl
  | step _ hT hs ih => have := (step_eff hs).2 hT; omega

/-- Each of them called once, and none destroyed: they agree. -/
example : ∃ s, exec init [.wrap, .wrap, .move 0, .copy 1, .call 1, .call 2, .call 3] = .ok s ∧ s.steps = 3 ∧ s.completed = 3 :=
  ⟨_, rfl, rfl, rfl⟩

/-- C49 fails: the destructor takes the callable out of `steps()` also after it was called (lines 69-72). So one task that
is wrapped, called and destroyed leaves more tasks completed than there are, and they are not equal when all are done. -/
theorem c49_counterexample : ∃ s, exec init [.wrap, .call 0, .destroy 0] = .ok s ∧ s.completed = 1 ∧ s.steps = 0 :=
  ⟨_, rfl, rfl, rfl⟩

/-- C49 fails: the assignment does not drop the callable that is overwritten (lines 54-60, 63). All are destroyed, and one
is still counted. -/
theorem c49_counterexample_assign :
    ∃ s, exec init [.wrap, .wrap, .assign 0 1, .destroy 0, .destroy 1] = .ok s ∧ s.objs.all (· = none) ∧ s.completed = 0 ∧ s.steps = 1 :=
  ⟨_, rfl, rfl, rfl, rfl⟩

/-- Assignment to itself counts one more. -/
theorem c49_counterexample_self : ∃ s, exec init [.wrap, .assign 0 0] = .ok s ∧ s.objs.length = 1 ∧ s.steps = 2 :=
  ⟨_, rfl, rfl, rfl⟩

end Verif.Progress
