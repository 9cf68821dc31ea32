import Verif.Dispatch

/-!
# Invariants of the libdispatch model
-/

namespace Verif.Dispatch

/-! ## Tasks and the trace -/

/-- The call of the task has begun. -/
def TaskSt.started : TaskSt → Bool
  | .running | .ran | .freed | .done | .tRunning | .tRan | .tLeft | .tDone => true
  | _ => false

/-- The call of the task has ended. -/
def TaskSt.finished : TaskSt → Bool
  | .ran | .freed | .done | .tRan | .tLeft | .tDone => true
  | _ => false

/-- The closure of the task has been destroyed. -/
def TaskSt.destroyed : TaskSt → Bool
  | .freed | .done | .tDone | .tGone => true
  | _ => false

/-- The task is in the group. -/
def TaskSt.inGroup : TaskSt → Bool
  | .queued | .running | .ran | .freed | .tRunning | .tRan => true
  | _ => false

/-- The task was given to the executor. -/
def TaskSt.isExec : TaskSt → Bool
  | .queued | .running | .ran | .freed | .done => true
  | _ => false

/-- The task was given to the timer. -/
def TaskSt.isTimer (x : TaskSt) : Bool := !x.isExec

/-- Number of events of a kind task `t` must have had. -/
def has (p : TaskSt → Bool) (l : List TaskSt) (t : Nat) : Nat := if (l[t]?).any p then 1 else 0

theorem has_append {p : TaskSt → Bool} {l : List TaskSt} {x : TaskSt} (hp : p x = false) (t : Nat) :
    has p (l ++ [x]) t = has p l t := by
  simp only [has, List.getElem?_append]
  split
  · rfl
  · rename_i h
    rw [List.getElem?_eq_none (Nat.le_of_not_lt h)]
    by_cases h2 : t - l.length = 0
    · simp [h2, hp]
    · simp [h2]

theorem has_append_true {p : TaskSt → Bool} {l : List TaskSt} {x : TaskSt} (hp : p x = true) (t : Nat) :
    has p (l ++ [x]) t = has p l t + if t = l.length then 1 else 0 := by
  simp only [has, List.getElem?_append]
  split
  · rw [if_neg (show ¬ t = l.length by omega)]; rfl
  · rename_i h
    rw [List.getElem?_eq_none (Nat.le_of_not_lt h)]
    by_cases h2 : t = l.length
    · simp [h2, hp]
    · simp [h2, show t - l.length ≠ 0 by omega]

theorem has_set {p : TaskSt → Bool} {l : List TaskSt} {u : Nat} {x y : TaskSt} (hu : l[u]? = some x) (hp : p y = p x) (t : Nat) :
    has p (l.set u y) t = has p l t := by
  simp only [has, List.getElem?_set]
  split
  · subst_vars
    rw [hu]
    have := List.getElem?_eq_some_iff.1 hu
    obtain ⟨h, -⟩ := this
    simp [h, hp]
  · rfl

theorem has_set_true {p : TaskSt → Bool} {l : List TaskSt} {u : Nat} {x y : TaskSt} (hu : l[u]? = some x) (hx : p x = false)
    (hy : p y = true) (t : Nat) : has p (l.set u y) t = has p l t + if u = t then 1 else 0 := by
  simp only [has, List.getElem?_set]
  split
  · subst_vars
    rw [hu]
    obtain ⟨h, -⟩ := List.getElem?_eq_some_iff.1 hu
    simp [h, hx, hy]
  · rfl

theorem countP_set' {p : TaskSt → Bool} : ∀ {l : List TaskSt} {u : Nat} {x y : TaskSt}, l[u]? = some x →
    (l.set u y).countP p + (if p x then 1 else 0) = l.countP p + if p y then 1 else 0
  | [], u, x, y, h => by simp at h
  | a :: l, 0, x, y, h => by
    simp only [List.getElem?_cons_zero, Option.some.injEq] at h
    subst h
    simp only [List.set_cons_zero, List.countP_cons]
    omega
  | a :: l, u + 1, x, y, h => by
    simp only [List.getElem?_cons_succ] at h
    have := countP_set' (p := p) (y := y) h
    simp only [List.set_cons_succ, List.countP_cons]
    omega

/-- Tasks, counter and trace agree. -/
structure TInv (s : St) : Prop where
  cnt : s.count = s.tasks.countP TaskSt.inGroup
  st : ∀ t, s.trace.count (.start t) = has TaskSt.started s.tasks t
  fi : ∀ t, s.trace.count (.finish t) = has TaskSt.finished s.tasks t
  de : ∀ t, s.trace.count (.destroy t) = has TaskSt.destroyed s.tasks t
  su : ∀ t b, Event.submit t b ∈ s.trace → (s.tasks[t]?).any TaskSt.isExec
  dl : ∀ t b, Event.delay t b ∈ s.trace → (s.tasks[t]?).any TaskSt.isTimer
  ex : ∀ t, (s.tasks[t]?).any TaskSt.isExec → s.group = true ∧ ∃ b, Event.submit t b ∈ s.trace
  ti : ∀ t, (s.tasks[t]?).any TaskSt.isTimer → s.timer = true ∧ ∃ b, Event.delay t b ∈ s.trace
  gr : s.timer = true → s.group = true

theorem any_set {p : TaskSt → Bool} {l : List TaskSt} {u : Nat} {x y : TaskSt} (hu : l[u]? = some x) (hp : p y = p x) (t : Nat) :
    ((l.set u y)[t]?).any p = (l[t]?).any p := by
  simp only [List.getElem?_set]
  split
  · subst_vars
    rw [hu]
    obtain ⟨h, -⟩ := List.getElem?_eq_some_iff.1 hu
    simp [h, hp]
  · rfl

theorem any_append {p : TaskSt → Bool} {l : List TaskSt} {x : TaskSt} (t : Nat) :
    ((l ++ [x])[t]?).any p = ((l[t]?).any p || (p x && t == l.length)) := by
  simp only [List.getElem?_append]
  split
  · rename_i h
    simp [show ¬ t = l.length by omega]
  · rename_i h
    rw [List.getElem?_eq_none (Nat.le_of_not_lt h)]
    by_cases h2 : t = l.length
    · simp [h2]
    · simp [h2, show t - l.length ≠ 0 by omega]

/-- A step that changes neither the tasks nor the events of tasks. -/
theorem TInv.quiet {s s' : St} (h : TInv s) (hc : s'.count = s.count) (ht : s'.tasks = s.tasks)
    (htr : s'.trace = s.trace ∨ ∃ e, s'.trace = s.trace ++ [e] ∧ ((∃ x, e = .reg x) ∨ (∃ x, e = .run x) ∨ e = .ret))
    (hg : s.group = true → s'.group = true) (hti : s.timer = true → s'.timer = true) (hgt : s'.timer = true → s'.group = true) :
    TInv s' := by
  obtain ⟨h1, h2, h3, h4, h5, h6, h7, h8, h9⟩ := h
  have key : ∀ e, ((∃ t, e = Event.start t) ∨ (∃ t, e = Event.finish t) ∨ (∃ t, e = Event.destroy t)) →
      s'.trace.count e = s.trace.count e := by
    intro e he
    rcases htr with htr | ⟨e', htr, hk⟩
    · rw [htr]
    · rw [htr, List.count_append]
      have : e' ≠ e := by
        rintro rfl
        rcases he with ⟨t, rfl⟩ | ⟨t, rfl⟩ | ⟨t, rfl⟩ <;> simp at hk
      simp [List.count_singleton, this]
  have mem : ∀ e, ((∃ t b, e = Event.submit t b) ∨ (∃ t b, e = Event.delay t b)) → (e ∈ s'.trace ↔ e ∈ s.trace) := by
    intro e he
    rcases htr with htr | ⟨e', htr, hk⟩
    · rw [htr]
    · rw [htr, List.mem_append, List.mem_singleton]
      have : e ≠ e' := by
        rintro rfl
        rcases he with ⟨t, b, rfl⟩ | ⟨t, b, rfl⟩ <;> simp at hk
      simp [this]
  refine ⟨by rw [hc, ht, h1], fun t => by rw [key _ (.inl ⟨t, rfl⟩), ht, h2], fun t => by rw [key _ (.inr (.inl ⟨t, rfl⟩)), ht, h3],
    fun t => by rw [key _ (.inr (.inr ⟨t, rfl⟩)), ht, h4],
    fun t b hm => by rw [ht]; exact h5 t b ((mem _ (.inl ⟨t, b, rfl⟩)).1 hm),
    fun t b hm => by rw [ht]; exact h6 t b ((mem _ (.inr ⟨t, b, rfl⟩)).1 hm), ?_, ?_, hgt⟩
  · intro t hm
    rw [ht] at hm
    obtain ⟨ha, b, hb⟩ := h7 t hm
    exact ⟨hg ha, b, (mem _ (.inl ⟨t, b, rfl⟩)).2 hb⟩
  · intro t hm
    rw [ht] at hm
    obtain ⟨ha, b, hb⟩ := h8 t hm
    exact ⟨hti ha, b, (mem _ (.inr ⟨t, b, rfl⟩)).2 hb⟩

/-- A step of a task from `x` to `y`. -/
theorem TInv.move {s s' : St} (h : TInv s) {u : Nat} {x y : TaskSt} (hu : s.tasks[u]? = some x) (ht : s'.tasks = s.tasks.set u y)
    (hk : y.isExec = x.isExec) (hg : s'.group = s.group) (hti : s'.timer = s.timer)
    (hc : s'.count + (if x.inGroup then 1 else 0) = s.count + (if y.inGroup then 1 else 0))
    (es : List Event) (htr : s'.trace = s.trace ++ es)
    (h1 : ∀ t, es.count (.start t) + (if u = t ∧ x.started then 1 else 0) = if u = t ∧ y.started then 1 else 0)
    (h2 : ∀ t, es.count (.finish t) + (if u = t ∧ x.finished then 1 else 0) = if u = t ∧ y.finished then 1 else 0)
    (h3 : ∀ t, es.count (.destroy t) + (if u = t ∧ x.destroyed then 1 else 0) = if u = t ∧ y.destroyed then 1 else 0)
    (h4 : ∀ t b, Event.submit t b ∉ es ∧ Event.delay t b ∉ es) : TInv s' := by
  obtain ⟨i1, i2, i3, i4, i5, i6, i7, i8, i9⟩ := h
  have key : ∀ (p : TaskSt → Bool) (n t : Nat), n + (if u = t ∧ p x then 1 else 0) = (if u = t ∧ p y then 1 else 0) →
      has p s.tasks t + n = has p (s.tasks.set u y) t := by
    intro p n t hn
    cases hx : p x <;> cases hy : p y <;> simp only [hx, hy, and_true, Bool.false_eq_true, and_false, if_false] at hn
    · rw [has_set hu (by rw [hx, hy])]; omega
    · rw [has_set_true hu hx hy]; omega
    · split at hn
      · omega
      · rename_i hne
        simp only [has, List.getElem?_set, if_neg hne]; omega
    · rw [has_set hu (by rw [hx, hy])]; omega
  refine ⟨?_, fun t => ?_, fun t => ?_, fun t => ?_, fun t b hm => ?_, fun t b hm => ?_, fun t hm => ?_, fun t hm => ?_,
    fun hm => ?_⟩
  · have := countP_set' (p := TaskSt.inGroup) (y := y) hu
    rw [ht]; omega
  · rw [htr, List.count_append, i2, ht]; exact key _ _ t (h1 t)
  · rw [htr, List.count_append, i3, ht]; exact key _ _ t (h2 t)
  · rw [htr, List.count_append, i4, ht]; exact key _ _ t (h3 t)
  · rw [ht, any_set hu hk]
    rw [htr, List.mem_append] at hm
    exact i5 t b (hm.resolve_right (h4 t b).1)
  · rw [ht, any_set hu (by simp [TaskSt.isTimer, hk])]
    rw [htr, List.mem_append] at hm
    exact i6 t b (hm.resolve_right (h4 t b).2)
  · rw [ht, any_set hu hk] at hm
    obtain ⟨ha, b, hb⟩ := i7 t hm
    exact ⟨hg ▸ ha, b, by rw [htr]; exact List.mem_append_left _ hb⟩
  · rw [ht, any_set hu (by simp [TaskSt.isTimer, hk])] at hm
    obtain ⟨ha, b, hb⟩ := i8 t hm
    exact ⟨hti ▸ ha, b, by rw [htr]; exact List.mem_append_left _ hb⟩
  · rw [hti] at hm; rw [hg]; exact i9 hm

/-- Registration. -/
theorem register_ok {s s' : St} {h : Handler} (hs : register s h = .ok s') :
    s.pre.closed = false ∧ s' = { s with
      pre := { s.pre with stack := (s.pre.next, h) :: s.pre.stack, next := s.pre.next + 1,
                          trace := s.pre.trace ++ [.reg s.pre.next h] }
      trace := s.trace ++ [.reg h] } := by
  simp only [register, PreExit.push] at hs
  split at hs
  · simp at hs
  · rename_i p hp
    split at hp
    · simp at hp
    · rename_i hc
      simp only [Option.some.injEq] at hp
      subst hp
      simp only [Out.ok.injEq] at hs
      exact ⟨by simpa using hc, hs.symm⟩

theorem tInv_init : TInv {} := by
  constructor <;> simp [has]

theorem TInv.step {s s' : St} {a : Act} (h : TInv s) (hs : step s a = .ok s') : TInv s' := by
  cases a with
  | atPreExit n =>
    obtain ⟨-, rfl⟩ := register_ok hs
    exact h.quiet rfl rfl (.inr ⟨_, rfl, .inl ⟨_, rfl⟩⟩) id id h.gr
  | callPreExit =>
    simp only [Dispatch.step] at hs
    split at hs
    · simp at hs
    · simp only [Out.ok.injEq] at hs; subst hs
      exact h.quiet rfl rfl (.inl rfl) id id h.gr
  | pop =>
    simp only [Dispatch.step, pop] at hs
    repeat' split at hs
    all_goals first | (simp at hs; done) | skip
    · simp only [Out.ok.injEq] at hs; subst hs
      exact h.quiet rfl rfl (.inr ⟨_, rfl, .inr (.inr rfl)⟩) id id h.gr
    · simp only [Out.ok.injEq] at hs; subst hs
      exact h.quiet rfl rfl (.inr ⟨_, rfl, .inr (.inl ⟨_, rfl⟩)⟩) id id h.gr
  | handlerReturns =>
    simp only [Dispatch.step, handlerReturns] at hs
    repeat' split at hs
    all_goals first | (simp at hs; done) | skip
    all_goals
      simp only [Out.ok.injEq] at hs; subst hs
      exact h.quiet rfl rfl (.inl rfl) id id h.gr
  | makeGroup =>
    simp only [Dispatch.step] at hs
    split at hs
    · simp at hs
    · obtain ⟨-, rfl⟩ := register_ok hs
      exact h.quiet rfl rfl (.inr ⟨_, rfl, .inl ⟨_, rfl⟩⟩) (fun _ => rfl) id (fun _ => rfl)
  | makeTimer =>
    simp only [Dispatch.step] at hs
    split at hs
    · rename_i hg
      obtain ⟨-, rfl⟩ := register_ok hs
      simp only [Bool.and_eq_true] at hg
      exact h.quiet rfl rfl (.inr ⟨_, rfl, .inl ⟨_, rfl⟩⟩) id (fun _ => rfl) (fun _ => hg.1)
    · simp at hs
  | submit b =>
    simp only [Dispatch.step] at hs
    split at hs
    · rename_i hg
      simp only [Bool.and_eq_true] at hg
      simp only [Out.ok.injEq] at hs; subst hs
      obtain ⟨i1, i2, i3, i4, i5, i6, i7, i8, i9⟩ := h
      refine ⟨?_, fun t => ?_, fun t => ?_, fun t => ?_, fun t b hm => ?_, fun t b hm => ?_, fun t hm => ?_, fun t hm => ?_, i9⟩
      · simp [i1, TaskSt.inGroup]
      · simp only [has_append (p := TaskSt.started) (x := .queued) rfl, ← i2, List.count_append]; simp
      · simp only [has_append (p := TaskSt.finished) (x := .queued) rfl, ← i3, List.count_append]; simp
      · simp only [has_append (p := TaskSt.destroyed) (x := .queued) rfl, ← i4, List.count_append]; simp
      · simp only [List.mem_append, List.mem_singleton, Event.submit.injEq] at hm
        rw [any_append]
        rcases hm with hm | ⟨rfl, -⟩
        · simp [i5 t b hm]
        · simp [TaskSt.isExec]
      · simp only [List.mem_append, List.mem_singleton, reduceCtorEq, or_false] at hm
        rw [any_append, i6 t b hm]; simp
      · rw [any_append] at hm
        refine ⟨hg.1, ?_⟩
        by_cases hl : t = s.tasks.length
        · exact ⟨b, by rw [hl]; simp⟩
        · simp only [hl, beq_iff_eq, Bool.and_false, Bool.or_false, show (t == s.tasks.length) = false by simp [hl]] at hm
          obtain ⟨-, b', hb⟩ := i7 t hm
          exact ⟨b', by simp [hb]⟩
      · rw [any_append] at hm
        simp only [TaskSt.isTimer, TaskSt.isExec, Bool.not_true, Bool.false_and, Bool.or_false] at hm
        obtain ⟨hx, b', hb⟩ := i8 t hm
        exact ⟨hx, b', by simp [hb]⟩
    · simp at hs
  | check b =>
    simp only [Dispatch.step] at hs
    split at hs
    · rename_i hg
      simp only [Bool.and_eq_true] at hg
      split at hs
      · simp at hs
      · simp only [Out.ok.injEq] at hs; subst hs
        obtain ⟨i1, i2, i3, i4, i5, i6, i7, i8, i9⟩ := h
        refine ⟨?_, fun t => ?_, fun t => ?_, fun t => ?_, fun t b hm => ?_, fun t b hm => ?_, fun t hm => ?_, fun t hm => ?_, i9⟩
        · simp [i1, TaskSt.inGroup]
        · simp only [has_append (p := TaskSt.started) (x := .checked) rfl, ← i2, List.count_append]; simp
        · simp only [has_append (p := TaskSt.finished) (x := .checked) rfl, ← i3, List.count_append]; simp
        · simp only [has_append (p := TaskSt.destroyed) (x := .checked) rfl, ← i4, List.count_append]; simp
        · simp only [List.mem_append, List.mem_singleton, reduceCtorEq, or_false] at hm
          rw [any_append, i5 t b hm]; simp
        · simp only [List.mem_append, List.mem_singleton, Event.delay.injEq] at hm
          rw [any_append]
          rcases hm with hm | ⟨rfl, -⟩
          · simp [i6 t b hm]
          · simp [TaskSt.isExec, TaskSt.isTimer]
        · rw [any_append] at hm
          simp only [TaskSt.isExec, Bool.false_and, Bool.or_false] at hm
          obtain ⟨hx, b', hb⟩ := i7 t hm
          exact ⟨hx, b', by simp [hb]⟩
        · rw [any_append] at hm
          refine ⟨hg.1, ?_⟩
          by_cases hl : t = s.tasks.length
          · exact ⟨b, by rw [hl]; simp⟩
          · simp only [show (t == s.tasks.length) = false by simp [hl], Bool.and_false, Bool.or_false] at hm
            obtain ⟨-, b', hb⟩ := i8 t hm
            exact ⟨b', by simp [hb]⟩
    · simp at hs
  | after t =>
    simp only [Dispatch.step] at hs
    repeat' split at hs
    all_goals first | (simp at hs; done) | skip
    all_goals
      simp only [Out.ok.injEq] at hs; subst hs
      have hu := ‹s.tasks[t]? = some _›
      refine h.move hu rfl rfl rfl rfl ?_ [] (List.append_nil _).symm ?_ ?_ ?_ ?_ <;> (try intro v) <;>
        (try by_cases hv : t = v) <;>
        simp_all [TaskSt.inGroup, TaskSt.started, TaskSt.finished, TaskSt.destroyed, List.count_singleton]
  | start t =>
    simp only [Dispatch.step] at hs
    repeat' split at hs
    all_goals first | (simp at hs; done) | skip
    all_goals
      simp only [Out.ok.injEq] at hs; subst hs
      have hu := ‹s.tasks[t]? = some _›
      refine h.move hu rfl rfl rfl rfl ?_ _ rfl ?_ ?_ ?_ ?_ <;> (try intro v) <;>
        (try by_cases hv : t = v) <;>
        simp_all [TaskSt.inGroup, TaskSt.started, TaskSt.finished, TaskSt.destroyed, List.count_singleton]
  | fire t =>
    simp only [Dispatch.step] at hs
    repeat' split at hs
    all_goals first | (simp at hs; done) | skip
    · simp only [Out.ok.injEq] at hs; subst hs
      have hu := ‹s.tasks[t]? = some _›
      refine h.move hu rfl rfl rfl rfl ?_ [] (List.append_nil _).symm ?_ ?_ ?_ ?_ <;> (try intro v) <;>
        (try by_cases hv : t = v) <;>
        simp_all [TaskSt.inGroup, TaskSt.started, TaskSt.finished, TaskSt.destroyed, List.count_singleton]
    · simp only [Out.ok.injEq] at hs; subst hs
      have hu := ‹s.tasks[t]? = some _›
      refine h.move hu rfl rfl rfl rfl ?_ _ rfl ?_ ?_ ?_ ?_ <;> (try intro v) <;>
        (try by_cases hv : t = v) <;>
        simp_all [TaskSt.inGroup, TaskSt.started, TaskSt.finished, TaskSt.destroyed, List.count_singleton]
  | finish t =>
    simp only [Dispatch.step] at hs
    repeat' split at hs
    all_goals first | (simp at hs; done) | skip
    all_goals
      simp only [Out.ok.injEq] at hs; subst hs
      have hu := ‹s.tasks[t]? = some _›
      refine h.move hu rfl rfl rfl rfl ?_ _ rfl ?_ ?_ ?_ ?_ <;> (try intro v) <;>
        (try by_cases hv : t = v) <;>
        simp_all [TaskSt.inGroup, TaskSt.started, TaskSt.finished, TaskSt.destroyed, List.count_singleton]
  | delete t =>
    simp only [Dispatch.step] at hs
    repeat' split at hs
    all_goals first | (simp at hs; done) | skip
    all_goals
      simp only [Out.ok.injEq] at hs; subst hs
      have hu := ‹s.tasks[t]? = some _›
      refine h.move hu rfl rfl rfl rfl ?_ _ rfl ?_ ?_ ?_ ?_ <;> (try intro v) <;>
        (try by_cases hv : t = v) <;>
        simp_all [TaskSt.inGroup, TaskSt.started, TaskSt.finished, TaskSt.destroyed, List.count_singleton]
  | leave t =>
    have pos : ∀ {x : TaskSt}, s.tasks[t]? = some x → x.inGroup = true → 0 < s.count := by
      intro x hx hi
      rw [h.cnt]
      exact List.countP_pos_iff.2 ⟨x, List.mem_of_getElem? hx, hi⟩
    simp only [Dispatch.step] at hs
    repeat' split at hs
    all_goals first | (simp at hs; done) | skip
    all_goals
      have hp := pos ‹s.tasks[t]? = some _› rfl
      simp only [Out.ok.injEq] at hs; subst hs
      have hu := ‹s.tasks[t]? = some _›
      refine h.move hu rfl rfl rfl rfl ?_ [] (List.append_nil _).symm ?_ ?_ ?_ ?_ <;> (try intro v) <;>
        (try by_cases hv : t = v) <;>
        simp_all [TaskSt.inGroup, TaskSt.started, TaskSt.finished, TaskSt.destroyed, List.count_singleton]
    all_goals omega

theorem Reachable.tInv {s : St} (h : Reachable s) : TInv s := by
  induction h with
  | init => exact tInv_init
  | step _ a hs ih => exact ih.step hs

/-! ## The stack of handlers -/

/-- How often a handler is on the stack. -/
def onStack (s : St) (h : Handler) : Nat := (s.pre.stack.map Prod.snd).count h

/-- Where the handlers of the group and of the timer are. -/
structure PInv (s : St) : Prop where
  cur : s.cur = none ∨ s.pre.phase = .inHandler
  ph : s.pre.phase = .inHandler → ∃ h, s.cur = some h
  wt : onStack s .wait + (if Event.run .wait ∈ s.trace then 1 else 0) = if s.group then 1 else 0
  cw : s.cur = some .wait → Event.run .wait ∈ s.trace
  rc : Event.ret ∈ s.trace ↔ s.pre.closed = true
  cs : s.pre.closed = true → s.pre.stack = [] ∧ s.cur = none

theorem pInv_init : PInv {} := by
  constructor <;> simp [onStack]

/-- A step that concerns tasks only. -/
theorem PInv.quiet {s s' : St} (h : PInv s) (hp : s'.pre = s.pre) (hc : s'.cur = s.cur) (hg : s'.group = s.group)
    (htr : ∀ e, (e = .run .wait ∨ e = .ret) → (e ∈ s'.trace ↔ e ∈ s.trace)) : PInv s' := by
  obtain ⟨h1, h2, h3, h4, h5, h6⟩ := h
  refine ⟨by rw [hc, hp]; exact h1, by rw [hp, hc]; exact h2, ?_, ?_, ?_, by rw [hp, hc]; exact h6⟩
  · simp only [onStack, hp, hg, htr _ (.inl rfl)]; exact h3
  · rw [hc, htr _ (.inl rfl)]; exact h4
  · rw [htr _ (.inr rfl), hp]; exact h5

/-- Registering a handler. -/
theorem PInv.register {s s' : St} {x : Handler} {g : Bool} (h : PInv s) (hs : register { s with group := g } x = .ok s')
    (hx : (x = .wait ∧ s.group = false ∧ g = true) ∨ (x ≠ .wait ∧ g = s.group)) : PInv s' := by
  obtain ⟨hc, rfl⟩ := register_ok hs
  obtain ⟨h1, h2, h3, h4, h5, h6⟩ := h
  refine ⟨h1, h2, ?_, ?_, ?_, ?_⟩
  · simp only [onStack, List.map_cons, List.count_cons, List.mem_append, List.mem_singleton, reduceCtorEq, or_false] at h3 ⊢
    rcases hx with ⟨rfl, hg, rfl⟩ | ⟨hx, rfl⟩
    · rw [hg] at h3
      simp only [beq_self_eq_true, if_true]
      simp only [Bool.false_eq_true, if_false] at h3
      omega
    · simp only [beq_iff_eq, hx, if_false]
      omega
  · intro hw; exact List.mem_append_left _ (h4 hw)
  · simp only [List.mem_append, List.mem_singleton, reduceCtorEq, or_false]; exact h5
  · intro hcl
    have : s.pre.closed = true := hcl
    have hc' : s.pre.closed = false := hc
    rw [hc'] at this; simp at this

theorem PInv.step {s s' : St} {a : Act} (h : PInv s) (hs : step s a = .ok s') : PInv s' := by
  cases a with
  | atPreExit n => exact h.register (g := s.group) hs (.inr ⟨by simp, rfl⟩)
  | callPreExit =>
    simp only [Dispatch.step, PreExit.step] at hs
    obtain ⟨h1, h2, h3, h4, h5, h6⟩ := h
    repeat' split at hs
    all_goals first | (simp at hs; done) | skip
    rename_i p hp
    have hcn : s.cur = none := by
      rcases h1 with h1 | h1
      · exact h1
      · rw [h1] at hp; simp at hp
    simp only [Out.ok.injEq] at hs; subst hs
    have hp' : p = { s.pre with phase := .inLoop } := by
      revert hp
      split <;> simp <;> intro e <;> exact e.symm
    subst hp'
    exact ⟨.inl hcn, by simp, h3, by simp [hcn], h5, h6⟩
  | pop =>
    simp only [Dispatch.step, pop, PreExit.pop] at hs
    obtain ⟨h1, h2, h3, h4, h5, h6⟩ := h
    split at hs
    · rename_i hph
      have hcn : s.cur = none := by
        rcases h1 with h1 | h1
        · exact h1
        · rw [h1] at hph; simp at hph
      cases hst : s.pre.stack with
      | nil =>
        simp only [hst] at hs
        split at hs
        · simp at hs
        · rename_i p hp
          split at hp
          · simp at hp
          · simp only [Option.some.injEq] at hp
            subst hp
            simp only [Out.ok.injEq] at hs; subst hs
            refine ⟨.inl hcn, by simp, ?_, by simp [hcn], by simp, fun _ => ⟨rfl, hcn⟩⟩
            simp only [onStack, hst, List.mem_append, List.mem_singleton, reduceCtorEq, or_false] at h3 ⊢
            exact h3
      | cons e l =>
        obtain ⟨m, x⟩ := e
        simp only [hst, Out.ok.injEq] at hs
        subst hs
        refine ⟨.inr rfl, fun _ => ⟨_, rfl⟩, ?_, ?_, ?_, ?_⟩
        · simp only [onStack, hst, List.map_cons, List.count_cons, List.mem_append, List.mem_singleton, Event.run.injEq] at h3 ⊢
          by_cases hx : x = .wait
          · subst hx
            simp only [beq_self_eq_true, if_true, or_true] at h3 ⊢
            have : (if s.group = true then 1 else 0) ≤ 1 := by split <;> omega
            split at h3 <;> omega
          · simp only [beq_iff_eq, hx, if_false, Ne.symm hx, or_false] at h3 ⊢
            exact h3
        · intro hw
          simp only [Option.some.injEq] at hw
          simp [hw]
        · simp only [List.mem_append, List.mem_singleton, reduceCtorEq, or_false]; exact h5
        · intro hcl
          have := (h6 hcl).1
          rw [hst] at this; simp at this
    · simp at hs
  | handlerReturns =>
    simp only [Dispatch.step, handlerReturns, PreExit.step] at hs
    obtain ⟨h1, h2, h3, h4, h5, h6⟩ := h
    split at hs
    · simp at hs
    · rename_i p hp
      split at hp
      · simp only [Option.some.injEq] at hp
        subst hp
        repeat' split at hs
        all_goals first | (simp at hs; done) | skip
        all_goals
          simp only [Out.ok.injEq] at hs; subst hs
          exact ⟨.inl rfl, by simp, h3, by simp, h5, fun hc => ⟨(h6 hc).1, rfl⟩⟩
      · simp at hp
  | makeGroup =>
    simp only [Dispatch.step] at hs
    split at hs
    · simp at hs
    · rename_i hg
      exact h.register hs (.inl ⟨rfl, by simpa using hg, rfl⟩)
  | makeTimer =>
    simp only [Dispatch.step] at hs
    split at hs
    · have h' : PInv { s with timer := true } := h.quiet rfl rfl rfl (fun _ _ => Iff.rfl)
      exact h'.register (g := s.group) hs (.inr ⟨by simp, rfl⟩)
    · simp at hs
  | _ =>
    simp only [Dispatch.step] at hs
    repeat' split at hs
    all_goals first | (simp at hs; done) | skip
    all_goals
      simp only [Out.ok.injEq] at hs; subst hs
      refine h.quiet rfl rfl rfl ?_
      intro e he
      rcases he with rfl | rfl <;> simp

theorem Reachable.pInv {s : St} (h : Reachable s) : PInv s := by
  induction h with
  | init => exact pInv_init
  | step _ a hs ih => exact ih.step hs

/-! ## Programs that let the executor come to rest -/

/-- From the moment `pre_exit()` waits for the group, only tasks use the executor and the timer, and the timer has been used
for the first time before that moment, if at all. -/
def Disciplined (tr : List Event) : Prop :=
  ∀ a e b, tr = a ++ e :: b → Event.run .wait ∈ a → (∀ t, e ≠ .submit t none ∧ e ≠ .delay t none) ∧ e ≠ .reg .close

theorem Disciplined.prefix {a b : List Event} (h : Disciplined (a ++ b)) : Disciplined a := by
  intro x e y hx hw
  exact h x e (y ++ b) (by rw [hx]; simp) hw

theorem Disciplined.last {a : List Event} {e : Event} (h : Disciplined (a ++ [e])) (hw : Event.run .wait ∈ a) :
    (∀ t, e ≠ .submit t none ∧ e ≠ .delay t none) ∧ e ≠ .reg .close := h a e [] rfl hw

theorem trace_step {s s' : St} {a : Act} (hs : step s a = .ok s') : ∃ es, s'.trace = s.trace ++ es := by
  cases a with
  | atPreExit n => obtain ⟨-, rfl⟩ := register_ok hs; exact ⟨_, rfl⟩
  | makeGroup =>
    simp only [step] at hs
    split at hs
    · simp at hs
    · obtain ⟨-, rfl⟩ := register_ok hs; exact ⟨_, rfl⟩
  | makeTimer =>
    simp only [step] at hs
    split at hs
    · obtain ⟨-, rfl⟩ := register_ok hs; exact ⟨_, rfl⟩
    · simp at hs
  | _ =>
    simp only [step, pop, handlerReturns] at hs
    repeat' split at hs
    all_goals first | (simp at hs; done) | skip
    all_goals
      simp only [Out.ok.injEq] at hs; subst hs
      first | exact ⟨[], (List.append_nil _).symm⟩ | exact ⟨_, rfl⟩

/-- What is true before an event. -/
structure Before (s : St) (e : Event) : Prop where
  start : ∀ t, e = .start t → s.tasks[t]? = some .queued ∨ (s.tasks[t]? = some .pending ∧ s.closed = false)
  finish : ∀ t, e = .finish t → s.tasks[t]? = some .running ∨ s.tasks[t]? = some .tRunning
  submit : ∀ t b, e = .submit t b → s.group = true ∧ caller s b = true
  delay : ∀ t b, e = .delay t b → s.timer = true ∧ caller s b = true ∧ s.closed = false

/-- A step adds at most one event. -/
theorem step_event {s s' : St} {a : Act} (hs : step s a = .ok s') :
    s'.trace = s.trace ∨ ∃ e, s'.trace = s.trace ++ [e] ∧ Before s e := by
  cases a with
  | atPreExit n => obtain ⟨-, rfl⟩ := register_ok hs; exact .inr ⟨_, rfl, by constructor <;> simp⟩
  | makeGroup =>
    simp only [step] at hs
    split at hs
    · simp at hs
    · obtain ⟨-, rfl⟩ := register_ok hs; exact .inr ⟨_, rfl, by constructor <;> simp⟩
  | makeTimer =>
    simp only [step] at hs
    split at hs
    · obtain ⟨-, rfl⟩ := register_ok hs; exact .inr ⟨_, rfl, by constructor <;> simp⟩
    · simp at hs
  | _ =>
    simp only [step, pop, handlerReturns] at hs
    repeat' split at hs
    all_goals first | (simp at hs; done) | skip
    all_goals
      simp only [Out.ok.injEq] at hs; subst hs
      first | exact .inl rfl | (refine .inr ⟨_, rfl, ?_⟩; constructor <;> simp_all)

/-- Where an event is in a trace with one more event. -/
theorem split_append {tr a b : List Event} {x e : Event} (h : tr ++ [e] = a ++ x :: b) :
    (a = tr ∧ x = e ∧ b = []) ∨ ∃ b', b = b' ++ [e] ∧ tr = a ++ x :: b' := by
  rcases List.eq_nil_or_concat b with rfl | ⟨b', y, rfl⟩
  · have := List.append_inj' h rfl
    simp only [List.cons.injEq, and_true] at this
    exact .inl ⟨this.1.symm, this.2.symm, rfl⟩
  · right
    rw [List.concat_eq_append] at h ⊢
    rw [← List.cons_append, ← List.append_assoc] at h
    have := List.append_inj' h rfl
    simp only [List.cons.injEq, and_true] at this
    exact ⟨b', by rw [this.2], this.1⟩

/-- In such a program the timer is closed before the wait begins, and the group stays empty after the wait. -/
structure QInv (s : St) : Prop where
  before : s.timer = true → Event.run .wait ∉ s.trace →
    s.closed = true ∨ s.cur = some .close ∨ [.close, .wait].Sublist (s.pre.stack.map Prod.snd)
  closed : s.timer = true → Event.run .wait ∈ s.trace → s.closed = true
  rest : Event.run .wait ∈ s.trace → s.cur ≠ some .wait → s.count = 0

theorem qInv_init : QInv {} := by
  constructor <;> simp

/-- No task is in the group if the counter is zero. -/
theorem TInv.none_in {s : St} (h : TInv s) (hc : s.count = 0) {t : Nat} {x : TaskSt} (ht : s.tasks[t]? = some x) :
    x.inGroup = false := by
  have := h.cnt
  rw [hc] at this
  have := List.countP_eq_zero.1 this.symm x (List.mem_of_getElem? ht)
  simpa using this

theorem QInv.step {s s' : St} {a : Act} (h : QInv s) (hT : TInv s) (hP : PInv s) (hs : step s a = .ok s')
    (hd : Disciplined s'.trace) : QInv s' := by
  obtain ⟨h1, h2, h3⟩ := h
  cases a with
  | atPreExit n =>
    obtain ⟨-, rfl⟩ := register_ok hs
    refine ⟨fun ht hw => ?_, fun ht hw => ?_, fun hw hc => ?_⟩
    · simp only [List.mem_append, List.mem_singleton, reduceCtorEq, or_false] at hw
      rcases h1 ht hw with h | h | h
      · exact .inl h
      · exact .inr (.inl h)
      · exact .inr (.inr (h.cons _))
    · simp only [List.mem_append, List.mem_singleton, reduceCtorEq, or_false] at hw
      exact h2 ht hw
    · simp only [List.mem_append, List.mem_singleton, reduceCtorEq, or_false] at hw
      exact h3 hw hc
  | callPreExit =>
    simp only [Dispatch.step, PreExit.step] at hs
    split at hs
    · simp at hs
    · rename_i p hp
      simp only [Out.ok.injEq] at hs; subst hs
      have hp' : p = { s.pre with phase := .inLoop } := by
        revert hp
        repeat' split
        all_goals simp
        all_goals intro e; exact e.symm
      subst hp'
      exact ⟨h1, h2, h3⟩
  | pop =>
    simp only [Dispatch.step, pop, PreExit.pop] at hs
    split at hs
    · rename_i hph
      have hcn : s.cur = none := by
        rcases hP.cur with h1 | h1
        · exact h1
        · rw [h1] at hph; simp at hph
      cases hst : s.pre.stack with
      | nil =>
        simp only [hst] at hs
        split at hs
        · simp at hs
        · rename_i p hp
          split at hp
          · simp at hp
          · simp only [Option.some.injEq] at hp
            subst hp
            simp only [Out.ok.injEq] at hs; subst hs
            refine ⟨fun ht hw => ?_, fun ht hw => ?_, fun hw hc => ?_⟩
            · simp only [List.mem_append, List.mem_singleton, reduceCtorEq, or_false] at hw
              have := h1 ht hw
              simp only [hst] at this
              exact this
            · simp only [List.mem_append, List.mem_singleton, reduceCtorEq, or_false] at hw
              exact h2 ht hw
            · simp only [List.mem_append, List.mem_singleton, reduceCtorEq, or_false] at hw
              exact h3 hw hc
      | cons e l =>
        obtain ⟨m, x⟩ := e
        simp only [hst, Out.ok.injEq] at hs
        subst hs
        have hwt := hP.wt
        simp only [onStack, hst, List.map_cons, List.count_cons] at hwt
        refine ⟨fun ht hw => ?_, fun ht hw => ?_, fun hw hc => ?_⟩
        · simp only [List.mem_append, List.mem_singleton, Event.run.injEq, not_or] at hw
          rcases h1 ht hw.1 with h | h | h
          · exact .inl h
          · rw [hcn] at h; simp at h
          · rw [hst] at h
            simp only [List.map_cons] at h
            rcases List.sublist_cons_iff.1 h with h | ⟨r, hr, h⟩
            · exact .inr (.inr h)
            · simp only [List.cons.injEq] at hr
              exact .inr (.inl (by rw [← hr.1]))
        · simp only [List.mem_append, List.mem_singleton, Event.run.injEq] at hw
          by_cases hwb : Event.run .wait ∈ s.trace
          · exact h2 ht hwb
          · have hx : x = .wait := (hw.resolve_left hwb).symm
            subst hx
            rcases h1 ht hwb with h | h | h
            · exact h
            · rw [hcn] at h; simp at h
            · rw [hst] at h
              simp only [List.map_cons] at h
              have : 0 < (l.map Prod.snd).count Handler.wait := by
                rcases List.sublist_cons_iff.1 h with h | ⟨r, hr, h⟩
                · exact List.count_pos_iff.2 (h.subset (by simp))
                · simp at hr
              simp only [beq_self_eq_true, if_true] at hwt
              have : (if s.group = true then 1 else 0) ≤ 1 := by split <;> omega
              omega
        · simp only [List.mem_append, List.mem_singleton, Event.run.injEq] at hw
          have hx : x ≠ .wait := by rintro rfl; exact hc rfl
          exact h3 (hw.resolve_right (Ne.symm hx)) (by rw [hcn]; simp)
    · simp at hs
  | handlerReturns =>
    simp only [Dispatch.step, handlerReturns, PreExit.step] at hs
    split at hs
    · simp at hs
    · rename_i p hp
      split at hp
      · simp only [Option.some.injEq] at hp
        subst hp
        split at hs
        · split at hs
          · rename_i hcur hz
            simp only [Out.ok.injEq] at hs; subst hs
            exact ⟨fun ht hw => absurd (hP.cw hcur) hw, h2, fun _ _ => hz⟩
          · simp at hs
        · rename_i hcur
          simp only [Out.ok.injEq] at hs; subst hs
          exact ⟨fun _ _ => .inl rfl, fun _ _ => rfl, fun hw _ => h3 hw (by rw [hcur]; simp)⟩
        · rename_i hn1 hn2
          simp only [Out.ok.injEq] at hs; subst hs
          refine ⟨fun ht hw => ?_, h2, fun hw _ => h3 hw hn1⟩
          rcases h1 ht hw with h | h | h
          · exact .inl h
          · exact absurd h hn2
          · exact .inr (.inr h)
      · simp at hp
  | makeGroup =>
    simp only [Dispatch.step] at hs
    split at hs
    · simp at hs
    · rename_i hg
      obtain ⟨-, rfl⟩ := register_ok hs
      have hnt : ¬ s.timer = true := fun ht => hg (hT.gr ht)
      have hwt := hP.wt
      simp only [hg, Bool.false_eq_true, if_false] at hwt
      have hnw : Event.run .wait ∉ s.trace := by
        intro hw; rw [if_pos hw] at hwt; omega
      refine ⟨fun ht => absurd ht hnt, fun ht => absurd ht hnt, fun hw => ?_⟩
      simp only [List.mem_append, List.mem_singleton, reduceCtorEq, or_false] at hw
      exact absurd hw hnw
  | makeTimer =>
    simp only [Dispatch.step] at hs
    split at hs
    · rename_i hg
      simp only [Bool.and_eq_true] at hg
      obtain ⟨-, rfl⟩ := register_ok hs
      have hnw : Event.run .wait ∉ s.trace := fun hw => (hd.last hw).2 rfl
      have hwt := hP.wt
      simp only [hg.1, if_neg hnw, if_true, onStack] at hwt
      refine ⟨fun ht hw => .inr (.inr ?_), fun ht hw => ?_, fun hw => ?_⟩
      · simp only [List.map_cons]
        exact List.Sublist.cons_cons _ (List.singleton_sublist.2 (List.count_pos_iff.1 (by omega)))
      all_goals
        simp only [List.mem_append, List.mem_singleton, reduceCtorEq, or_false] at hw
        exact absurd hw hnw
    · simp at hs
  | submit b =>
    simp only [Dispatch.step] at hs
    split at hs
    · rename_i hg
      simp only [Bool.and_eq_true] at hg
      simp only [Out.ok.injEq] at hs; subst hs
      refine ⟨fun ht hw => ?_, fun ht hw => ?_, fun hw hc => ?_⟩
      all_goals simp only [List.mem_append, List.mem_singleton, reduceCtorEq, or_false] at hw
      · exact h1 ht hw
      · exact h2 ht hw
      · exfalso
        have hz := h3 hw hc
        cases b with
        | none => exact (((hd.last hw).1 _).1) rfl
        | some u =>
          have hcl := hg.2
          simp only [caller, Bool.or_eq_true, beq_iff_eq] at hcl
          rcases hcl with hcl | hcl
          · have := hT.none_in hz hcl; simp [TaskSt.inGroup] at this
          · have := hT.none_in hz hcl; simp [TaskSt.inGroup] at this
    · simp at hs
  | check b =>
    simp only [Dispatch.step] at hs
    repeat' split at hs
    all_goals first | (simp at hs; done) | skip
    all_goals
      simp only [Out.ok.injEq] at hs; subst hs
      refine ⟨fun ht hw => ?_, fun ht hw => ?_, fun hw hc => ?_⟩
      all_goals simp only [List.mem_append, List.mem_singleton, reduceCtorEq, or_false] at hw
      · exact h1 ht hw
      · exact h2 ht hw
      · exact h3 hw hc
  | fire t =>
    simp only [Dispatch.step] at hs
    repeat' split at hs
    all_goals first | (simp at hs; done) | skip
    · simp only [Out.ok.injEq] at hs; subst hs
      exact ⟨h1, h2, h3⟩
    · rename_i hu hcl
      simp only [Out.ok.injEq] at hs; subst hs
      refine ⟨fun ht hw => ?_, fun ht hw => ?_, fun hw hc => ?_⟩
      all_goals simp only [List.mem_append, List.mem_singleton, reduceCtorEq, or_false] at hw
      · exact h1 ht hw
      · exact h2 ht hw
      · exfalso
        exact hcl (h2 (hT.ti t (by rw [hu]; rfl)).1 hw)
  | leave t =>
    simp only [Dispatch.step] at hs
    repeat' split at hs
    all_goals first | (simp at hs; done) | skip
    all_goals
      simp only [Out.ok.injEq] at hs; subst hs
      refine ⟨h1, h2, fun hw hc => ?_⟩
      have := h3 hw hc
      simp only
      omega
  | _ =>
    simp only [Dispatch.step] at hs
    repeat' split at hs
    all_goals first | (simp at hs; done) | skip
    all_goals
      simp only [Out.ok.injEq] at hs; subst hs
      refine ⟨fun ht hw => ?_, fun ht hw => ?_, fun hw hc => ?_⟩
      all_goals try simp only [List.mem_append, List.mem_singleton, reduceCtorEq, or_false] at hw
      · exact h1 ht hw
      · exact h2 ht hw
      · exact h3 hw hc

theorem Reachable.qInv {s : St} (h : Reachable s) (hd : Disciplined s.trace) : QInv s := by
  induction h with
  | init => exact qInv_init
  | step hr a hs ih =>
    obtain ⟨es, he⟩ := trace_step hs
    exact (ih (by rw [he] at hd; exact hd.prefix)).step hr.tInv hr.pInv hs hd

end Verif.Dispatch
