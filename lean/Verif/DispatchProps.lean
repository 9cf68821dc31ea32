import Verif.DispatchInv

/-!
# Properties of the libdispatch task system at the end of the program (C75)
-/

namespace Verif.Dispatch

/-! ## Every task at most once -/

theorem count_le_one {p : TaskSt → Bool} {l : List TaskSt} {t : Nat} : has p l t ≤ 1 := by
  simp only [has]; split <;> omega

theorem any_imp {p q : TaskSt → Bool} (hpq : ∀ x, p x = true → q x = true) {l : List TaskSt} {t : Nat} (h : 0 < has p l t) :
    0 < has q l t := by
  simp only [has] at h ⊢
  cases hx : l[t]? with
  | none => rw [hx] at h; simp at h
  | some x =>
    rw [hx] at h
    simp only [Option.any_some] at h ⊢
    by_cases hp : p x = true
    · rw [if_pos (hpq x hp)]; omega
    · rw [if_neg hp] at h; omega

/-- **C75**, in every execution: a task is called at most once, its call ends at most once, its closure is destroyed at most
once; it is called only if it was given to the executor or to the timer. -/
theorem c75_once {s : St} (h : Reachable s) (t : Nat) :
    s.trace.count (.start t) ≤ 1 ∧ s.trace.count (.finish t) ≤ 1 ∧ s.trace.count (.destroy t) ≤ 1 ∧
    (Event.start t ∈ s.trace → ∃ b, Event.submit t b ∈ s.trace ∨ Event.delay t b ∈ s.trace) ∧
    (Event.finish t ∈ s.trace → Event.start t ∈ s.trace) ∧
    ((∃ b, Event.submit t b ∈ s.trace) → ¬ ∃ b, Event.delay t b ∈ s.trace) := by
  have hT := h.tInv
  refine ⟨?_, ?_, ?_, ?_, ?_, ?_⟩
  · rw [hT.st]; exact count_le_one
  · rw [hT.fi]; exact count_le_one
  · rw [hT.de]; exact count_le_one
  · intro hs
    have hs := List.count_pos_iff.2 hs
    rw [hT.st] at hs
    simp only [has] at hs
    cases hx : s.tasks[t]? with
    | none => rw [hx] at hs; simp at hs
    | some x =>
      cases hk : x.isExec with
      | true => obtain ⟨-, b, hb⟩ := hT.ex t (by rw [hx]; exact hk); exact ⟨b, .inl hb⟩
      | false =>
        obtain ⟨-, b, hb⟩ := hT.ti t (by rw [hx]; simp [TaskSt.isTimer, hk])
        exact ⟨b, .inr hb⟩
  · intro hf
    have hf := List.count_pos_iff.2 hf
    rw [hT.fi] at hf
    refine List.count_pos_iff.1 ?_
    rw [hT.st]
    exact any_imp (by intro x; cases x <;> simp [TaskSt.finished, TaskSt.started]) hf
  · rintro ⟨b, hb⟩ ⟨c, hc⟩
    have h1 := hT.su t b hb
    have h2 := hT.dl t c hc
    cases hx : s.tasks[t]? with
    | none => rw [hx] at h1; simp at h1
    | some x =>
      rw [hx] at h1 h2
      simp only [Option.any_some, TaskSt.isTimer] at h1 h2
      rw [h1] at h2; simp at h2

/-- **C75**, in every execution: the closure of a task is not destroyed before or during its call, and a task of the executor
is not destroyed without having been called. -/
theorem c75_destroy {s : St} (h : Reachable s) {t : Nat} {a b : List Event} (ht : s.trace = a ++ .destroy t :: b) :
    (∀ c, Event.submit t c ∈ a → Event.finish t ∈ a) ∧ (Event.start t ∈ a → Event.finish t ∈ a) ∧
    Event.start t ∉ b ∧ Event.finish t ∉ b := by
  induction h generalizing b with
  | init => simp at ht
  | @step s s' h x hs ih =>
    rcases step_event hs with he | ⟨e, he, hb⟩
    · exact ih (he ▸ ht)
    · rw [he] at ht
      have hT := h.tInv
      have hT' := hT.step hs
      rcases split_append ht with ⟨rfl, rfl, rfl⟩ | ⟨b', rfl, htr⟩
      · have hd : 0 < has TaskSt.destroyed s'.tasks t := by
          rw [← hT'.de, he]; simp
        have hf : Event.finish t ∈ s'.trace → Event.finish t ∈ s.trace := by rw [he]; simp
        refine ⟨fun c hc => hf ?_, fun hc => hf ?_, by simp, by simp⟩
        · have hk := hT'.su t c (by rw [he]; simp [hc])
          refine List.count_pos_iff.1 ?_
          rw [hT'.fi]
          simp only [has] at hd ⊢
          cases hx : s'.tasks[t]? with
          | none => rw [hx] at hk; simp at hk
          | some x =>
            rw [hx] at hk hd
            simp only [Option.any_some] at hk hd ⊢
            cases x <;> simp [TaskSt.isExec, TaskSt.destroyed, TaskSt.finished] at hk hd ⊢
        · have hk : 0 < has TaskSt.started s'.tasks t := by
            rw [← hT'.st]; exact List.count_pos_iff.2 (by rw [he]; simp [hc])
          refine List.count_pos_iff.1 ?_
          rw [hT'.fi]
          simp only [has] at hk hd ⊢
          cases hx : s'.tasks[t]? with
          | none => rw [hx] at hk; simp at hk
          | some x =>
            rw [hx] at hk hd
            simp only [Option.any_some] at hk hd ⊢
            cases x <;> simp [TaskSt.started, TaskSt.destroyed, TaskSt.finished] at hk hd ⊢
      · obtain ⟨i1, i2, i3, i4⟩ := ih htr
        have hd : 0 < has TaskSt.destroyed s.tasks t := by
          rw [← hT.de, htr]; exact List.count_pos_iff.2 (by simp)
        simp only [has] at hd
        refine ⟨i1, i2, ?_, ?_⟩
        · simp only [List.mem_append, List.mem_singleton, not_or]
          refine ⟨i3, fun hx => ?_⟩
          rcases hb.start t hx.symm with hx | hx
          · rw [hx] at hd; simp [TaskSt.destroyed] at hd
          · rw [hx.1] at hd; simp [TaskSt.destroyed] at hd
        · simp only [List.mem_append, List.mem_singleton, not_or]
          refine ⟨i4, fun hx => ?_⟩
          rcases hb.finish t hx.symm with hx | hx
          · rw [hx] at hd; simp [TaskSt.destroyed] at hd
          · rw [hx] at hd; simp [TaskSt.destroyed] at hd

/-! ## After `pre_exit()` -/

/-- After `pre_exit()` the group is empty and the timer is closed. -/
theorem after_ret {s : St} (h : Reachable s) (hd : Disciplined s.trace) (hr : Event.ret ∈ s.trace) :
    s.count = 0 ∧ (s.timer = true → s.closed = true) := by
  have hT := h.tInv
  have hP := h.pInv
  have hQ := h.qInv hd
  obtain ⟨hst, hcn⟩ := hP.cs (hP.rc.1 hr)
  have hwt := hP.wt
  simp only [onStack, hst, List.map_nil, List.count_nil, Nat.zero_add] at hwt
  cases hg : s.group with
  | false =>
    refine ⟨?_, fun ht => by rw [hT.gr ht] at hg; simp at hg⟩
    rw [hT.cnt, List.countP_eq_zero]
    intro x hx
    obtain ⟨t, ht⟩ := List.getElem?_of_mem hx
    cases hk : x.isExec with
    | true => have := (hT.ex t (by rw [ht]; exact hk)).1; rw [hg] at this; simp at this
    | false =>
      have := hT.gr (hT.ti t (by rw [ht]; simp [TaskSt.isTimer, hk])).1
      rw [hg] at this; simp at this
  | true =>
    have hw : Event.run .wait ∈ s.trace := by
      by_cases hw : Event.run .wait ∈ s.trace
      · exact hw
      · rw [hg, if_neg hw] at hwt; simp at hwt
    exact ⟨hQ.rest hw (by rw [hcn]; simp), fun ht => hQ.closed ht hw⟩

/-- **C75**, the part that holds. If from the moment `pre_exit()` waits for the group only tasks use the executor and the
timer, and the timer has been used before that moment if at all, then when `pre_exit()` returns every task given to the
executor has been called, its call has ended and it has been destroyed; every task of the timer whose call has begun has
ended; and no task of either is called later. -/
theorem c75_rest_partial {s : St} (h : Reachable s) (hd : Disciplined s.trace) {a b : List Event} (ht : s.trace = a ++ .ret :: b) :
    (∀ t c, Event.submit t c ∈ a → Event.finish t ∈ a ∧ Event.destroy t ∈ a) ∧
    (∀ t, Event.start t ∈ a → Event.finish t ∈ a) ∧
    (∀ t, Event.start t ∉ b) ∧ (∀ t c, Event.submit t c ∉ b) := by
  induction h generalizing b with
  | init => simp at ht
  | @step s s' h x hs ih =>
    rcases step_event hs with he | ⟨e, he, hb⟩
    · exact ih (he ▸ hd) (he ▸ ht)
    · have hs' : Reachable s' := h.step x hs
      rw [he] at ht
      rcases split_append ht with ⟨rfl, rfl, rfl⟩ | ⟨b', rfl, htr⟩
      · obtain ⟨hz, -⟩ := after_ret hs' hd (by rw [he]; simp)
        have hT := hs'.tInv
        have mem : ∀ e, e ≠ Event.ret → e ∈ s'.trace → e ∈ s.trace := by
          intro e hne; rw [he]; simp [hne]
        refine ⟨fun t c hc => ?_, fun t hc => ?_, by simp, by simp⟩
        · have hk := hT.su t c (by rw [he]; simp [hc])
          cases hx : s'.tasks[t]? with
          | none => rw [hx] at hk; simp at hk
          | some x =>
            have hi := hT.none_in hz hx
            rw [hx] at hk
            have hx2 : x = .done := by
              simp only [Option.any_some] at hk
              cases x <;> simp [TaskSt.isExec, TaskSt.inGroup] at hk hi ⊢
            subst hx2
            refine ⟨mem _ (by simp) (List.count_pos_iff.1 ?_), mem _ (by simp) (List.count_pos_iff.1 ?_)⟩
            · rw [hT.fi]; simp [has, hx, TaskSt.finished]
            · rw [hT.de]; simp [has, hx, TaskSt.destroyed]
        · have hk : 0 < has TaskSt.started s'.tasks t := by
            rw [← hT.st]; exact List.count_pos_iff.2 (by rw [he]; simp [hc])
          simp only [has] at hk
          cases hx : s'.tasks[t]? with
          | none => rw [hx] at hk; simp at hk
          | some x =>
            have hi := hT.none_in hz hx
            rw [hx] at hk
            refine mem _ (by simp) (List.count_pos_iff.1 ?_)
            rw [hT.fi]
            simp only [has, hx, Option.any_some] at hk ⊢
            cases x <;> simp [TaskSt.started, TaskSt.inGroup, TaskSt.finished] at hk hi ⊢
      · have hd' : Disciplined s.trace := by rw [he] at hd; exact hd.prefix
        obtain ⟨i1, i2, i3, i4⟩ := ih hd' htr
        have hr : Event.ret ∈ s.trace := by rw [htr]; simp
        obtain ⟨hz, hcl⟩ := after_ret h hd' hr
        have hT := h.tInv
        have hP := h.pInv
        refine ⟨i1, i2, fun t => ?_, fun t c => ?_⟩
        · simp only [List.mem_append, List.mem_singleton, not_or]
          refine ⟨i3 t, fun hx => ?_⟩
          rcases hb.start t hx.symm with hx | ⟨hx, hc⟩
          · have := hT.none_in hz hx; simp [TaskSt.inGroup] at this
          · rw [hcl (hT.ti t (by rw [hx]; rfl)).1] at hc; simp at hc
        · simp only [List.mem_append, List.mem_singleton, not_or]
          refine ⟨i4 t c, fun hx => ?_⟩
          obtain ⟨hg, hca⟩ := hb.submit t c hx.symm
          cases c with
          | some u =>
            simp only [caller, Bool.or_eq_true, beq_iff_eq] at hca
            rcases hca with hca | hca
            · have := hT.none_in hz hca; simp [TaskSt.inGroup] at this
            · have := hT.none_in hz hca; simp [TaskSt.inGroup] at this
          | none =>
            have hw : Event.run .wait ∈ s.trace := by
              obtain ⟨hst, -⟩ := hP.cs (hP.rc.1 hr)
              have hwt := hP.wt
              by_cases hw : Event.run .wait ∈ s.trace
              · exact hw
              · simp [onStack, hst, hg, if_neg hw] at hwt
            rw [he, ← hx] at hd
            exact ((hd.last hw).1 t).1 rfl

/-- **C75**: the wait in `pre_exit()` is never stuck as long as the functions of the tasks return: either the handler can
return, or some task in the group can make its next step. -/
theorem c75_wait {s : St} (h : Reachable s) (hw : s.cur = some .wait) :
    (∃ s', step s .handlerReturns = .ok s') ∨
    ∃ t s', step s (.start t) = .ok s' ∨ step s (.finish t) = .ok s' ∨ step s (.delete t) = .ok s' ∨ step s (.leave t) = .ok s' := by
  have hT := h.tInv
  have hP := h.pInv
  by_cases hz : s.count = 0
  · left
    have hph : s.pre.phase = .inHandler := by
      rcases hP.cur with h1 | h1
      · rw [hw] at h1; simp at h1
      · exact h1
    simp only [step, handlerReturns, PreExit.step, hph, hw, hz, if_true]
    exact ⟨_, rfl⟩
  · right
    have hc := hT.cnt
    obtain ⟨x, hx, hi⟩ := List.countP_pos_iff.1 (show 0 < s.tasks.countP TaskSt.inGroup by omega)
    obtain ⟨t, ht⟩ := List.getElem?_of_mem hx
    refine ⟨t, ?_⟩
    cases x <;> simp [TaskSt.inGroup] at hi <;> simp [step, ht]

/-! ## Where it fails -/

/-- An event allowed after the wait began. -/
def allowed : Event → Bool
  | .submit _ none | .delay _ none | .reg .close => false
  | _ => true

/-- `Disciplined`, computed. -/
def disciplined : Bool → List Event → Bool
  | _, [] => true
  | w, e :: l => (!w || allowed e) && disciplined (w || e == .run .wait) l

theorem disciplined_iff {tr : List Event} {w : Bool} (h : disciplined w tr = true) {a b : List Event} {e : Event}
    (ht : tr = a ++ e :: b) (hw : w = true ∨ Event.run .wait ∈ a) : allowed e = true := by
  induction a generalizing tr w with
  | nil =>
    subst ht
    simp only [List.nil_append, disciplined, Bool.and_eq_true, Bool.or_eq_true, Bool.not_eq_true'] at h
    rcases hw with rfl | hw
    · simpa using h.1
    · simp at hw
  | cons x a ih =>
    subst ht
    simp only [List.cons_append, disciplined, Bool.and_eq_true] at h
    refine ih h.2 rfl ?_
    rcases hw with rfl | hw
    · exact .inl rfl
    · rcases List.mem_cons.1 hw with rfl | hw
      · left; simp
      · exact .inr hw

theorem Disciplined.of {tr : List Event} (h : disciplined false tr = true) : Disciplined tr := by
  intro a e b ht hw
  have := disciplined_iff h ht (.inr hw)
  refine ⟨fun t => ⟨?_, ?_⟩, ?_⟩ <;> rintro rfl <;> simp [allowed] at this

/-- The timer is used for the first time by task 0 while `pre_exit()` waits for it: its handler runs after the wait. Task 1 is
called between the end of the wait and that handler. -/
def lateActs : List Act :=
  [.makeGroup, .submit none, .start 0, .callPreExit, .pop, .makeTimer, .check (some 0), .after 1, .finish 0, .delete 0, .leave 0,
   .handlerReturns, .fire 1, .pop, .handlerReturns, .pop, .finish 1]

/-- **C75** fails when a task uses the timer for the first time while `pre_exit()` waits: the task it schedules is still being
called when `pre_exit()` returns. -/
theorem c75_timer_counterexample : ∃ s, Reachable s ∧ s.trace =
    [.reg .wait, .submit 0 none, .start 0, .run .wait, .reg .close, .delay 1 (some 0), .finish 0, .destroy 0,
     .start 1, .run .close, .ret, .finish 1] :=
  ⟨_, exec_reachable (as := lateActs) .init rfl, rfl⟩

/-- A handler registered before the executor was used is called after the wait, and uses the executor. -/
def handlerActs : List Act :=
  [.atPreExit 7, .makeGroup, .submit none, .start 0, .finish 0, .delete 0, .leave 0, .callPreExit, .pop, .handlerReturns, .pop,
   .submit none, .handlerReturns, .pop, .start 1]

/-- **C75** fails when a handler that was registered before the first use of the executor uses it: the task is called after
`pre_exit()` has returned. -/
theorem c75_handler_counterexample : ∃ s, Reachable s ∧ s.trace =
    [.reg (.user 7), .reg .wait, .submit 0 none, .start 0, .finish 0, .destroy 0, .run .wait, .run (.user 7),
     .submit 1 none, .ret, .start 1] :=
  ⟨_, exec_reachable (as := handlerActs) .init rfl, rfl⟩

/-- Two tasks are given to the timer. The first is called before `pre_exit()`, the second is due after it. -/
def closureActs : List Act :=
  [.makeGroup, .makeTimer, .check none, .after 0, .check none, .after 1, .fire 0, .finish 0, .leave 0, .callPreExit,
   .pop, .handlerReturns, .pop, .handlerReturns, .pop, .delete 0, .fire 1, .delete 1]

/-- **C75** fails for what the tasks of the timer hold, in a program that meets the conditions: the closures are destroyed after
`pre_exit()` has returned, because the group is left before the closure is deleted, and that of a task due later is deleted when
its time has come. -/
theorem c75_closure_counterexample : ∃ s, Reachable s ∧ Disciplined s.trace ∧ s.trace =
    [.reg .wait, .reg .close, .delay 0 none, .delay 1 none, .start 0, .finish 0, .run .close, .run .wait, .ret,
     .destroy 0, .destroy 1] :=
  ⟨_, exec_reachable (as := closureActs) .init rfl, .of rfl, rfl⟩

/-- Task 0 is being called when `pre_exit()` has closed the timer and waits for the task. -/
def assertActs : List Act :=
  [.makeGroup, .makeTimer, .submit none, .start 0, .callPreExit, .pop, .handlerReturns, .pop]

/-- **C75** fails in that a task that is called while `pre_exit()` waits for it, and uses the timer, fails an assertion
(system_timer.hpp:90). -/
theorem c75_assert_counterexample : ∃ s, Reachable s ∧ Disciplined s.trace ∧ step s (.check (some 0)) = .abort ∧
    s.trace = [.reg .wait, .reg .close, .submit 0 none, .start 0, .run .close, .run .wait] :=
  ⟨_, exec_reachable (as := assertActs) .init rfl, .of rfl, rfl, rfl⟩

/-- **C75**: such an assertion fails only after the handler of the timer has been called. -/
theorem c75_assert_partial {s : St} (h : Reachable s) (b : Option Nat) (ha : step s (.check b) = .abort) :
    Event.run .close ∈ s.trace := by
  have key : ∀ {s : St}, Reachable s → (s.cur = some .close ∨ s.closed = true) → Event.run .close ∈ s.trace := by
    intro s h
    induction h with
    | init => simp
    | @step s s' h x hs ih =>
      intro hc
      obtain ⟨es, he⟩ := trace_step hs
      have up : Event.run .close ∈ s.trace → Event.run .close ∈ s'.trace := fun hm => by rw [he]; exact List.mem_append_left _ hm
      cases x with
      | atPreExit n => obtain ⟨-, rfl⟩ := register_ok hs; exact up (ih hc)
      | makeGroup =>
        simp only [step] at hs
        split at hs
        · simp at hs
        · obtain ⟨-, rfl⟩ := register_ok hs; exact up (ih hc)
      | makeTimer =>
        simp only [step] at hs
        split at hs
        · obtain ⟨-, rfl⟩ := register_ok hs; exact up (ih hc)
        · simp at hs
      | pop =>
        simp only [step, pop] at hs
        repeat' split at hs
        all_goals first | (simp at hs; done) | skip
        · simp only [Out.ok.injEq] at hs; subst hs; exact up (ih hc)
        · simp only [Out.ok.injEq] at hs; subst hs
          rcases hc with hc | hc
          · simp only [Option.some.injEq] at hc
            simp [hc]
          · exact up (ih (.inr hc))
      | handlerReturns =>
        simp only [step, handlerReturns] at hs
        repeat' split at hs
        all_goals first | (simp at hs; done) | skip
        · simp only [Out.ok.injEq] at hs; subst hs; exact up (ih (.inr (hc.resolve_left (by simp))))
        · rename_i hcur
          simp only [Out.ok.injEq] at hs; subst hs; exact up (ih (.inl hcur))
        · simp only [Out.ok.injEq] at hs; subst hs; exact up (ih (.inr (hc.resolve_left (by simp))))
      | _ =>
        simp only [step] at hs
        repeat' split at hs
        all_goals first | (simp at hs; done) | skip
        all_goals
          simp only [Out.ok.injEq] at hs; subst hs
          exact up (ih hc)
  simp only [step] at ha
  repeat' split at ha
  all_goals first | (simp at ha; done) | skip
  exact key h (.inr ‹_›)

/-! ## Concrete cases -/

/-- `c75_rest_partial`: task 0 of the executor gives task 1 to the executor while `pre_exit()` waits; task 2 of the timer is being
called at that moment, task 3 is due later. -/
def restActs : List Act :=
  [.makeGroup, .makeTimer, .submit none, .start 0, .check none, .after 1, .check none, .after 2, .fire 1, .callPreExit, .pop,
   .handlerReturns, .pop, .submit (some 0), .finish 0, .delete 0, .leave 0, .finish 1, .leave 1, .start 3, .finish 3, .delete 3,
   .leave 3, .handlerReturns, .pop, .fire 2]

example : ∃ s, Reachable s ∧ Disciplined s.trace ∧ s.trace =
    [.reg .wait, .reg .close, .submit 0 none, .start 0, .delay 1 none, .delay 2 none, .start 1, .run .close, .run .wait,
     .submit 3 (some 0), .finish 0, .destroy 0, .finish 1, .start 3, .finish 3, .destroy 3] ++ Event.ret :: [] :=
  ⟨_, exec_reachable (as := restActs) .init rfl, .of rfl, rfl⟩

/-- `c75_destroy`: a closure destroyed after the call. -/
example : ∃ s, Reachable s ∧ s.trace = [.reg .wait, .submit 0 none, .start 0, .finish 0] ++ Event.destroy 0 :: [] :=
  ⟨_, exec_reachable (as := [.makeGroup, .submit none, .start 0, .finish 0, .delete 0]) .init rfl, rfl⟩

/-- `c75_wait`: `pre_exit()` waits for a task that has not been called yet. -/
example : ∃ s, Reachable s ∧ s.cur = some .wait ∧ s.count = 1 :=
  ⟨_, exec_reachable (as := [.makeGroup, .submit none, .callPreExit, .pop]) .init rfl, rfl, rfl⟩

end Verif.Dispatch
