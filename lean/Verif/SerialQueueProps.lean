import Verif.SerialQueue

/-!
# Properties of the serial queue (C21 - C23)

All theorems are about every reachable state, hence about every moment of every execution: any
interleaving of any number of calls of `enqueue` (from any thread, including from tasks), and any order
in which the underlying executor starts the jobs given to it.
-/

namespace Verif.SerialQueue

/-- C21: at every moment the tasks started so far are, in this order, the first ones submitted; none is
started twice. -/
theorem c21_order {m : Mode} {s : St} (h : Reachable m s) :
    started s.trace <+: submitted s.trace ∧ (submitted s.trace).Nodup ∧ (started s.trace).Nodup := by
  have I := h.inv
  have hp : started s.trace <+: submitted s.trace := by
    rw [I.subs, ← I.order, List.append_assoc]
    exact List.prefix_append _ _
  have hn : (submitted s.trace).Nodup := by rw [I.subs]; exact List.nodup_range
  exact ⟨hp, hn, hn.sublist hp.sublist⟩

theorem scan_started : ∀ {tr : List Event} {c d : Option Nat} {b : Nat},
    scan c (tr ++ [.start b]) = some d → ∀ a, (c = some a → Event.finish a ∈ tr)
  | [], c, d, b, h, a, hc => by subst hc; simp [scan] at h
  | .submit n :: tr, c, d, b, h, a, hc => by
    have : scan c (tr ++ [.start b]) = some d := by
      cases c <;> simpa [scan] using h
    exact List.mem_cons_of_mem _ (scan_started this a hc)
  | .start n :: tr, c, d, b, h, a, hc => by subst hc; simp [scan] at h
  | .finish n :: tr, c, d, b, h, a, hc => by
    subst hc
    simp only [List.cons_append, scan] at h
    split at h
    · rename_i e; subst e; simp
    · simp at h

/-- C22: between the starts of two tasks the first one finishes; so no two are executing at once. -/
theorem c22_no_overlap {m : Mode} {s : St} (h : Reachable m s) {pre mid post : List Event} {a b : Nat}
    (ht : s.trace = pre ++ .start a :: mid ++ .start b :: post) : Event.finish a ∈ mid := by
  have I := h.inv
  have hs := I.scan
  have e : s.trace = pre ++ ([.start a] ++ ((mid ++ [.start b]) ++ post)) := by rw [ht]; simp
  rw [e, scan_append] at hs
  cases h1 : scan none pre with
  | none => simp [h1] at hs
  | some c =>
    rw [h1, Option.bind_some, scan_append] at hs
    cases c with
    | some c => simp [scan] at hs
    | none =>
      simp only [scan, Option.bind_some] at hs
      rw [scan_append] at hs
      cases h2 : scan (some a) (mid ++ [.start b]) with
      | none => simp [h2] at hs
      | some d => exact scan_started h2 a rfl

theorem mem_started {tr : List Event} {n : Nat} : n ∈ started tr ↔ Event.start n ∈ tr := by
  simp only [started, List.mem_filterMap]
  constructor
  · rintro ⟨e, he, h⟩; cases e <;> simp_all
  · intro h; exact ⟨_, h, rfl⟩

theorem mem_submitted {tr : List Event} {n : Nat} : n ∈ submitted tr ↔ Event.submit n ∈ tr := by
  simp only [submitted, List.mem_filterMap]
  constructor
  · rintro ⟨e, he, h⟩; cases e <;> simp_all
  · intro h; exact ⟨_, h, rfl⟩

theorem mem_finished {tr : List Event} {n : Nat} : n ∈ finished tr ↔ Event.finish n ∈ tr := by
  simp only [finished, List.mem_filterMap]
  constructor
  · rintro ⟨e, he, h⟩; cases e <;> simp_all
  · intro h; exact ⟨_, h, rfl⟩

/-- C22, the states: no two drain jobs execute at the same time. -/
theorem c22_one_job {m : Mode} {s : St} (h : Reachable m s) : s.kicks + s.pending + s.jobs.length ≤ 1 := by
  cases h.inv.token with
  | idle h1 h2 h3 h4 h5 => simp [h3, h4, h5]
  | kick h1 h2 h3 h4 h5 => simp [h3, h4, h5]
  | pending h1 h2 h3 h4 h5 => simp [h3, h4, h5]
  | job pc h1 h3 h4 h5 h6 => simp [h3, h4, h5]

/-- C23: no step is undefined (in particular `single()` never pops an empty queue). -/
theorem c23_no_undefined {m : Mode} {s : St} (h : Reachable m s) (a : Act) : step m s a ≠ .ub :=
  (inv_step h.inv a).1

/-- C23, safety: while a submitted task has not started there is a job waiting in the executor, or one
in execution, or a thread about to hand one to the executor. -/
theorem c23_job_outstanding {m : Mode} {s : St} (h : Reachable m s) {n : Nat}
    (hs : Event.submit n ∈ s.trace) (hn : Event.start n ∉ s.trace) :
    0 < s.kicks + s.pending + s.jobs.length := by
  have I := h.inv
  cases I.token with
  | idle h1 h2 h3 h4 h5 =>
    exfalso
    have e := I.order
    rw [h2, h5] at e
    simp only [localTasks, List.append_nil] at e
    rw [← I.subs] at e
    exact hn (mem_started.1 (e ▸ mem_submitted.2 hs))
  | kick h1 h2 h3 h4 h5 => omega
  | pending h1 h2 h3 h4 h5 => omega
  | job pc h1 h3 h4 h5 h6 => simp [h5]

/-- C23: once nothing is left to do, everything submitted has been executed. -/
theorem c23_quiescent {m : Mode} {s : St} (h : Reachable m s)
    (hq : s.kicks = 0 ∧ s.pending = 0 ∧ s.jobs = []) :
    finished s.trace = submitted s.trace := by
  have I := h.inv
  have hst : started s.trace = submitted s.trace := by
    cases I.token with
    | idle h1 h2 h3 h4 h5 =>
      have e := I.order
      rw [h2, h5] at e
      simpa [localTasks, I.subs] using e
    | kick h1 h2 h3 h4 h5 => omega
    | pending h1 h2 h3 h4 h5 => omega
    | job pc h1 h3 h4 h5 h6 => rw [hq.2.2] at h5; simp at h5
  have f := I.fin
  rw [hq.2.2] at f
  rw [← hst, ← f]; simp [current]

/-! ## Progress -/

/-- Steps of the queue's own machinery: everything but further calls of `enqueue`. -/
def internal : Act → Bool
  | .enqueue => false
  | _ => true

/-- Steps the holder of the right to run needs before it can start a task. -/
def offset (s : St) : Nat :=
  match s.jobs with
  | .begin :: _ => 2
  | .loop (_ :: _) :: _ => 1
  | .loop [] :: _ => 5
  | .calling _ _ :: _ => 6
  | .resubmit :: _ => 4
  | [] => if s.pending = 0 then 4 else 3

/-- Bound on the steps until task `n` starts. -/
def bound (n : Nat) (s : St) : Nat := 6 * (n - (started s.trace).length) + offset s

theorem bound_pos {n : Nat} {s : St} : 0 < bound n s := by
  have : 0 < offset s := by
    unfold offset
    split
    all_goals (try split)
    all_goals omega
  unfold bound; omega

theorem started_eq_range {s : St} (I : Inv s) : started s.trace = List.range (started s.trace).length := by
  have h := congrArg (List.take (started s.trace).length) I.order
  rw [List.append_assoc, List.take_left] at h
  have hl : (started s.trace).length ≤ s.next := by
    have := congrArg List.length I.order
    simp only [List.length_append, List.length_range] at this
    omega
  rw [List.take_range, Nat.min_eq_left hl] at h
  exact h

theorem not_started_iff {s : St} (I : Inv s) {n : Nat} :
    Event.start n ∉ s.trace ↔ (started s.trace).length ≤ n := by
  rw [← mem_started, started_eq_range I]
  simp

theorem not_idle {s : St} (I : Inv s) {n : Nat} (hs : n < s.next) (hn : (started s.trace).length ≤ n) :
    localTasks s.jobs ++ s.queue ≠ [] := by
  intro h
  have := congrArg List.length I.order
  rw [List.append_assoc, h] at this
  simp at this
  omega

theorem step_bound {m : Mode} {s s' : St} (I : Inv s) {n : Nat} (hs : n < s.next)
    (hn : (started s.trace).length ≤ n) {a : Act} (ha : step m s a = .ok s') :
    n < s'.next ∧ (n < (started s'.trace).length ∨
      bound n s' + (if internal a then 1 else 0) ≤ bound n s) := by
  have hne := not_idle I hs hn
  obtain ⟨tok, subs, ord, scn, fin⟩ := I
  cases a with
  | enqueue =>
    simp only [step, Out.ok.injEq] at ha
    subst ha
    refine ⟨by simp; omega, Or.inr ?_⟩
    have e : started (s.trace ++ [Event.submit s.next]) = started s.trace := by
      simp [started, List.filterMap_append]
    simp only [bound, e, internal, offset]
    simp
  | kick =>
    simp only [step] at ha
    split at ha
    · simp at ha
    · rename_i hk
      simp only [Out.ok.injEq] at ha
      subst ha
      refine ⟨hs, Or.inr ?_⟩
      cases tok with
      | kick h1 h2 h3 h4 h5 => simp [bound, offset, h5, h4, internal]
      | idle h1 h2 h3 h4 h5 => exact absurd h3 hk
      | pending h1 h2 h3 h4 h5 => exact absurd h3 hk
      | job pc h1 h3 h4 h5 h6 => exact absurd h3 hk
  | runJob =>
    simp only [step] at ha
    split at ha
    · simp at ha
    · rename_i hk
      simp only [Out.ok.injEq] at ha
      subst ha
      refine ⟨hs, Or.inr ?_⟩
      cases tok with
      | pending h1 h2 h3 h4 h5 => simp [bound, offset, h5, h4, internal]
      | idle h1 h2 h3 h4 h5 => exact absurd h4 hk
      | kick h1 h2 h3 h4 h5 => exact absurd h4 hk
      | job pc h1 h3 h4 h5 h6 => exact absurd h4 hk
  | advance i =>
    cases tok with
    | idle h1 h2 h3 h4 h5 => simp [step, h5] at ha
    | kick h1 h2 h3 h4 h5 => simp [step, h5] at ha
    | pending h1 h2 h3 h4 h5 => simp [step, h5] at ha
    | job pc h1 h3 h4 h5 h6 =>
      cases i with
      | succ i => simp [step, h5] at ha
      | zero =>
        cases pc with
        | begin =>
          obtain ⟨t, q, hq⟩ := List.exists_cons_of_ne_nil (h6 (Or.inl rfl))
          cases m
          all_goals
            simp only [step, h5, List.getElem?_cons_zero, fetch, hq, Out.ok.injEq] at ha
            subst ha
            refine ⟨hs, Or.inr ?_⟩
            simp [bound, offset, h5, internal]
        | loop ts =>
          cases ts with
          | nil =>
            have hq : s.queue ≠ [] := by simpa [h5, localTasks] using hne
            simp only [step, h5, List.getElem?_cons_zero, hq, if_false, Out.ok.injEq] at ha
            subst ha
            refine ⟨hs, Or.inr ?_⟩
            simp [bound, offset, h5, internal]
          | cons t ts =>
            simp only [step, h5, List.getElem?_cons_zero, Out.ok.injEq] at ha
            subst ha
            refine ⟨hs, ?_⟩
            have e : (started (s.trace ++ [Event.start t])).length = (started s.trace).length + 1 := by
              simp [started, List.filterMap_append]
            simp only [bound, e, offset, h5, internal, List.set_cons_zero, if_true]
            omega
        | calling t ts =>
          simp only [step, h5, List.getElem?_cons_zero, Out.ok.injEq] at ha
          subst ha
          refine ⟨hs, Or.inr ?_⟩
          have e : started (s.trace ++ [Event.finish t]) = started s.trace := by
            simp [started, List.filterMap_append]
          simp only [bound, e, offset, h5, internal, List.set_cons_zero, if_true]
          cases ts <;> simp
        | resubmit =>
          simp only [step, h5, List.getElem?_cons_zero, Out.ok.injEq] at ha
          subst ha
          refine ⟨hs, Or.inr ?_⟩
          simp [bound, offset, h5, h4, internal]

theorem started_mono {m : Mode} {s s' : St} {a : Act} (ha : step m s a = .ok s') : s.trace <+: s'.trace := by
  cases a <;> simp only [step] at ha
  all_goals (repeat' split at ha)
  all_goals (first | (simp at ha; done) | skip)
  all_goals
    simp only [Out.ok.injEq] at ha
    subst ha
    simp

theorem exec_mono {m : Mode} : ∀ {as : List Act} {s s' : St}, exec m s as = some s' → s.trace <+: s'.trace
  | [], s, s', h => by simp only [exec, Option.some.injEq] at h; subst h; exact List.prefix_rfl
  | a :: as, s, s', h => by
    simp only [exec] at h
    split at h
    · rename_i s1 h1; exact (started_mono h1).trans (exec_mono h)
    · simp at h

theorem exec_bound {m : Mode} {n : Nat} : ∀ {as : List Act} {s s' : St}, Inv s → n < s.next →
    exec m s as = some s' → bound n s ≤ as.countP internal → Event.start n ∈ s'.trace
  | as, s, s', I, hs, he, hb => by
    by_cases hn : Event.start n ∈ s.trace
    · exact (exec_mono he).subset hn
    · have hn' := (not_started_iff I).1 hn
      cases as with
      | nil => have := @bound_pos n s; simp at hb; omega
      | cons a as =>
        simp only [exec] at he
        split at he
        · rename_i s1 h1
          have I1 := (inv_step I a).2 _ h1
          obtain ⟨hx, hy⟩ := step_bound I hs hn' h1
          rcases hy with hy | hy
          · have : Event.start n ∈ s1.trace := by
              refine Classical.byContradiction fun hc => ?_
              have := (not_started_iff I1).1 hc
              omega
            exact (exec_mono he).subset this
          · refine exec_bound I1 hx he ?_
            simp only [List.countP_cons] at hb
            omega
        · simp at he

/-- C23, liveness, first half: while a submitted task has not started, the machinery can take a step
which is not a further submission: the queue is never stuck. -/
theorem c23_never_stuck {m : Mode} {s : St} (h : Reachable m s) {n : Nat}
    (hs : Event.submit n ∈ s.trace) (hn : Event.finish n ∉ s.trace) :
    ∃ a s', internal a = true ∧ step m s a = .ok s' := by
  have I := h.inv
  obtain ⟨tok, subs, ord, scn, fin⟩ := I
  cases tok with
  | idle h1 h2 h3 h4 h5 =>
    exfalso
    rw [← mem_finished] at hn
    rw [c23_quiescent h ⟨h3, h4, h5⟩] at hn
    exact hn (mem_submitted.2 hs)
  | kick h1 h2 h3 h4 h5 => exact ⟨.kick, _, rfl, by simp [step, h3]; rfl⟩
  | pending h1 h2 h3 h4 h5 => exact ⟨.runJob, _, rfl, by simp [step, h4]; rfl⟩
  | job pc h1 h3 h4 h5 h6 =>
    have hu := (inv_step h.inv (m := m) (.advance 0)).1
    have hno : step m s (.advance 0) ≠ .no := by
      simp only [step, h5, List.getElem?_cons_zero]
      repeat' split
      all_goals simp_all
    refine ⟨.advance 0, ?_⟩
    cases hstep : step m s (.advance 0) with
    | no => exact absurd hstep hno
    | ub => exact absurd hstep hu
    | ok s' => exact ⟨s', rfl, rfl⟩

/-- C23, liveness, second half: a submitted task `n` has started after at most `6 * n + 6` such steps
(submissions not counted), in every continuation of the execution. -/
theorem c23_started {m : Mode} {s s' : St} (h : Reachable m s) {n : Nat}
    (hs : Event.submit n ∈ s.trace) {as : List Act} (he : exec m s as = some s')
    (hc : 6 * n + 6 ≤ as.countP internal) : Event.start n ∈ s'.trace := by
  have I := h.inv
  have hlt : n < s.next := by
    have := mem_submitted.2 hs
    rw [I.subs] at this
    simpa using this
  refine exec_bound I hlt he (Nat.le_trans ?_ hc)
  have : offset s ≤ 6 := by
    unfold offset
    split
    all_goals (try split)
    all_goals omega
  unfold bound
  omega

theorem exec_append {m : Mode} : ∀ {as bs : List Act} {s s' : St}, exec m s (as ++ bs) = some s' →
    ∃ s1, exec m s as = some s1 ∧ exec m s1 bs = some s'
  | [], bs, s, s', h => ⟨s, rfl, h⟩
  | a :: as, bs, s, s', h => by
    simp only [List.cons_append, exec] at h ⊢
    split at h
    · exact exec_append h
    · simp at h

theorem split_count : ∀ (as : List Act) (k : Nat), k ≤ as.countP internal →
    ∃ xs ys, as = xs ++ ys ∧ xs.countP internal = k
  | as, 0, _ => ⟨[], as, rfl, rfl⟩
  | [], k + 1, h => by simp at h
  | a :: as, k + 1, h => by
    simp only [List.countP_cons] at h
    cases ha : internal a with
    | true =>
      obtain ⟨xs, ys, e, hx⟩ := split_count as k (by simp [ha] at h; omega)
      exact ⟨a :: xs, ys, by simp [e], by simp [ha, hx]⟩
    | false =>
      obtain ⟨xs, ys, e, hx⟩ := split_count as (k + 1) (by simpa [ha] using h)
      exact ⟨a :: xs, ys, by simp [e], by simp [ha, hx]⟩

theorem exec_finish {m : Mode} {n : Nat} : ∀ {as : List Act} {s s' : St}, Inv s →
    Event.start n ∈ s.trace → exec m s as = some s' → 0 < as.countP internal → Event.finish n ∈ s'.trace
  | as, s, s', I, hn, he, hc => by
    by_cases hf : Event.finish n ∈ s.trace
    · exact (exec_mono he).subset hf
    · have hcur : current s.jobs = some n := by
        have h1 := mem_started.2 hn
        rw [← I.fin, List.mem_append] at h1
        rcases h1 with h1 | h1
        · exact absurd (mem_finished.1 h1) hf
        · simpa using h1
      cases as with
      | nil => simp at hc
      | cons a as =>
        simp only [exec] at he
        split at he
        · rename_i s1 h1
          have I1 := (inv_step I a).2 _ h1
          have hn1 := (started_mono h1).subset hn
          cases ha : internal a with
          | false => exact exec_finish I1 hn1 he (by simpa [ha] using hc)
          | true =>
            refine (exec_mono he).subset ?_
            obtain ⟨tok, -, -, -, -⟩ := I
            cases tok with
            | idle h1 h2 h3 h4 h5 => simp [h5, current] at hcur
            | kick h1 h2 h3 h4 h5 => simp [h5, current] at hcur
            | pending h1 h2 h3 h4 h5 => simp [h5, current] at hcur
            | job pc h2 h3 h4 h5 h6 =>
              cases pc with
              | calling t ts =>
                simp only [h5, current, Option.some.injEq] at hcur
                subst hcur
                cases a with
                | enqueue => simp [internal] at ha
                | kick => simp [step, h3] at h1
                | runJob => simp [step, h4] at h1
                | advance i =>
                  cases i with
                  | succ i => simp [step, h5] at h1
                  | zero =>
                    simp only [step, h5, List.getElem?_cons_zero, Out.ok.injEq] at h1
                    subst h1
                    simp
              | begin => simp [h5, current] at hcur
              | loop ts => simp [h5, current] at hcur
              | resubmit => simp [h5, current] at hcur
        · simp at he

/-- C23, liveness: and it has finished one step later. -/
theorem c23_finished {m : Mode} {s s' : St} (h : Reachable m s) {n : Nat}
    (hs : Event.submit n ∈ s.trace) {as : List Act} (he : exec m s as = some s')
    (hc : 6 * n + 7 ≤ as.countP internal) : Event.finish n ∈ s'.trace := by
  obtain ⟨xs, ys, e, hx⟩ := split_count as (6 * n + 6) (by omega)
  subst e
  obtain ⟨s1, h1, h2⟩ := exec_append he
  refine exec_finish (inv_exec h.inv h1) (c23_started h hs h1 (by omega)) h2 ?_
  simp only [List.countP_append] at hc
  omega

/-! ## A concrete case

Three tasks are submitted, the second while the first is executing, the third between the critical
section and the executor call of the first. -/

def demoActs : List Act :=
  [.enqueue, .enqueue, .kick, .runJob, .advance 0, .advance 0, .enqueue, .advance 0, .advance 0,
   .advance 0, .runJob, .advance 0, .advance 0]

def demoTrace : Mode → Option (List Event)
  | m => (exec m {} demoActs).map St.trace

example : demoTrace .single =
    some [.submit 0, .submit 1, .start 0, .submit 2, .finish 0, .start 1] := by decide

example : (exec .all {} [.enqueue, .enqueue, .kick, .runJob, .advance 0, .advance 0, .enqueue, .advance 0,
    .advance 0, .advance 0, .advance 0, .advance 0, .runJob, .advance 0, .advance 0]).map St.trace =
    some [.submit 0, .submit 1, .start 0, .submit 2, .finish 0, .start 1, .finish 1, .start 2] := by decide

example : ∃ s, Reachable .single s ∧ Event.submit 2 ∈ s.trace ∧ Event.start 2 ∉ s.trace := by
  refine ⟨_, ⟨demoActs, rfl⟩, ?_, ?_⟩ <;> decide

/-- `c23_started` is not vacuous: a long enough execution exists. -/
example : ∃ s s' as, Reachable .all s ∧ Event.submit 0 ∈ s.trace ∧ exec .all s as = some s' ∧
    6 * 0 + 6 ≤ as.countP internal :=
  ⟨_, _, [.kick, .runJob, .advance 0, .advance 0, .advance 0, .advance 0], ⟨[.enqueue], rfl⟩, by decide, rfl,
    by decide⟩

end Verif.SerialQueue
