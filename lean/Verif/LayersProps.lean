import Verif.LayersMeasure
import Verif.Future.Determinate

/-!
# Futures on the executors of the library (C107)

The futures of a program whose functions run on the thread pool, on serial queues over it and on `immediate_executor`, all together: however the
threads interleave, nothing is undefined, the system comes to rest after finitely many steps, and when it rests nothing is left to do anywhere and
every future somebody has is resolved with what sequential evaluation gives. All theorems are about every reachable state, whatever the program does.
-/

namespace Verif.Layers

variable {C : Cfg} {s s' : St}

/-- **C107**: the parts of the system behave as each was modelled alone: every theorem about reachable states of the graph of futures, of the thread
pool and of serial queues applies. -/
theorem c107_parts (hC : C.Ok) (h : Reachable C s) :
    Graph.Reachable s.g ∧ ThreadPool.Reachable C.N C.limit s.p ∧ ∀ j, SerialQueue.Reachable (C.mode j) (s.q j) :=
  ⟨(h.inv hC).gr, (h.inv hC).pr, (h.inv hC).qr⟩

/-! ## Nothing is undefined -/

theorem call_ub {s : St} (hg : Graph.Reachable s.g) (n : Nat) : call s n ≠ .ub := by
  have := Graph.c32_no_undefined hg (.run n)
  simp only [call]
  split <;> simp_all

theorem serial_ub {j : Nat} (hq : SerialQueue.Reachable (C.mode j) (s.q j)) (a : SerialQueue.Act) : serial C s j a ≠ .ub := by
  have := SerialQueue.c23_no_undefined hq a
  simp only [serial]
  split <;> simp_all

theorem submit_ub (prio i : Nat) (b : Job) : submit C s prio i b ≠ .ub := by
  simp only [submit]
  split <;> simp

theorem bind_ub {o : Out} {f : St → Out} (h : o ≠ .ub) (h' : ∀ s, o = .ok s → f s ≠ .ub) : o.bind f ≠ .ub := by
  cases o with
  | no => simp [Out.bind]
  | ub => exact absurd rfl h
  | ok s => exact h' s rfl

/-- **C107**: no step is undefined: no packaged task is called before the future it continues is resolved, no serial queue pops an empty deque. -/
theorem c107_no_undefined (hC : C.Ok) (h : Reachable C s) (a : Act) : step C s a ≠ .ub := by
  have I := h.inv hC
  cases a with
  | graph a =>
    simp only [step]
    split
    · simp
    · simp
    · have := Graph.c32_no_undefined I.gr a
      split <;> simp_all
  | give n i =>
    simp only [step]
    split
    · simp
    · split
      · exact submit_ub _ _ _
      · exact bind_ub (serial_ub (I.qr _) _) (by simp)
      · exact call_ub I.gr n
  | kick j i => exact bind_ub (serial_ub (I.qr _) _) (fun s _ => submit_ub _ _ _)
  | pool a =>
    simp only [step]
    repeat' split
    all_goals simp
  | begin i =>
    simp only [step]
    split
    · split
      · split
        · simp
        · split
          · exact bind_ub (call_ub (by exact I.gr) _) (by simp)
          · exact bind_ub (serial_ub (by exact I.qr _) _) (by simp)
      · simp
    · simp
  | serve i k =>
    simp only [step]
    split
    · simp only [serve]
      split
      · refine bind_ub (serial_ub (I.qr _) _) fun s1 h1 => ?_
        obtain ⟨q, -, rfl⟩ := serial_ok h1
        exact call_ub (by exact I.gr) _
      · split
        · simp
        · exact serial_ub (I.qr _) _
      · exact bind_ub (serial_ub (I.qr _) _) (by simp)
      · exact bind_ub (serial_ub (I.qr _) _) fun s1 _ => bind_ub (submit_ub _ _ _) (by simp)
      · exact serial_ub (I.qr _) _
    · simp
  | finish i =>
    simp only [step]
    repeat' split
    all_goals simp

/-! ## The system comes to rest -/

/-- Nothing is left to do: the system cannot go on by itself. -/
def AtRest (C : Cfg) (s : St) : Prop := ∀ a s', internal a = true → step C s a ≠ .ok s'

theorem exec_reachable {as : List Act} : ∀ {s : St}, Reachable C s → exec C s as = .ok s' → Reachable C s' := by
  induction as with
  | nil => intro s h e; simp only [exec, Out.ok.injEq] at e; exact e ▸ h
  | cons a as ih =>
    intro s h e
    simp only [exec] at e
    obtain ⟨s1, h1, e⟩ := bind_ok e
    exact ih (.step a h h1) e

theorem exec_weight (hC : C.Ok) {as : List Act} : ∀ {s : St}, Reachable C s → (∀ a ∈ as, internal a = true) → exec C s as = .ok s' →
    weight C s' + as.length ≤ weight C s := by
  induction as with
  | nil => intro s _ _ e; simp only [exec, Out.ok.injEq] at e; simp [e]
  | cons a as ih =>
    intro s h ha e
    simp only [exec] at e
    obtain ⟨s1, h1, e⟩ := bind_ok e
    have h2 := weight_less hC h (ha a (by simp)) h1
    have h3 := ih (.step a h h1) (fun b hb => ha b (List.mem_cons_of_mem _ hb)) e
    simp only [List.length_cons]
    omega

/-- **C107**: from every state there is a number of steps after which the system, left to itself, cannot go on, whatever the threads do. -/
theorem c107_terminates (hC : C.Ok) (h : Reachable C s) :
    ∃ B, ∀ as s', (∀ a ∈ as, internal a = true) → exec C s as = .ok s' → as.length ≤ B :=
  ⟨weight C s, fun as s' ha e => by have := exec_weight hC h ha e; omega⟩

/-- **C107**: and it does come to rest. -/
theorem c107_comes_to_rest (hC : C.Ok) (h : Reachable C s) :
    ∃ as s', (∀ a ∈ as, internal a = true) ∧ exec C s as = .ok s' ∧ AtRest C s' := by
  generalize hw : weight C s = w
  induction w using Nat.strongRecOn generalizing s with
  | ind w ih =>
    by_cases hr : AtRest C s
    · exact ⟨[], s, by simp, rfl, hr⟩
    · obtain ⟨a, hr⟩ := Classical.not_forall.1 hr
      obtain ⟨s1, hr⟩ := Classical.not_forall.1 hr
      obtain ⟨ha, h1⟩ := Classical.not_imp.1 hr
      replace h1 : step C s a = .ok s1 := Classical.not_not.1 h1
      have hl := weight_less hC h ha h1
      obtain ⟨as, s2, has, e, h2⟩ := ih (weight C s1) (hw ▸ hl) (.step a h h1) rfl
      refine ⟨a :: as, s2, ?_, ?_, h2⟩
      · intro b hb
        rcases List.mem_cons.1 hb with rfl | hb
        · exact ha
        · exact has b hb
      · simp only [exec, h1, Out.bind]
        exact e

/-! ## At rest nothing is left to do -/

theorem AtRest.no (hC : C.Ok) (h : Reachable C s) (r : AtRest C s) {a : Act} (ha : internal a = true) : step C s a = .no := by
  cases hs : step C s a with
  | no => rfl
  | ub => exact absurd hs (c107_no_undefined hC h a)
  | ok s' => exact absurd hs (r a s' ha)

theorem AtRest.not_running (r : AtRest C s) (n : Nat) : s.g.pc n ≠ .running := by
  intro hn
  have : ∃ s', step C s (.graph (.retVal n 0)) = .ok s' := by
    simp only [step, Graph.step, hn, ne_eq, not_true_eq_false, if_false]
    exact ⟨_, rfl⟩
  obtain ⟨s', h⟩ := this
  exact r _ s' rfl h

theorem call_sched (hg : Graph.Reachable s.g) {n : Nat} (h : s.g.pc n = .sched) : ∃ g, Graph.step s.g (.run n) = .ok g := by
  have h1 := Graph.c32_no_undefined hg (.run n)
  cases h2 : Graph.step s.g (.run n) with
  | ok g => exact ⟨g, rfl⟩
  | ub => exact absurd h2 h1
  | no =>
    simp only [Graph.step, h, ne_eq, not_true_eq_false, if_false] at h2
    repeat' split at h2
    all_goals cases h2

theorem submit_some {prio i : Nat} (p : ThreadPool.St) (h : prio < 3) : ∃ p', ThreadPool.step C.N C.limit p (.submit prio i) = some p' := by
  simp [ThreadPool.step, h]

theorem advance_some {j : Nat} (hq : SerialQueue.Reachable (C.mode j) (s.q j)) {pc : SerialQueue.Pc} (hj : (s.q j).jobs = [pc]) :
    ∃ q, SerialQueue.step (C.mode j) (s.q j) (.advance 0) = .ok q := by
  have h1 := SerialQueue.c23_no_undefined hq (.advance 0)
  cases h2 : SerialQueue.step (C.mode j) (s.q j) (.advance 0) with
  | ok q => exact ⟨q, rfl⟩
  | ub => exact absurd h2 h1
  | no =>
    simp only [SerialQueue.step, hj, List.getElem?_cons_zero] at h2
    repeat' split at h2
    all_goals simp_all

/-- A thread of the pool that calls a task can go on, unless the function of a future is being called. -/
theorem AtRest.not_calling (hC : C.Ok) (h : Reachable C s) (r : AtRest C s) {i : Nat} (hi : i < s.p.nth) (t : Nat) : s.p.th i ≠ .calling t := by
  intro ht
  have I := h.inv hC
  cases hb : s.begun t with
  | false =>
    have hno := r.no hC h (a := .begin i) rfl
    have hlt : t < s.p.next := by obtain ⟨k, hk⟩ := calling_start hC.N I.pr hi ht; exact started_lt hC.N I.pr hk
    simp only [step, hi, if_true, ht, hb, Bool.false_eq_true, if_false] at hno
    cases hj : s.job t with
    | node n =>
      obtain ⟨g, hg⟩ := call_sched I.gr ((I.pjob t n hlt hj).2.2 hb)
      simp [hj, call, hg, Out.bind] at hno
    | drain j =>
      have hp : (s.q j).pending ≠ 0 := by
        have h1 := waitingFor_begin (s := s) hlt hb j
        have h2 := I.pend j
        rw [if_pos hj] at h1
        omega
      simp [hj, serial, SerialQueue.step, hp, Out.bind] at hno
  | true =>
    have hph := I.ph i t hi ht hb
    have hfin : isOver s i = true → False := by
      intro ho
      have hno := r.no hC h (a := .finish i) rfl
      simp [step, ho, ThreadPool.step, hi, ht] at hno
    cases hp : s.phase i with
    | idle => exact hph hp
    | node n =>
      refine hfin ?_
      simp only [isOver, hp]
      simpa using r.not_running n
    | over => exact hfin (by simp [isOver, hp])
    | drain j =>
      have hno := r.no hC h (a := .serve i 0) rfl
      obtain ⟨pc, hj⟩ := I.one_job hp
      obtain ⟨q, hq⟩ := advance_some (I.qr j) hj
      simp only [step, hp, serve, hj] at hno
      cases pc with
      | begin => simp [serial, hq] at hno
      | loop ts =>
        cases ts with
        | nil => simp [serial, hq, Out.bind] at hno
        | cons u ts =>
          have J := (I.qr j).inv.order
          rw [hj] at J
          simp only [SerialQueue.localTasks] at J
          have hun : u < (s.q j).next := by
            have : u ∈ List.range (s.q j).next := by rw [← J]; simp
            simpa using this
          have hns : SerialQueue.Event.start u ∉ (s.q j).trace := by
            intro hs
            have h1 : u ∈ SerialQueue.started (s.q j).trace := List.mem_filterMap.2 ⟨_, hs, rfl⟩
            have h2 : (SerialQueue.started (s.q j).trace ++ u :: ts ++ (s.q j).queue).Nodup := by rw [J]; exact List.nodup_range
            rw [List.append_assoc] at h2
            exact (List.nodup_append.1 h2).2.2 u h1 u (by simp) rfl
          obtain ⟨g, hg⟩ := call_sched I.gr ((I.qjob j u hun).2.2 hns)
          simp [serial, hq, Out.bind, call, hg] at hno
      | calling u ts =>
        simp [r.not_running, serial, hq] at hno
      | resubmit =>
        simp [serial, hq, Out.bind, submit, ThreadPool.step] at hno

/-- At rest every task of the pool was executed. -/
theorem AtRest.pool (hC : C.Ok) (h : Reachable C s) (r : AtRest C s) {t : Nat} (ht : t < s.p.next) :
    ThreadPool.Event.finish t ∈ s.p.trace := by
  have I := h.inv hC
  have PI := I.pr.inv hC.N
  have hsub : ThreadPool.Event.submit t ∈ s.p.trace := by
    refine ThreadPool.submit_of_pos ?_
    have := PI.counts.submit t
    rw [if_pos ht] at this
    omega
  by_cases hs : ∀ i, ThreadPool.Event.start i t ∉ s.p.trace
  · exfalso
    rcases ThreadPool.c26_never_stuck hC.N I.pr I.nj hsub hs with ⟨j, p, hp | hp⟩ | ⟨k, hk, a, p, ha, hp⟩
    · exact r (.pool (.tryPush j true)) { s with p := p } rfl (by simp [step, within, hp])
    · exact r (.pool (.push j)) { s with p := p } rfl (by simp [step, within, hp])
    · rcases ha with ha | rfl
      · cases a <;> simp only [ThreadPool.Own] at ha
        case notify i => exact r (.pool (.notify i)) { s with p := p } rfl (by simp [step, within, hp])
        case tryPop i l => exact r (.pool (.tryPop i l)) { s with p := p } rfl (by simp [step, within, hp])
        case enter i => exact r (.pool (.enter i)) { s with p := p } rfl (by simp [step, within, hp])
        case resume i => exact r (.pool (.resume i)) { s with p := p } rfl (by simp [step, within, hp])
      · simp only [ThreadPool.step] at hp
        split at hp
        · rename_i hkn
          split at hp
          · rename_i u hu
            exact r.not_calling hC h hkn u hu
          · cases hp
        · cases hp
  · simp only [Classical.not_forall, Decidable.not_not] at hs
    obtain ⟨i, hi⟩ := hs
    have h1 := ThreadPool.start_of_mem hi
    have h2 := PI.counts.call t
    have h3 : ThreadPool.sumTo s.p.nth (fun i => ThreadPool.calls t (s.p.th i)) = 0 := by
      refine ThreadPool.sumTo_zero fun k hk => ?_
      simp [ThreadPool.calls, r.not_calling hC h hk t]
    obtain ⟨e, he, hp⟩ := List.countP_pos_iff.1 (show 0 < s.p.trace.countP (ThreadPool.isFinish t) by omega)
    cases e <;> simp [ThreadPool.isFinish] at hp
    subst hp
    exact he

/-- At rest every task of every serial queue was executed. -/
theorem AtRest.serial (hC : C.Ok) (h : Reachable C s) (r : AtRest C s) (j : Nat) :
    (s.q j).kicks = 0 ∧ (s.q j).pending = 0 ∧ (s.q j).jobs = [] := by
  have I := h.inv hC
  refine ⟨?_, ?_, ?_⟩
  · refine Classical.byContradiction fun hk => ?_
    have hno := r.no hC h (a := .kick j 0) rfl
    simp [step, Layers.serial, SerialQueue.step, hk, Out.bind, submit, ThreadPool.step] at hno
  · rw [I.pend j]
    simp only [waitingFor, List.countP_eq_zero, List.mem_range]
    intro t ht
    simp [I.fin t (r.pool hC h ht)]
  · refine Classical.byContradiction fun hj => ?_
    obtain ⟨i, hi⟩ := I.dr' j hj
    obtain ⟨h1, t, h2, -⟩ := I.ph' i (by simp [hi])
    exact r.not_calling hC h h1 t h2

theorem AtRest.quiet (hC : C.Ok) (h : Reachable C s) (r : AtRest C s) : Graph.Quiet s.g := by
  have I := h.inv hC
  intro n
  refine ⟨?_, r.not_running n, ?_⟩
  · intro hn
    cases hg : s.given n with
    | false =>
      have hno := r.no hC h (a := .give n 0) rfl
      simp only [step, hn, hg, ne_eq, not_true_eq_false, Bool.false_eq_true, or_self, if_false] at hno
      cases he : C.exe n with
      | pool prio =>
        have := hC.prio n prio he
        simp [he, submit, ThreadPool.step, this] at hno
      | serial j => simp [he, Layers.serial, SerialQueue.step, Out.bind] at hno
      | immediate =>
        obtain ⟨g, hg⟩ := call_sched I.gr hn
        simp [he, call, hg] at hno
    | true =>
      rcases I.gave n hg hn with ⟨t, ht, -, hb⟩ | ⟨j, i, hi, -, hs⟩
      · rw [I.fin t (r.pool hC h ht)] at hb
        cases hb
      · have h1 := SerialQueue.c23_quiescent (I.qr j) (r.serial hC h j)
        have h2 := (I.qr j).inv
        have h3 : i ∈ SerialQueue.finished (s.q j).trace := by rw [h1, h2.subs]; simpa using hi
        have h4 : i ∈ SerialQueue.started (s.q j).trace := by rw [← h2.fin]; simp [h3]
        obtain ⟨e, he, hp⟩ := List.mem_filterMap.1 h4
        cases e <;> simp at hp
        subst hp
        exact hs he
  · intro m hm
    have hno := r.no hC h (a := .graph (.flatten n)) rfl
    have hu := Graph.c32_no_undefined I.gr (.flatten n)
    have hf : Graph.step s.g (.flatten n) ≠ .no := by
      simp only [Graph.step, hm]
      repeat' split
      all_goals simp
    simp only [step] at hno
    split at hno
    · exact hf ‹_›
    · exact hu ‹_›
    · cases hno

/-- **C107**: at rest nothing is left to do anywhere: no function is being called, no packaged task is with an executor, every task given to the pool
and every task given to a serial queue was executed, no thread of the pool calls a task. -/
theorem c107_at_rest (hC : C.Ok) (h : Reachable C s) (r : AtRest C s) :
    Graph.Quiet s.g ∧ (∀ t < s.p.next, .finish t ∈ s.p.trace) ∧ (∀ i < s.p.nth, ∀ t, s.p.th i ≠ .calling t) ∧
      ∀ j, SerialQueue.finished (s.q j).trace = SerialQueue.submitted (s.q j).trace :=
  ⟨r.quiet hC h, fun _ ht => r.pool hC h ht, fun _ hi t => r.not_calling hC h hi t,
    fun j => SerialQueue.c23_quiescent ((h.inv hC).qr j) (r.serial hC h j)⟩

/-- **C107**: at rest every future somebody has is resolved, provided that the program makes futures one after the other: a continuation after what it
continues, and no function returns a future made to wait for its own. -/
theorem c107_all_resolved (hC : C.Ok) (h : Reachable C s) (r : AtRest C s) (rank : Nat → Nat)
    (h1 : ∀ n k p, .created n k ∈ s.g.trace → k.parent = some p → rank p < rank n)
    (h2 : ∀ n m, .returned n (.fut m) ∈ s.g.trace → rank m < rank n) {n : Nat} (ho : Graph.Owned s.g n) : ∃ o, .resolved n o ∈ s.g.trace :=
  Graph.c34_graph_all_resolved (h.inv hC).gr (r.quiet hC h) rank h1 h2 ho

/-! ## No promise is broken -/

theorem graph_discarded {g g' : Graph.St} {a : Graph.Act} (ha : ∀ n, a ≠ .discard n) (h : Graph.step g a = .ok g') (k : Nat)
    (hk : .discarded k ∈ g'.trace) : .discarded k ∈ g.trace := by
  have hd : ∀ (g : Graph.St) n, (Graph.dropOwn g n).trace = g.trace := by
    intro g n; unfold Graph.dropOwn; split <;> rfl
  cases a <;> simp only [Graph.step] at h
  case discard n => exact absurd rfl (ha n)
  all_goals
    repeat' split at h
    all_goals cases h
    all_goals simpa [Graph.resolve, hd] using hk

theorem Reachable.discarded (h : Reachable C s) (k : Nat) : .discarded k ∉ s.g.trace := by
  have hcall : ∀ {s s' : St} {n : Nat}, .discarded k ∉ s.g.trace → call s n = .ok s' → .discarded k ∉ s'.g.trace := by
    intro s s' n ih h
    obtain ⟨g, hg, rfl⟩ := call_ok h
    exact fun hk => ih (graph_discarded (by simp) hg k hk)
  have hserial : ∀ {s s' : St} {j : Nat} {a : SerialQueue.Act}, serial C s j a = .ok s' → s'.g = s.g := by
    intro s s' j a h
    obtain ⟨q, -, rfl⟩ := serial_ok h
    rfl
  have hsubmit : ∀ {s s' : St} {i j : Nat} {b : Job}, submit C s i j b = .ok s' → s'.g = s.g := by
    intro s s' i j b h
    obtain ⟨p, -, rfl⟩ := submit_ok h
    rfl
  induction h with
  | init => simp [Layers.init]
  | @step s s' a hr h ih =>
    cases a with
    | graph a =>
      simp only [Layers.step] at h
      split at h
      · cases h
      · cases h
      · rename_i _ hd
        split at h <;> cases h
        exact fun hk => ih (graph_discarded hd ‹_› k hk)
    | give n i =>
      simp only [Layers.step] at h
      split at h
      · cases h
      · split at h
        · rw [hsubmit h]; exact ih
        · obtain ⟨s1, h1, h⟩ := bind_ok h
          cases h
          simp only [hserial h1]; exact ih
        · exact hcall ih h
    | kick j i =>
      obtain ⟨s1, h1, h⟩ := bind_ok h
      rw [hsubmit h, hserial h1]; exact ih
    | pool a =>
      simp only [Layers.step] at h
      repeat' split at h
      all_goals cases h
      all_goals exact ih
    | begin i =>
      simp only [Layers.step] at h
      split at h
      · split at h
        · split at h
          · cases h
          · split at h
            · obtain ⟨s1, h1, h⟩ := bind_ok h
              have := hcall (by exact ih) h1
              cases h
              exact this
            · obtain ⟨s1, h1, h⟩ := bind_ok h
              cases h
              simp only [hserial h1]; exact ih
        · cases h
      · cases h
    | serve i k' =>
      simp only [Layers.step] at h
      split at h
      · simp only [serve] at h
        split at h
        · obtain ⟨s1, h1, h⟩ := bind_ok h
          refine hcall ?_ h
          rw [hserial h1]; exact ih
        · split at h
          · cases h
          · rw [hserial h]; exact ih
        · obtain ⟨s1, h1, h⟩ := bind_ok h
          cases h
          split <;> simp only [hserial h1] <;> exact ih
        · obtain ⟨s1, h1, h⟩ := bind_ok h
          obtain ⟨s2, h2, h⟩ := bind_ok h
          cases h
          simp only [hsubmit h2, hserial h1]; exact ih
        · rw [hserial h]; exact ih
      · cases h
    | finish i =>
      simp only [Layers.step] at h
      repeat' split at h
      all_goals cases h
      all_goals exact ih

/-- **C107**: whatever the executors of its futures and however their threads interleave, a program gives every future the outcome of sequential
evaluation: `K` says how the futures are made, `F` what their functions return. -/
theorem c107_sequential (hC : C.Ok) (h : Reachable C s) {K : Nat → Option Graph.Kind} {F : Nat → Option Shared.Outcome → Graph.Ret}
    (hf : Graph.Follows K F s.g.trace) {n : Nat} {o : Shared.Outcome} (ho : .resolved n o ∈ s.g.trace) : ∃ f, Graph.eval K F f n = some o :=
  Graph.c94_sequential (h.inv hC).gr hf h.discarded ho

/-- **C107**: and at rest every future somebody has is resolved with that outcome. -/
theorem c107_complete (hC : C.Ok) (h : Reachable C s) (r : AtRest C s) {K : Nat → Option Graph.Kind} {F : Nat → Option Shared.Outcome → Graph.Ret}
    (hf : Graph.Follows K F s.g.trace) {f n : Nat} {o : Shared.Outcome} (he : Graph.eval K F f n = some o) (ho : Graph.Owned s.g n) :
    .resolved n o ∈ s.g.trace :=
  Graph.c94_complete (h.inv hC).gr hf h.discarded (r.quiet hC h) he ho

/-! ## Serial queues of futures -/

/-- **C107**: of the functions of futures with the same serial queue at most one is being called. -/
theorem c107_exclusive (hC : C.Ok) (h : Reachable C s) {n m j : Nat} (hn : C.exe n = .serial j) (hm : C.exe m = .serial j)
    (h1 : s.g.pc n = .running) (h2 : s.g.pc m = .running) : n = m := by
  have I := h.inv hC
  obtain ⟨t, ts, h3, h4⟩ := I.run n j h1 hn
  obtain ⟨t', ts', h5, h6⟩ := I.run m j h2 hm
  rw [h3] at h5
  cases h5
  rw [← h4, ← h6]

/-- **C107**: futures with the same serial queue are served in the order in which they became due: before one of them is touched, all earlier ones
are done: `s.node j i` is the `i`-th future given to serial queue `j`. -/
theorem c107_order (hC : C.Ok) (h : Reachable C s) {j i i' : Nat} (hi : i < i') (hi' : i' < (s.q j).next) (hs : s.g.pc (s.node j i') ≠ .sched) :
    s.g.pc (s.node j i) ≠ .sched ∧ s.g.pc (s.node j i) ≠ .running := by
  have I := h.inv hC
  have J := (I.qr j).inv
  have hs' : SerialQueue.Event.start i' ∈ (s.q j).trace := Classical.byContradiction fun hc => hs ((I.qjob j i' hi').2.2 hc)
  have hm : i' ∈ SerialQueue.started (s.q j).trace := List.mem_filterMap.2 ⟨_, hs', rfl⟩
  have hpre : SerialQueue.started (s.q j).trace = List.range (SerialQueue.started (s.q j).trace).length := by
    have h1 : SerialQueue.started (s.q j).trace <+: List.range (s.q j).next := by
      rw [← J.order, List.append_assoc]; exact List.prefix_append _ _
    rw [List.prefix_iff_eq_take] at h1
    have hl : (SerialQueue.started (s.q j).trace).length ≤ (s.q j).next := by
      have := congrArg List.length J.order
      simp only [List.length_append, List.length_range] at this
      omega
    rw [h1]
    simp only [List.length_range, List.take_range]
  have hlen : i' < (SerialQueue.started (s.q j).trace).length := by rw [hpre] at hm; simpa using hm
  constructor
  · intro hc
    obtain ⟨hgv, hex, -⟩ := I.qjob j i (by omega)
    rcases I.gave _ hgv hc with ⟨t, ht, hjt, -⟩ | ⟨k, u, hu, hnu, hnot⟩
    · obtain ⟨p, hp⟩ := (I.pjob t _ ht hjt).2.1
      rw [hex] at hp
      cases hp
    · have h1 := (I.qjob k u hu).2.1
      rw [hnu, hex] at h1
      cases h1
      have h2 := I.qinj j u i hu (by omega) hnu
      subst h2
      have h3 : u ∈ SerialQueue.started (s.q j).trace := by rw [hpre]; simp; omega
      obtain ⟨e, he, hp⟩ := List.mem_filterMap.1 h3
      cases e <;> simp at hp
      subst hp
      exact hnot he
  · intro hc
    obtain ⟨t, ts, h1, h2⟩ := I.run _ j hc (I.qjob j i (by omega)).2.1
    have hf := J.fin
    rw [h1] at hf
    simp only [SerialQueue.current, Option.toList] at hf
    have htl : t < (s.q j).next := by
      have : t ∈ SerialQueue.started (s.q j).trace := by rw [← hf]; simp
      have h2 : t ∈ List.range (s.q j).next := by rw [← J.order]; simp [this]
      simpa using h2
    have hti := I.qinj j t i htl (by omega) h2
    subst hti
    have hlast := congrArg List.getLast? hf
    rw [hpre] at hlast
    simp only [List.getLast?_append, List.getLast?_singleton, Option.some_or, List.getLast?_range] at hlast
    split at hlast
    · cases hlast
    · simp only [Option.some.injEq] at hlast
      omega

/-! ## An execution -/

/-- Two workers and a serial queue. Futures 0 and 4 run on the pool, 1 and 2 on the serial queue, 3 on `immediate_executor`. -/
def cfg : Cfg :=
  { N := 2, limit := 4, M := 1, mode := fun _ => .single,
    exe := fun n => if n = 0 ∨ n = 4 then .pool 1 else if n = 1 ∨ n = 2 then .serial 0 else .immediate }

theorem cfg_ok : cfg.Ok := by
  refine ⟨by decide, ?_, ?_⟩ <;> intro n p h <;> simp only [cfg] at h ⊢
  all_goals
    repeat' split at h
    all_goals cases h
    all_goals omega

/-- `f0 = async(default_executor, ...)`, `f1 = f0.then(q.executor(), ...)`, `f2 = f0.then(q.executor(), ...)`,
`f3 = f2.recover(immediate_executor, ...)`; future 0 is resolved, 1 and 2 go to the serial queue, and the function of 1 is being called. -/
def first : List Act :=
  [.graph (.async 0 0), .graph (.attach 0 1 1 true false), .graph (.attach 0 2 2 true false), .graph (.attach 2 3 3 false false),
   .give 0 0, .pool (.tryPush 0 true), .pool (.tryPop 0 true), .begin 0, .pool (.tryPop 1 true), .pool (.tryPop 1 true), .pool (.enter 1),
   .pool (.notify 0), .graph (.retVal 0 5), .give 1 0, .give 2 0, .kick 0 1, .finish 0, .pool (.tryPush 0 true), .pool (.tryPop 0 true),
   .pool (.tryPop 0 true), .begin 0, .serve 0 0, .serve 0 0]

/-- It returns, the job of the serial queue makes another one, which calls the function of 2; this throws. -/
def second : List Act :=
  [.pool (.notify 1), .pool (.resume 1), .graph (.retVal 1 6), .serve 0 0, .serve 0 0, .serve 0 0, .finish 0, .pool (.tryPush 0 true),
   .pool (.tryPop 0 true), .begin 0, .serve 0 0, .serve 0 0]

def third : List Act :=
  [.pool (.notify 0), .graph (.retThrow 2 7), .give 3 0, .serve 0 0, .serve 0 0, .finish 0, .pool (.tryPop 0 true), .pool (.tryPop 0 true),
   .pool (.enter 0), .graph (.retVal 3 8)]

def Out.test (f : St → Bool) : Out → Bool
  | .ok s => f s
  | _ => false

theorem test_ok {o : Out} {f : St → Bool} (h : o.test f = true) : ∃ s, o = .ok s ∧ f s = true := by
  cases o with
  | ok s => exact ⟨s, rfl, h⟩
  | _ => cases h

/-- The hypotheses of `c107_exclusive`: a function of the serial queue is being called while the next one waits. -/
example : ∃ s, Reachable cfg s ∧ s.g.pc 1 = .running ∧ s.g.pc 2 = .sched ∧ (s.q 0).next = 2 := by
  obtain ⟨s, h, hf⟩ := test_ok (o := exec cfg (init cfg) first)
    (f := fun s => decide (s.g.pc 1 = .running ∧ s.g.pc 2 = .sched ∧ (s.q 0).next = 2)) (by decide)
  exact ⟨s, exec_reachable .init h, by simpa using hf⟩

/-- The hypotheses of `c107_order`, whose conclusion is that the function of 1 is done. -/
example : ∃ s, Reachable cfg s ∧ s.node 0 0 = 1 ∧ s.node 0 1 = 2 ∧ (s.q 0).next = 2 ∧ s.g.pc 2 = .running := by
  obtain ⟨s, h, hf⟩ := test_ok (o := exec cfg (init cfg) (first ++ second))
    (f := fun s => decide (s.node 0 0 = 1 ∧ s.node 0 1 = 2 ∧ (s.q 0).next = 2 ∧ s.g.pc 2 = .running)) (by decide)
  exact ⟨s, exec_reachable .init h, by simpa using hf⟩

/-- A state at rest: all futures are resolved and somebody has them. -/
example : ∃ s, Reachable cfg s ∧ AtRest cfg s ∧ s.g.fut 3 = some 3 ∧ s.g.out 1 = some (.val 6) ∧ s.g.out 2 = some (.exc (.user 7)) ∧
    s.g.out 3 = some (.val 8) := by
  obtain ⟨s, h, hf⟩ := test_ok (o := exec cfg (init cfg) (first ++ second ++ third))
    (f := fun s => decide (weight cfg s = 0 ∧ s.g.fut 3 = some 3 ∧ s.g.out 1 = some (.val 6) ∧ s.g.out 2 = some (.exc (.user 7)) ∧
      s.g.out 3 = some (.val 8))) (by decide)
  have hr := exec_reachable .init h
  have hf := of_decide_eq_true hf
  refine ⟨s, hr, fun a s' ha e => ?_, hf.2⟩
  have := weight_less cfg_ok hr ha e
  omega

end Verif.Layers
