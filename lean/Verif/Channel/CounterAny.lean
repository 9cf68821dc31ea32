import Verif.Channel.Counter

/-!
# Every buffer size other than 1 allows any number of threads in one process

The witnesses of `Counter.lean` are single runs for the buffer sizes 0 and 2. Here the same is shown for every buffer size
other than 1, and without a bound: any number of threads may execute the function of one process at the same time, and any
number of results may wait in a queue of size 2.
-/

namespace Verif.Channel

/-- A state of `pipe b` in which all receivers are ready, nothing is closed, and process 0 is running: the queues, suspend
counts, threads and `_process_running` of process 1. -/
structure Core (b : Nat) (s : St) (l0 l1 : List Msg) (u0 u1 : Nat) (n1 : Bool) (pc : Nat → Pc) (next : Nat) : Prop where
  reach : CleanReachable (pipe b) s
  r0 : s.rcv 0 = 0
  r1 : s.rcv 1 = 0
  f0 : s.final 0 = false
  f1 : s.final 1 = false
  c0 : s.closeQ 0 = false
  c1 : s.closeQ 1 = false
  u0 : s.susp 0 = u0
  u1 : s.susp 1 = u1
  q0 : s.q 0 0 = l0
  q1 : s.q 1 0 = l1
  n0 : s.running 0 = true
  n1 : s.running 1 = n1
  d0 : s.down 0 = [(1, 0)]
  d1 : s.down 1 = []
  own : SOwner.ext 0 ∈ s.sown 0
  pc : s.pc = pc
  next : s.next = next

variable {b : Nat} {s : St} {l0 l1 : List Msg} {u0 u1 : Nat} {n1 : Bool} {pc : Nat → Pc} {next j v : Nat}

theorem upd_same {α : Type} (f : Nat → α) (j : Nat) (x : α) : upd f j x j = x := by simp [upd]

theorem isEmpty_pipe (b : Nat) (s : St) (i : Nat) : isEmpty (pipe b) s i = decide (s.q i 0 = []) := by
  simp [isEmpty, pipe, emptyQ]

set_option linter.unusedSimpArgs false

/-- One step of thread `j`, computed. -/
macro "one" h:ident "," j:ident "," hp:term : tactic => `(tactic| (
  refine ⟨_, .step (a := .job $j) ($h).reach trivial
    (by simp only [step, stepJob, (congrFun ($h).pc $j).trans $hp]; rfl), ?_, ?_, ?_, ?_, ?_, ?_, ?_, ?_, ?_, ?_, ?_, ?_, ?_, ?_, ?_, ?_, ?_⟩ <;>
  simp [goto, upd, enqueue, run, ctsCrit, popCrit, popQ, isEmpty_pipe, ($h).r0, ($h).r1, ($h).f0, ($h).f1, ($h).c0, ($h).c1, ($h).u0,
    ($h).u1, ($h).q0, ($h).q1, ($h).n0, ($h).n1, ($h).d0, ($h).d1, ($h).own, ($h).pc, ($h).next, *]))

theorem core_send (h : Core b s l0 l1 u0 u1 n1 pc next) (v : Nat) :
    ∃ s', Core b s' (l0 ++ [.val v]) l1 u0 u1 n1 pc next := by
  refine ⟨_, .step (a := .send 0 0 (.val v)) h.reach trivial (by simp only [step, h.own, if_true]; rfl), ?_, ?_, ?_, ?_, ?_, ?_, ?_, ?_, ?_, ?_, ?_, ?_, ?_, ?_, ?_, ?_, ?_⟩ <;>
  simp [upd, enqueue, h.r0, h.r1, h.f0, h.f1, h.c0, h.c1, h.u0, h.u1, h.q0, h.q1, h.n0, h.n1, h.d0, h.d1, h.own, h.pc, h.next]

theorem core_ret (h : Core b s l0 l1 u0 u1 n1 pc next) {i : Nat} (hp : pc j = .busy i) (v : Nat) :
    ∃ s', Core b s' l0 l1 u0 u1 n1 (upd pc j (.bcast i (.val v))) next := by
  refine ⟨_, .step (a := .ret j (.val v)) h.reach trivial (by simp only [step, h.pc, hp]; rfl), ?_, ?_, ?_, ?_, ?_, ?_, ?_, ?_, ?_, ?_, ?_, ?_, ?_, ?_, ?_, ?_, ?_⟩ <;>
  simp [upd, goto, h.r0, h.r1, h.f0, h.f1, h.c0, h.c1, h.u0, h.u1, h.q0, h.q1, h.n0, h.n1, h.d0, h.d1, h.own, h.pc, h.next]

theorem core_bcast0 (h : Core b s l0 l1 u0 u1 n1 pc next) {r : Msg} (hp : pc j = .bcast 0 r) :
    ∃ s', Core b s' l0 l1 u0 u1 n1 (upd pc j (.free 0 r [(1, 0)] sizeMax)) next := by
  one h, j, hp

theorem core_free0 (h : Core b s l0 l1 u0 u1 n1 pc next) {r : Msg} {a : Nat} (hp : pc j = .free 0 r [(1, 0)] a) :
    ∃ s', Core b s' l0 l1 u0 u1 n1 (upd pc j (.free 0 r [] (min a (freeBuffer b l1.length)))) next := by
  one h, j, hp
  simp [pipe]

theorem core_freeEnd (h : Core b s l0 l1 u0 u1 n1 pc next) {r : Msg} {a : Nat} (hp : pc j = .free 0 r [] a) (ha : 1 < a) :
    ∃ s', Core b s' l0 l1 u0 u1 n1 (upd pc j (.susp 0 r false)) next := by
  have ha : ¬ a ≤ 1 := by omega
  one h, j, hp

theorem core_susp0 (h : Core b s l0 l1 u0 u1 n1 pc next) {r : Msg} (hp : pc j = .susp 0 r false) :
    ∃ s', Core b s' l0 l1 1 u1 n1 (upd pc j (.send 0 r [(1, 0)])) next := by
  one h, j, hp

theorem core_send0 (h : Core b s l0 l1 u0 u1 false pc next) {r : Msg} (hp : pc j = .send 0 r [(1, 0)]) :
    ∃ s', Core b s' l0 (l1 ++ [r]) u0 u1 true (upd (upd pc next (.pop 1)) j (.send 0 r [])) (next + 1) := by
  one h, j, hp

theorem core_send0' (h : Core b s l0 l1 u0 u1 true pc next) {r : Msg} (hp : pc j = .send 0 r [(1, 0)]) :
    ∃ s', Core b s' l0 (l1 ++ [r]) u0 u1 true (upd pc j (.send 0 r [])) next := by
  one h, j, hp

theorem core_sendEnd (h : Core b s l0 l1 u0 u1 n1 pc next) {i : Nat} {r : Msg} (hp : pc j = .send i r []) :
    ∃ s', Core b s' l0 l1 u0 u1 n1 (upd pc j (.own1 i)) next := by
  one h, j, hp

theorem core_own1 (h : Core b s l0 l1 u0 u1 n1 pc next) {i : Nat} (hi : i < 2) (hp : pc j = .own1 i) :
    ∃ s', Core b s' l0 l1 u0 u1 n1 (upd pc j (.own2 i)) next := by
  have : s.final i = false := by
    rcases (by omega : i = 0 ∨ i = 1) with rfl | rfl
    · exact h.f0
    · exact h.f1
  one h, j, hp

theorem core_own2 (h : Core b s l0 l1 1 u1 n1 pc next) (hl : l0 ≠ []) (hp : pc j = .own2 0) :
    ∃ s', Core b s' l0 l1 0 u1 n1 (upd (upd pc next (.pop 0)) j .none) (next + 1) := by
  one h, j, hp

theorem core_pop0 (h : Core b s (.val v :: l0) l1 u0 u1 n1 pc next) (hp : pc j = .pop 0) :
    ∃ s', Core b s' l0 l1 u0 u1 n1 (upd pc j (.cts1 0 [] (some [(0, .val v)]))) next := by
  have he : isEmpty (pipe b) s 0 = false := by simp [isEmpty_pipe, h.q0]
  have hc : ctsSlots ((pipe b).strat 0) ((pipe b).slots 0) ((pipe b).buf 0) [0] ((pipe b).up 0) (popQ [0] (s.q 0)) = [] := by
    simp [ctsSlots, pipe]
  have hm : popMsg [0] (s.q 0) = [(0, .val v)] := by simp [popMsg, h.q0]
  have hk : popSlots ((pipe b).strat 0) ((pipe b).slots 0) (s.idx 0) (s.q 0) = [0] := rfl
  one h, j, hp

theorem core_pop1 (h : Core b s l0 [.val v] u0 u1 n1 pc next) (hp : pc j = .pop 1) :
    ∃ s', Core b s' l0 [] u0 u1 n1 (upd pc j (.cts1 1 [0] (some [(0, .val v)]))) next := by
  have he : isEmpty (pipe b) s 1 = false := by simp [isEmpty_pipe, h.q1]
  have hc : ctsSlots ((pipe b).strat 1) ((pipe b).slots 1) ((pipe b).buf 1) [0] ((pipe b).up 1) (popQ [0] (s.q 1)) = [0] := by
    simp [ctsSlots, pipe, popQ, h.q1]
  have hm : popMsg [0] (s.q 1) = [(0, .val v)] := by simp [popMsg, h.q1]
  have hk : popSlots ((pipe b).strat 1) ((pipe b).slots 1) (s.idx 1) (s.q 1) = [0] := rfl
  one h, j, hp

theorem core_up (h : Core b s l0 l1 u0 u1 n1 pc next) {m : Option Args} (hp : pc j = .cts1 1 [0] m) :
    ∃ s', Core b s' l0 l1 u0 u1 n1 (upd pc j (.cts2 1 [0] m)) next := by
  have hu : (pipe b).up 1 0 = some 0 := rfl
  one h, j, hp

/-- `clear_to_send` though the process is not suspended. -/
theorem core_clear (h : Core b s l0 l1 0 u1 n1 pc next) (hl : l0 ≠ []) {m : Option Args} (hp : pc j = .cts2 1 [0] m) :
    ∃ s', Core b s' l0 l1 0 u1 n1 (upd (upd pc next (.pop 0)) j (.cts1 1 [] m)) (next + 1) := by
  one h, j, hp

theorem core_enter (h : Core b s l0 l1 u0 u1 n1 pc next) {i : Nat} (hp : pc j = .cts1 i [] (some [(0, .val v)])) :
    ∃ s', Core b s' l0 l1 u0 u1 n1 (upd pc j (.call i [(0, .val v)])) next := by
  one h, j, hp

theorem core_call (h : Core b s l0 l1 u0 u1 n1 pc next) {i : Nat} {m : Args} (hp : pc j = .call i m) :
    ∃ s', Core b s' l0 l1 u0 u1 n1 (upd pc j (.busy i)) next := by
  one h, j, hp

theorem core_bcast1 (h : Core b s l0 l1 u0 u1 n1 pc next) {r : Msg} (hp : pc j = .bcast 1 r) :
    ∃ s', Core b s' l0 l1 u0 u1 n1 (upd pc j (.susp 1 r true)) next := by
  one h, j, hp

theorem core_susp1 (h : Core b s l0 l1 u0 u1 n1 pc next) {r : Msg} (hp : pc j = .susp 1 r true) :
    ∃ s', Core b s' l0 l1 u0 1 n1 (upd pc j (.send 1 r [])) next := by
  one h, j, hp

theorem core_rest1 (h : Core b s l0 [] u0 1 n1 pc next) (hp : pc j = .own2 1) :
    ∃ s', Core b s' l0 [] u0 0 false (upd pc j .none) next := by
  one h, j, hp

theorem Core.cast {pc' : Nat → Pc} (h : Core b s l0 l1 u0 u1 n1 pc next) (e : ∀ i, pc i = pc' i) :
    Core b s l0 l1 u0 u1 n1 pc' next := (funext e : pc = pc') ▸ h

/-- A thread given to the executor comes to the function of process 0. -/
theorem core_begin (h : Core b s (.val v :: l0) l1 u0 u1 n1 pc next) (hp : pc j = .pop 0) :
    ∃ s', Core b s' l0 l1 u0 u1 n1 (upd pc j (.busy 0)) next := by
  obtain ⟨s, h⟩ := core_pop0 h hp
  obtain ⟨s, h⟩ := core_enter h (upd_same ..)
  obtain ⟨s, h⟩ := core_call h (upd_same ..)
  exact ⟨s, h.cast (by grind [upd])⟩

/-- The function returns; a result can be sent without waiting, as the buffer is empty. -/
theorem core_decide (hb : b ≠ 1) (h : Core b s l0 [] u0 u1 n1 pc next) (hp : pc j = .busy 0) (v : Nat) :
    ∃ s', Core b s' l0 [] u0 u1 n1 (upd pc j (.susp 0 (.val v) false)) next := by
  have hf : 1 < min sizeMax (freeBuffer b ([] : List Msg).length) := by
    simp only [freeBuffer, usub, sizeMax, List.length_nil]
    grind
  obtain ⟨s, h⟩ := core_ret h hp v
  obtain ⟨s, h⟩ := core_bcast0 h (upd_same ..)
  obtain ⟨s, h⟩ := core_free0 h (upd_same ..)
  obtain ⟨s, h⟩ := core_freeEnd h (upd_same ..) hf
  exact ⟨s, h.cast (by grind [upd])⟩

/-- The function returns and the result is sent to the idle process 1; both processes go on. -/
theorem core_finish (hb : b ≠ 1) (h : Core b s l0 [] u0 u1 false pc next) (hl : l0 ≠ [])
    (hp : pc j = .busy 0) (v : Nat) :
    ∃ s', Core b s' l0 [.val v] 0 u1 true (upd (upd (upd pc next (.pop 1)) (next + 1) (.pop 0)) j .none) (next + 2) := by
  obtain ⟨s, h⟩ := core_decide hb h hp v
  obtain ⟨s, h⟩ := core_susp0 h (upd_same ..)
  obtain ⟨s, h⟩ := core_send0 h (upd_same ..)
  obtain ⟨s, h⟩ := core_sendEnd h (upd_same ..)
  obtain ⟨s, h⟩ := core_own1 h (by decide) (upd_same ..)
  obtain ⟨s, h⟩ := core_own2 h hl (upd_same ..)
  exact ⟨s, h.cast (by grind [upd])⟩

/-- Process 1 takes its message, and makes process 0 start one more thread. -/
theorem core_down (h : Core b s l0 [.val v] 0 u1 n1 pc next) (hl : l0 ≠ []) (hp : pc j = .pop 1) :
    ∃ s', Core b s' l0 [] 0 u1 n1 (upd (upd pc next (.pop 0)) j (.busy 1)) (next + 1) := by
  obtain ⟨s, h⟩ := core_pop1 h hp
  obtain ⟨s, h⟩ := core_up h (upd_same ..)
  obtain ⟨s, h⟩ := core_clear h hl (upd_same ..)
  obtain ⟨s, h⟩ := core_enter h (upd_same ..)
  obtain ⟨s, h⟩ := core_call h (upd_same ..)
  exact ⟨s, h.cast (by grind [upd])⟩

/-- The function of process 1 returns, and process 1 is idle again. -/
theorem core_last (h : Core b s l0 [] u0 u1 n1 pc next) (hp : pc j = .busy 1) :
    ∃ s', Core b s' l0 [] u0 0 false (upd pc j .none) next := by
  obtain ⟨s, h⟩ := core_ret h hp 0
  obtain ⟨s, h⟩ := core_bcast1 h (upd_same ..)
  obtain ⟨s, h⟩ := core_susp1 h (upd_same ..)
  obtain ⟨s, h⟩ := core_sendEnd h (upd_same ..)
  obtain ⟨s, h⟩ := core_own1 h (by decide) (upd_same ..)
  obtain ⟨s, h⟩ := core_rest1 h (upd_same ..)
  exact ⟨s, h.cast (by grind [upd])⟩

/-- All of `ts` are in the function of process 0, and process 1 is idle. -/
def Many (b : Nat) (ts : List Nat) (s : St) : Prop :=
  ∃ u0 u1 pc next, Core b s [] [] u0 u1 false pc next ∧ ts.Nodup ∧ ∀ j ∈ ts, pc j = .busy 0 ∧ j < next

/-- One thread ends and two others begin. -/
theorem many_more (hb : b ≠ 1) {ts : List Nat} (h : Many b (j :: ts) s) : ∃ s' x y, Many b (x :: y :: ts) s' := by
  obtain ⟨u0, u1, pc, next, h, hn, ht⟩ := h
  obtain ⟨hj, hjn⟩ := ht j (by simp)
  obtain ⟨s, h⟩ := core_send h 0
  obtain ⟨s, h⟩ := core_send h 0
  obtain ⟨s, h⟩ := core_finish hb h (by simp) hj 0
  obtain ⟨s, h⟩ := core_begin (j := next + 1) h (by grind [upd])
  obtain ⟨s, h⟩ := core_down (j := next) h (by simp) (by grind [upd])
  obtain ⟨s, h⟩ := core_begin (j := next + 2) h (by grind [upd])
  obtain ⟨s, h⟩ := core_last (j := next) h (by grind [upd])
  refine ⟨s, next + 1, next + 2, _, _, _, _, h, ?_, ?_⟩
  · simp only [List.nodup_cons, List.mem_cons] at hn ⊢
    refine ⟨?_, ?_, hn.2⟩
    · rintro (e | e)
      · omega
      · have := (ht _ (List.mem_cons_of_mem _ e)).2; omega
    · intro e
      have := (ht _ (List.mem_cons_of_mem _ e)).2; omega
  · intro x hx
    simp only [List.nodup_cons, List.mem_cons] at hn hx
    rcases hx with rfl | rfl | hx
    · grind [upd]
    · grind [upd]
    · have := ht x (List.mem_cons_of_mem _ hx)
      have : x ≠ j := by rintro rfl; exact hn.1 hx
      grind [upd]

/-- The receivers are ready and one message was sent. -/
theorem many_one (b : Nat) : ∃ s, Many b [2] s := by
  obtain ⟨s, hr, h⟩ := clean_witness (G := pipe b) (as := ready2 ++ [.send 0 0 (.val 0)] ++ go 2 3)
    (fun s => s.rcv 0 = 0 ∧ s.rcv 1 = 0 ∧ s.final 0 = false ∧ s.final 1 = false ∧ s.closeQ 0 = false ∧ s.closeQ 1 = false ∧
      s.q 0 0 = [] ∧ s.q 1 0 = [] ∧ s.running 0 = true ∧ s.running 1 = false ∧ s.down 0 = [(1, 0)] ∧ s.down 1 = [] ∧
      SOwner.ext 0 ∈ s.sown 0 ∧ s.pc 2 = .busy 0 ∧ s.next = 3) (by decide) rfl
  simp only [decide_eq_true_eq] at h
  obtain ⟨r0, r1, f0, f1, c0, c1, q0, q1, n0, n1, d0, d1, ho, hp, hx⟩ := h
  refine ⟨s, _, _, _, _, ⟨hr, r0, r1, f0, f1, c0, c1, rfl, rfl, q0, q1, n0, n1, d0, d1, ho, rfl, rfl⟩, by simp, ?_⟩
  intro j hj
  obtain rfl := List.mem_singleton.1 hj
  exact ⟨hp, by omega⟩

theorem many_exists (hb : b ≠ 1) (n : Nat) : ∃ ts s, Many b ts s ∧ ts.length = n + 1 := by
  induction n with
  | zero => obtain ⟨s, h⟩ := many_one b; exact ⟨_, s, h, rfl⟩
  | succ n ih =>
    obtain ⟨ts, s, h, hl⟩ := ih
    match ts, hl with
    | j :: ts, hl =>
      obtain ⟨s, x, y, h⟩ := many_more hb h
      exact ⟨_, s, h, by simpa using hl⟩

/-- C40 fails for every buffer size other than 1: any number of threads may be in the function of process 0 at the same
time. -/
theorem c40_any_number_counterexample (hb : b ≠ 1) (n : Nat) :
    ∃ (s : St) (ts : List Nat), CleanReachable (pipe b) s ∧ ts.length = n ∧ ts.Nodup ∧ ∀ j ∈ ts, s.pc j = .busy 0 := by
  obtain ⟨ts, s, ⟨u0, u1, pc, next, h, hn, ht⟩, hl⟩ := many_exists hb n
  refine ⟨s, ts.tail, h.reach, by simp [hl], hn.sublist (List.tail_sublist _), fun j hj => ?_⟩
  rw [h.pc]
  exact (ht j (List.mem_of_mem_tail hj)).1

/-- All threads decide to send without waiting while the queue of process 1 is still empty. -/
theorem all_decide (hb : b ≠ 1) : ∀ (ts : List Nat) {s : St} {pc : Nat → Pc}, Core b s l0 [] u0 u1 n1 pc next → ts.Nodup →
    (∀ j ∈ ts, pc j = .busy 0) →
    ∃ s' pc', Core b s' l0 [] u0 u1 n1 pc' next ∧ (∀ j ∈ ts, pc' j = .susp 0 (.val 0) false) ∧ ∀ j, j ∉ ts → pc' j = pc j
  | [], s, pc, h, _, _ => ⟨s, pc, h, by simp, by simp⟩
  | j :: ts, s, pc, h, hn, ht => by
    simp only [List.nodup_cons] at hn
    obtain ⟨s, h⟩ := core_decide hb h (ht j (by simp)) 0
    obtain ⟨s, pc', h, h1, h2⟩ := all_decide hb ts h hn.2 (fun x hx => by
      have : x ≠ j := by rintro rfl; exact hn.1 hx
      have := ht x (by simp [hx])
      grind [upd])
    refine ⟨s, pc', h, ?_, ?_⟩
    · intro x hx
      rcases List.mem_cons.1 hx with rfl | hx
      · rw [h2 _ hn.1, upd_same]
      · exact h1 x hx
    · intro x hx
      simp only [List.mem_cons, not_or] at hx
      rw [h2 x hx.2]
      simp [upd, hx.1]

/-- All of them send. -/
theorem all_send : ∀ (ts : List Nat) {s : St} {pc : Nat → Pc} {l1 : List Msg} {n1 : Bool} {next u0 : Nat},
    Core b s l0 l1 u0 u1 n1 pc next → ts.Nodup → (∀ j ∈ ts, pc j = .susp 0 (.val 0) false ∧ j < next) →
    ∃ s' u0' n1' pc' next', Core b s' l0 (l1 ++ List.replicate ts.length (.val 0)) u0' u1 n1' pc' next'
  | [], s, pc, l1, n1, next, u0, h, _, _ => ⟨s, _, _, _, _, by simpa using h⟩
  | j :: ts, s, pc, l1, n1, next, u0, h, hn, ht => by
    simp only [List.nodup_cons] at hn
    have hj := ht j (by simp)
    obtain ⟨s, h⟩ := core_susp0 h hj.1
    have : ∃ s' n1' next' pc', Core b s' l0 (l1 ++ [.val 0]) 1 u1 n1' pc' next' ∧
        (∀ x ∈ ts, pc' x = .susp 0 (.val 0) false ∧ x < next') := by
      cases n1 with
      | false =>
        obtain ⟨s, h⟩ := core_send0 h (upd_same ..)
        refine ⟨s, _, _, _, h, fun x hx => ?_⟩
        have : x ≠ j := by rintro rfl; exact hn.1 hx
        have := ht x (by simp [hx])
        grind [upd]
      | true =>
        obtain ⟨s, h⟩ := core_send0' h (upd_same ..)
        refine ⟨s, _, _, _, h, fun x hx => ?_⟩
        have : x ≠ j := by rintro rfl; exact hn.1 hx
        have := ht x (by simp [hx])
        grind [upd]
    obtain ⟨s, n1', next', pc', h, ht'⟩ := this
    obtain ⟨s, u0', n1', pc', next', h⟩ := all_send ts h hn.2 ht'
    exact ⟨s, u0', n1', pc', next', by simpa [List.replicate_succ] using h⟩

/-- C41 fails for every buffer size other than 1: any number of results may wait in the queue of process 1. -/
theorem c41_any_number_counterexample (hb : 2 ≤ b) (n : Nat) :
    ∃ s, CleanReachable (pipe b) s ∧ (pipe b).buf 1 = b ∧ (s.q 1 0).length = n := by
  have hb : b ≠ 1 := by omega
  obtain ⟨ts, s, ⟨u0, u1, pc, next, h, hn, ht⟩, hl⟩ := many_exists hb n
  obtain ⟨s, pc', h, h1, h2⟩ := all_decide hb ts.tail h (hn.sublist (List.tail_sublist _))
    fun j hj => (ht j (List.mem_of_mem_tail hj)).1
  obtain ⟨s, u0', n1', pc', next', h⟩ := all_send ts.tail h (hn.sublist (List.tail_sublist _))
    fun j hj => ⟨h1 j hj, (ht j (List.mem_of_mem_tail hj)).2⟩
  exact ⟨s, h.reach, rfl, by simp [h.q1, hl]⟩

example : ∃ s, CleanReachable (pipe 5) s ∧ (pipe 5).buf 1 = 5 ∧ (s.q 1 0).length = 1000 :=
  c41_any_number_counterexample (by decide) 1000

end Verif.Channel
