/-
Futures on the executors of the library: a measure that every step of the system by itself decreases.
-/
import Verif.LayersStep

namespace Verif.Layers

open ThreadPool (sumTo sumTo_upd sumTo_congr)

variable {C : Cfg} {s s' : St}

/-! ## The pool -/

/-- No thread of the pool tries more than `N` queues, be it to push or to pop. -/
structure Bounded (N : Nat) (p : ThreadPool.St) : Prop where
  push : ∀ x ∈ p.pushing, x.n ≤ N
  scan : ∀ i n, p.th i = .scan n → n ≤ N

theorem bounded_evalPop {N : Nat} {p : ThreadPool.St} (B : Bounded N p) (i : Nat) : Bounded N (ThreadPool.evalPop p i) := by
  obtain ⟨b1, b2⟩ := B
  unfold ThreadPool.evalPop
  repeat' split
  all_goals exact ⟨b1, by intro k n h; simp only [ThreadPool.upd] at h; grind⟩

theorem bounded_evalWait {N : Nat} {p : ThreadPool.St} (B : Bounded N p) (i : Nat) : Bounded N (ThreadPool.evalWait N p i) := by
  obtain ⟨b1, b2⟩ := B
  unfold ThreadPool.evalWait
  repeat' split
  all_goals exact ⟨b1, by intro k n h; simp only [ThreadPool.upd] at h; grind⟩

theorem bounded_pushTo {N : Nat} {p : ThreadPool.St} (B : Bounded N p) (j k : Nat) (x : ThreadPool.Push) : Bounded N (ThreadPool.pushTo p j x k) :=
  ⟨fun y hy => B.push y (List.eraseIdx_subset hy), B.scan⟩

theorem bounded_step {N limit : Nat} {p p' : ThreadPool.St} (B : Bounded N p) {a : ThreadPool.Act} (h : ThreadPool.step N limit p a = some p') :
    Bounded N p' := by
  cases a with
  | enter i =>
    simp only [ThreadPool.step] at h
    repeat' split at h
    all_goals cases h
    · exact bounded_evalPop (p := { p with q := ThreadPool.upd p.q i { p.q i with waiting := true } }) ⟨B.push, B.scan⟩ i
    · exact bounded_evalWait (p := { p with wWaiting := ThreadPool.upd p.wWaiting (i - N) true }) ⟨B.push, B.scan⟩ i
  | resume i =>
    simp only [ThreadPool.step] at h
    repeat' split at h
    all_goals cases h
    · exact bounded_evalPop B i
    · exact bounded_evalWait B i
  | tryPush j l =>
    simp only [ThreadPool.step] at h
    repeat' split at h
    all_goals cases h
    · exact bounded_pushTo B _ _ _
    · rename_i x hx hn _
      refine ⟨fun y hy => ?_, B.scan⟩
      have := B.push x (List.mem_of_getElem? hx)
      rcases List.mem_or_eq_of_mem_set hy with hy | hy
      · exact B.push y hy
      · subst hy; simp only; omega
  | push j =>
    simp only [ThreadPool.step] at h
    repeat' split at h
    all_goals cases h
    exact bounded_pushTo B _ _ _
  | _ =>
    obtain ⟨b1, b2⟩ := B
    simp only [ThreadPool.step] at h
    repeat' split at h
    all_goals cases h
    all_goals
      refine ⟨?_, ?_⟩
      · grind
      · intro k n h; simp only [ThreadPool.upd] at h; grind

theorem bounded {N limit : Nat} {p : ThreadPool.St} (h : ThreadPool.Reachable N limit p) : Bounded N p := by
  obtain ⟨as, h⟩ := h
  have : ∀ (as : List ThreadPool.Act) (x : ThreadPool.St), Bounded N x → ThreadPool.exec N limit x as = some p → Bounded N p := by
    intro as
    induction as with
    | nil => intro x B h; simp only [ThreadPool.exec, Option.some.injEq] at h; exact h ▸ B
    | cons a as ih =>
      intro x B h
      simp only [ThreadPool.exec] at h
      split at h
      · cases h
      · exact ih _ (bounded_step B ‹_›) h
  refine this as _ ⟨by simp [ThreadPool.init], ?_⟩ h
  intro i n h
  simp only [ThreadPool.init, ThreadPool.Pc.scan.injEq] at h
  omega

def wpc (N : Nat) : ThreadPool.Pc → Nat
  | .scan n => N - n + 2
  | .asleep => 0
  | .awake => N + 3
  | .calling _ => N + 4
  | .exited => 0

def wpush (N : Nat) (x : ThreadPool.Push) : Nat := N - x.n + 2 * N + 10

/-- The weight of the pool. -/
def wpool (N : Nat) (p : ThreadPool.St) : Nat :=
  (p.pushing.map (wpush N)).sum + sumTo N (fun k => (p.q k).items.length * (N + 5)) + sumTo N (fun k => p.notif k * (N + 4)) +
    sumTo p.nth (fun i => wpc N (p.th i))

theorem sum_eraseIdx {α : Type} (f : α → Nat) : ∀ {l : List α} {j : Nat} {x : α}, l[j]? = some x →
    (l.map f).sum = ((l.eraseIdx j).map f).sum + f x
  | [], j, x, h => by simp at h
  | a :: l, 0, x, h => by simp at h; subst h; simp; omega
  | a :: l, j + 1, x, h => by
    simp only [List.getElem?_cons_succ] at h
    simp only [List.eraseIdx_cons_succ, List.map_cons, List.sum_cons]
    rw [sum_eraseIdx f h]; omega

theorem sum_set {α : Type} (f : α → Nat) : ∀ {l : List α} {j : Nat} {x y : α}, l[j]? = some x →
    ((l.set j y).map f).sum + f x = (l.map f).sum + f y
  | [], j, x, y, h => by simp at h
  | a :: l, 0, x, y, h => by simp at h; subst h; simp; omega
  | a :: l, j + 1, x, y, h => by
    simp only [List.getElem?_cons_succ] at h
    simp only [List.set_cons_succ, List.map_cons, List.sum_cons]
    have := sum_set f (y := y) h
    omega

theorem pop_length {q q' : NotificationQueue.NQ} {e : NotificationQueue.Elem} (h : NotificationQueue.popNotEmpty q = some (e, q')) :
    q.items.length = q'.items.length + 1 := by
  obtain ⟨hm, rfl⟩ := ThreadPool.popNotEmpty_eq h
  have := List.length_erase_of_mem hm
  have := List.length_pos_of_mem hm
  simp only
  omega

theorem wpool_pushTo {N : Nat} {p : ThreadPool.St} {j k : Nat} {x : ThreadPool.Push} (hk : k < N) (hj : p.pushing[j]? = some x) :
    wpool N (ThreadPool.pushTo p j x k) < wpool N p := by
  have h1 := sum_eraseIdx (wpush N) hj
  have h2 := sumTo_upd (fun q : NotificationQueue.NQ => q.items.length * (N + 5)) p.q (NotificationQueue.push x.task x.prio (p.q k)) k hk
  have h3 := sumTo_upd (fun c => c * (N + 4)) p.notif (p.notif k + 1) k hk
  have h4 : (NotificationQueue.push x.task x.prio (p.q k)).items.length = (p.q k).items.length + 1 := by simp [NotificationQueue.push]
  simp only [h4, Nat.add_mul, Nat.one_mul] at h2 h3
  simp only [wpool, ThreadPool.pushTo]
  simp only [wpush] at h1
  omega

theorem sumTo_th {N n : Nat} {th : Nat → ThreadPool.Pc} {i : Nat} (pc : ThreadPool.Pc) (h : i < n) :
    sumTo n (fun k => wpc N (ThreadPool.upd th i pc k)) + wpc N (th i) = sumTo n (fun k => wpc N (th k)) + wpc N pc :=
  sumTo_upd (wpc N) th pc i h

theorem sumTo_items {N : Nat} {q : Nat → NotificationQueue.NQ} {k : Nat} (v : NotificationQueue.NQ) (hk : k < N) :
    sumTo N (fun i => (ThreadPool.upd q k v i).items.length * (N + 5)) + (q k).items.length * (N + 5) =
      sumTo N (fun i => (q i).items.length * (N + 5)) + v.items.length * (N + 5) :=
  sumTo_upd (fun q : NotificationQueue.NQ => q.items.length * (N + 5)) q v k hk

/-- A worker evaluates its loop condition. -/
theorem wpool_evalPop {N : Nat} {p : ThreadPool.St} {i : Nat} (hi : i < N) (hn : N ≤ p.nth)
    (h : p.th i = .awake ∨ (p.th i = .scan N ∧ (p.q i).waiting = true ∧ (p.q i).done = false)) :
    wpool N (ThreadPool.evalPop p i) < wpool N p := by
  have h1 := fun pc => sumTo_th (N := N) (th := p.th) pc (Nat.lt_of_lt_of_le hi hn)
  have h2 := fun v => sumTo_items (q := p.q) v hi
  have hw : 1 < wpc N (p.th i) ∧ (p.th i = .awake → wpc N (p.th i) = N + 3) := by
    rcases h with h | ⟨h, -⟩ <;> simp [h, wpc]
  unfold ThreadPool.evalPop
  split
  · have := h1 .asleep
    simp only [wpool]
    simp only [wpc] at this hw ⊢
    omega
  · rename_i hc
    split
    · rename_i hp
      have hz : (p.q i).items = [] := by
        have := (NotificationQueue.c25_pop_some { p.q i with waiting := false }).1 hp
        simpa using this
      have haw : p.th i = .awake := by
        rcases h with h | ⟨-, h3, h4⟩
        · exact h
        · exact absurd ⟨hz, h4, h3⟩ hc
      have h3 := h2 { p.q i with waiting := false }
      have h4 := h1 (if (p.q i).done then .exited else .scan 0)
      have h5 : wpc N (if (p.q i).done then .exited else .scan 0) < N + 3 := by split <;> simp [wpc]
      have h6 := hw.2 haw
      simp only [wpool]
      simp only at h3
      omega
    · rename_i e q' hp
      have h3 := h2 q'
      have h4 := h1 (.calling e.task)
      have h5 := pop_length hp
      simp only at h5
      rw [h5, Nat.add_mul, Nat.one_mul] at h3
      have h6 : wpc N (.calling e.task) = N + 4 := rfl
      simp only [wpool]
      omega

theorem wpool_evalWait {N : Nat} {p : ThreadPool.St} {i : Nat} (hi : i < p.nth)
    (h : p.th i = .awake ∨ (p.th i = .scan N ∧ p.wWaiting (i - N) = true)) :
    wpool N (ThreadPool.evalWait N p i) < wpool N p := by
  have h1 := fun pc => sumTo_th (N := N) (th := p.th) pc hi
  have hw : 1 < wpc N (p.th i) := by rcases h with h | ⟨h, -⟩ <;> simp [h, wpc]
  unfold ThreadPool.evalWait
  split
  · have := h1 .asleep
    simp only [wpool]
    simp only [wpc] at this hw ⊢
    omega
  · rename_i hc
    have h4 := h1 (if p.wDone (i - N) then .exited else .scan 0)
    have h5 : wpc N (if p.wDone (i - N) then .exited else .scan 0) < wpc N (p.th i) := by
      rcases h with h | ⟨h, h3⟩
      · rw [h]; split <;> simp [wpc]
      · have : p.wDone (i - N) = true := by cases hd : p.wDone (i - N) <;> simp_all
        rw [if_pos this, h]; simp [wpc]
    simp only [wpool]
    omega

/-- The steps of the pool that are internal decrease its weight. -/
theorem wpool_less (hC : 0 < C.N) {p p' : ThreadPool.St} (hr : ThreadPool.Reachable C.N C.limit p) (hnj : .join ∉ p.trace) {a : ThreadPool.Act}
    (hi : internal (.pool a) = true) (h : ThreadPool.step C.N C.limit p a = some p') : wpool C.N p' < wpool C.N p := by
  have hn := (hr.inv hC).counts.nth
  have B := bounded hr
  have hd : ∀ k, (p.q k).done = false := by
    have S := (hr.inv hC).shut
    cases hj : p.joining with
    | false => exact (S.idle hj).1
    | true => exact absurd (S.act hj) hnj
  cases a <;> simp only [internal, Bool.false_eq_true] at hi
  case tryPush j l =>
    simp only [ThreadPool.step] at h
    repeat' split at h
    all_goals cases h
    · exact wpool_pushTo (Nat.mod_lt _ hC) ‹_›
    · rename_i x hx hxn _
      have h1 := sum_set (wpush C.N) (y := { x with n := x.n + 1 }) hx
      have h2 := B.push x (List.mem_of_getElem? hx)
      simp only [wpush] at h1
      simp only [wpool]
      omega
  case push j =>
    simp only [ThreadPool.step] at h
    repeat' split at h
    all_goals cases h
    exact wpool_pushTo (Nat.mod_lt _ hC) ‹_›
  case notify k =>
    simp only [ThreadPool.step] at h
    split at h <;> cases h
    rename_i hk
    have h3 := sumTo_upd (fun c => c * (C.N + 4)) p.notif (p.notif k - 1) k hk.1
    have h4 : p.notif k * (C.N + 4) = (p.notif k - 1) * (C.N + 4) + (C.N + 4) := by
      obtain ⟨m, hm⟩ : ∃ m, p.notif k = m + 1 := ⟨p.notif k - 1, by omega⟩
      rw [hm, Nat.add_mul]; simp
    have h1 := sumTo_th (N := C.N) (th := p.th) .awake (Nat.lt_of_lt_of_le hk.1 hn)
    by_cases ha : p.th k = .asleep
    · simp only [wpool, ha, if_true]
      simp only [ha, wpc] at h1
      simp only [wpc]
      omega
    · simp only [wpool, ha, if_false]
      omega
  case tryPop i l =>
    simp only [ThreadPool.step] at h
    split at h
    · rename_i hi
      split at h
      · rename_i n hn'
        have h1 := fun pc => sumTo_th (N := C.N) (th := p.th) pc hi
        have hb := B.scan i n hn'
        rw [hn'] at h1
        split at h
        · cases h
        · have h2 := h1 (.scan (n + 1))
          repeat' split at h
          all_goals cases h
          · simp only [wpool]; simp only [wpc] at h2 ⊢; omega
          · rename_i e q' hp
            have h3 := sumTo_items (q := p.q) q' (Nat.mod_lt (i + n) hC)
            rw [pop_length hp, Nat.add_mul, Nat.one_mul] at h3
            have h4 := h1 (.calling e.task)
            simp only [wpool]
            simp only [wpc] at h4 ⊢
            omega
          · simp only [wpool]; simp only [wpc] at h2 ⊢; omega
      · cases h
    · cases h
  case enter i =>
    simp only [ThreadPool.step] at h
    repeat' split at h
    all_goals cases h
    · rename_i h1 h2
      have h3 : wpool C.N { p with q := ThreadPool.upd p.q i { p.q i with waiting := true } } = wpool C.N p := by
        have := sumTo_items (q := p.q) { p.q i with waiting := true } h2
        simp only at this
        simp only [wpool]
        omega
      rw [← h3]
      refine wpool_evalPop h2 hn (.inr ⟨h1.2, by simp, by simp [hd]⟩)
    · rename_i h1 h2
      exact wpool_evalWait (p := { p with wWaiting := ThreadPool.upd p.wWaiting (i - C.N) true }) h1.1 (.inr ⟨h1.2, by simp⟩)
  case resume i =>
    simp only [ThreadPool.step] at h
    repeat' split at h
    all_goals cases h
    · exact wpool_evalPop ‹_› hn (.inl (by grind))
    · exact wpool_evalWait (by grind) (.inl (by grind))

/-! ## The serial queues -/

/-- What a call of `execute` adds to the weight of the pool. -/
def wsub (N : Nat) : Nat := 3 * N + 10

theorem wpool_submit {N limit : Nat} {p p' : ThreadPool.St} {prio i : Nat} (h : ThreadPool.step N limit p (.submit prio i) = some p') :
    wpool N p' = wpool N p + wsub N := by
  simp only [ThreadPool.step] at h
  split at h <;> cases h
  simp only [wpool, List.map_append, List.sum_append, List.map_cons, List.map_nil, List.sum_cons, List.sum_nil, wpush, wsub]
  omega

theorem wpool_finish {N limit : Nat} {p p' : ThreadPool.St} {i : Nat} (h : ThreadPool.step N limit p (.finish i) = some p') :
    wpool N p' < wpool N p := by
  simp only [ThreadPool.step] at h
  split at h
  · rename_i hi
    split at h <;> cases h
    rename_i t ht
    have := sumTo_th (N := N) (th := p.th) (.scan 0) hi
    simp only [ht, wpc] at this
    simp only [wpool]
    simp only [wpc]
    omega
  · cases h

def wjob (N : Nat) : SerialQueue.Pc → Nat
  | .begin => 0
  | .loop ts => 2 * ts.length + wsub N + 4
  | .calling _ ts => 2 * ts.length + 1 + wsub N + 4
  | .resubmit => wsub N + 3

/-- The weight of a serial queue. -/
def wserial (N : Nat) (q : SerialQueue.St) : Nat :=
  q.queue.length * (wsub N + 7) + q.kicks * (wsub N + 3) + q.pending + (q.jobs.map (wjob N)).sum

theorem wserial_enqueue {N : Nat} {m : SerialQueue.Mode} {q q' : SerialQueue.St} (h : SerialQueue.step m q .enqueue = .ok q') :
    wserial N q' ≤ wserial N q + 2 * wsub N + 10 := by
  simp only [SerialQueue.step] at h
  cases h
  simp only [wserial, List.length_append, List.length_singleton, Nat.add_mul, Nat.one_mul]
  split
  · omega
  · simp only [Nat.add_mul, Nat.one_mul]; omega

theorem wserial_kick {N : Nat} {m : SerialQueue.Mode} {q q' : SerialQueue.St} (h : SerialQueue.step m q .kick = .ok q') :
    wserial N q' + wsub N < wserial N q := by
  simp only [SerialQueue.step] at h
  split at h <;> cases h
  obtain ⟨k, hk⟩ : ∃ k, q.kicks = k + 1 := ⟨q.kicks - 1, by omega⟩
  simp only [wserial, hk, Nat.add_sub_cancel, Nat.add_mul, Nat.one_mul]
  omega

theorem wserial_runJob {N : Nat} {m : SerialQueue.Mode} {q q' : SerialQueue.St} (h : SerialQueue.step m q .runJob = .ok q') :
    wserial N q' < wserial N q := by
  simp only [SerialQueue.step] at h
  split at h <;> cases h
  simp only [wserial, List.map_append, List.sum_append, List.map_cons, List.map_nil, List.sum_cons, List.sum_nil, wjob]
  omega

theorem wserial_advance {N : Nat} {m : SerialQueue.Mode} {q q' : SerialQueue.St} (hr : SerialQueue.Reachable m q) {pc : SerialQueue.Pc}
    (hj : q.jobs = [pc]) (h : SerialQueue.step m q (.advance 0) = .ok q') :
    wserial N q' + (if pc = .resubmit then wsub N else 0) < wserial N q := by
  have htok := hr.inv.token
  simp only [SerialQueue.step, hj, List.getElem?_cons_zero] at h
  cases pc with
  | begin =>
    have hq : q.queue ≠ [] := by
      cases htok with
      | idle _ _ _ _ h => simp [hj] at h
      | kick _ _ _ _ h => simp [hj] at h
      | pending _ _ _ _ h => simp [hj] at h
      | job pc _ _ _ h h' => rw [hj] at h; cases h; exact h' (.inl rfl)
    obtain ⟨t, l, hl⟩ := List.exists_cons_of_ne_nil hq
    cases m with
    | single =>
      simp only [SerialQueue.fetch, hl] at h
      cases h
      simp [wserial, hj, hl, wjob, Nat.add_mul]
      omega
    | all =>
      simp only [SerialQueue.fetch] at h
      cases h
      have : 2 * l.length ≤ l.length * (wsub N + 7) := by rw [Nat.mul_comm]; exact Nat.mul_le_mul_left _ (by omega)
      simp [wserial, hj, hl, wjob, Nat.add_mul] at this ⊢
      omega
  | loop ts =>
    cases ts with
    | nil =>
      simp only at h
      split at h <;> cases h
      · simp [wserial, hj, wjob]
      · simp [wserial, hj, wjob]
    | cons t ts =>
      cases h
      simp [wserial, hj, wjob]
      omega
  | calling t ts =>
    cases h
    simp [wserial, hj, wjob]
  | resubmit =>
    cases h
    simp [wserial, hj, wjob]
    omega

/-! ## The graph -/

/-- The weight of a node. -/
def wnode (N : Nat) (g : Graph.St) (given : Nat → Bool) (n : Nat) : Nat :=
  (match g.pc n with
    | .queued => 2 * wsub N + 21
    | .sched => if given n then 8 else 2 * wsub N + 20
    | .running => 6
    | .waiting _ => 3
    | .flat _ => 2
    | _ => 0) + if g.own n = none then 0 else 1

/-- The node a step is about. -/
def about : Graph.Act → Option Nat
  | .run n | .retVal n _ | .retThrow n _ | .retFut n _ | .flatten n | .reap n => some n
  | _ => none

theorem dropOwn_own (g : Graph.St) (n m : Nat) : (Graph.dropOwn g n).own m = if m = n then none else g.own m := by
  unfold Graph.dropOwn
  split
  · by_cases h : m = n
    · subst h; simp_all
    · simp [h]
  · simp only [Shared.upd]

theorem wnode_le {N : Nat} {g g' : Graph.St} {given : Nat → Bool} {a : Graph.Act} {n : Nat} (ha : about a = some n)
    (h : Graph.step g a = .ok g') : (∀ m, wnode N g' given m ≤ wnode N g given m) ∧ wnode N g' given n < wnode N g given n := by
  cases a <;> simp only [about, Option.some.injEq, reduceCtorEq] at ha <;> subst ha <;> simp only [Graph.step] at h
  all_goals
    repeat' split at h
    all_goals cases h
    all_goals
      refine ⟨fun m => ?_, ?_⟩
      all_goals
        simp only [wnode, Graph.resolve, dropOwn_own, dropOwn_pc, dropOwn_kind, Shared.upd]
        grind

/-! ## The system -/

def weight (C : Cfg) (s : St) : Nat :=
  (s.nodes.map (wnode C.N s.g s.given)).sum + sumTo C.M (fun j => wserial C.N (s.q j)) + wpool C.N s.p

theorem sum_le {f f' : Nat → Nat} : ∀ (l : List Nat), (∀ m, f' m ≤ f m) → (l.map f').sum ≤ (l.map f).sum
  | [], _ => by simp
  | a :: l, h => by
    simp only [List.map_cons, List.sum_cons]
    have := sum_le l h
    have := h a
    omega

theorem sum_drop {f f' : Nat → Nat} {n d : Nat} (hd : f' n + d ≤ f n) : ∀ {l : List Nat}, (∀ m, f' m ≤ f m) → n ∈ l →
    (l.map f').sum + d ≤ (l.map f).sum
  | [], _, h => by cases h
  | a :: l, h, hm => by
    simp only [List.map_cons, List.sum_cons]
    rcases List.mem_cons.1 hm with rfl | hm
    · have := sum_le l h
      omega
    · have := sum_drop hd h hm
      have := h a
      omega

/-- Serial queues no node uses stay as they are. -/
theorem Reachable.unused (hC : C.Ok) (h : Reachable C s) : ∀ j, C.M ≤ j → s.q j = {} := by
  have key : ∀ {s s' : St} {j : Nat} {a : SerialQueue.Act}, (∀ j, C.M ≤ j → s.q j = {}) → (a = .enqueue → j < C.M) → serial C s j a = .ok s' →
      ∀ j, C.M ≤ j → s'.q j = {} := by
    intro s s' j a ih ha h k hk
    obtain ⟨q, hq, rfl⟩ := serial_ok h
    by_cases hkj : k = j
    · subst hkj
      exfalso
      rw [ih k hk] at hq
      cases a with
      | enqueue => have := ha rfl; omega
      | kick => simp [SerialQueue.step] at hq
      | runJob => simp [SerialQueue.step] at hq
      | advance i => simp [SerialQueue.step] at hq
    · simp only [upd, hkj, if_false]; exact ih k hk
  have hserve : ∀ {s s' : St} {i j k : Nat}, (∀ j, C.M ≤ j → s.q j = {}) → serve C s i j k = .ok s' → ∀ j, C.M ≤ j → s'.q j = {} := by
    intro s s' i j k ih h
    have : ∀ (s1 : St), serial C s j (.advance 0) = .ok s1 → ∀ j, C.M ≤ j → s1.q j = {} := fun s1 h1 => key ih (by simp) h1
    simp only [serve] at h
    split at h
    · obtain ⟨s1, h1, h⟩ := bind_ok h
      obtain ⟨g, -, rfl⟩ := call_ok h
      exact this s1 h1
    · split at h
      · cases h
      · exact this _ h
    · obtain ⟨s1, h1, h⟩ := bind_ok h
      cases h
      split <;> exact this s1 h1
    · obtain ⟨s1, h1, h⟩ := bind_ok h
      obtain ⟨s2, h2, h⟩ := bind_ok h
      obtain ⟨p, -, rfl⟩ := submit_ok h2
      cases h
      exact this s1 h1
    · exact this _ h
  induction h with
  | init => intro j _; rfl
  | @step s s' a hr h ih =>
    cases a with
    | graph a =>
      simp only [Layers.step] at h
      repeat' split at h
      all_goals cases h
      all_goals exact ih
    | give n i =>
      simp only [Layers.step] at h
      split at h
      · cases h
      · split at h
        · obtain ⟨p, -, rfl⟩ := submit_ok h; exact ih
        · obtain ⟨s1, h1, h⟩ := bind_ok h
          have := key ih (fun _ => hC.serial _ _ ‹_›) h1
          cases h
          exact this
        · obtain ⟨g, -, rfl⟩ := call_ok h; exact ih
    | kick j i =>
      simp only [Layers.step] at h
      obtain ⟨s1, h1, h⟩ := bind_ok h
      obtain ⟨p, -, rfl⟩ := submit_ok h
      have := key ih (fun h => by cases h) h1
      exact this
    | pool a =>
      simp only [Layers.step] at h
      repeat' split at h
      all_goals cases h
      all_goals exact ih
    | begin i =>
      simp only [Layers.step] at h
      split at h
      · split at h
        · split at h
          · cases h
          · split at h
            · obtain ⟨s1, h1, h⟩ := bind_ok h
              obtain ⟨g, -, rfl⟩ := call_ok h1
              cases h
              exact ih
            · obtain ⟨s1, h1, h⟩ := bind_ok h
              have := key (by exact ih) (fun h => by cases h) h1
              cases h
              exact this
        · cases h
      · cases h
    | serve i k =>
      simp only [Layers.step] at h
      split at h
      · exact hserve ih h
      · cases h
    | finish i =>
      simp only [Layers.step] at h
      repeat' split at h
      all_goals cases h
      all_goals exact ih

theorem sumTo_serial {q : Nat → SerialQueue.St} {j : Nat} (hj : j < C.M) (v : SerialQueue.St) :
    sumTo C.M (fun k => wserial C.N (upd q j v k)) + wserial C.N (q j) = sumTo C.M (fun k => wserial C.N (q k)) + wserial C.N v :=
  sumTo_upd (wserial C.N) q v j hj

/-- The calling of a packaged task. -/
theorem weight_run (I : Inv C s) {n : Nat} {g : Graph.St} (h : Graph.step s.g (.run n) = .ok g) :
    (s.nodes.map (wnode C.N g s.given)).sum < (s.nodes.map (wnode C.N s.g s.given)).sum := by
  obtain ⟨h1, h2⟩ := wnode_le (N := C.N) (given := s.given) (a := .run n) rfl h
  have := sum_drop (d := 1) (by omega) h1 ((I.nodes n).2 (by rw [(run_frame h).1]; simp))
  omega

theorem weight_give (I : Inv C s) {n : Nat} (h1 : s.g.pc n = .sched) (h2 : s.given n = false) :
    (s.nodes.map (wnode C.N s.g (upd s.given n true))).sum + (2 * wsub C.N + 12) ≤ (s.nodes.map (wnode C.N s.g s.given)).sum := by
  refine sum_drop (n := n) ?_ ?_ ((I.nodes n).2 (by simp [h1]))
  · simp only [wnode, h1, h2, upd]
    simp
    omega
  · intro m
    simp only [wnode, upd]
    grind

theorem weight_serve (I : Inv C s) (hM : ∀ j, C.M ≤ j → s.q j = {}) {i j k : Nat} (hi : s.phase i = .drain j)
    (h : serve C s i j k = .ok s') : weight C s' < weight C s := by
  obtain ⟨pc, hj⟩ := I.one_job hi
  have hjM : j < C.M := by
    refine Nat.lt_of_not_le fun h => ?_
    rw [hM j h] at hj
    cases hj
  have hw := fun q (hq : SerialQueue.step (C.mode j) (s.q j) (.advance 0) = .ok q) => wserial_advance (N := C.N) (I.qr j) hj hq
  have hs := fun v => sumTo_serial (C := C) (q := s.q) hjM v
  simp only [serve, hj] at h
  cases pc with
  | begin =>
    obtain ⟨q, hq, rfl⟩ := serial_ok h
    have h1 := hw q hq
    have h2 := hs q
    simp only [weight]
    omega
  | loop ts =>
    cases ts with
    | nil =>
      obtain ⟨s1, h1, h⟩ := bind_ok h
      obtain ⟨q, hq, rfl⟩ := serial_ok h1
      have h1 := hw q hq
      have h2 := hs q
      cases h
      split <;> simp only [weight] <;> omega
    | cons t ts =>
      obtain ⟨s1, h1, h⟩ := bind_ok h
      obtain ⟨q, hq, rfl⟩ := serial_ok h1
      obtain ⟨g, hg, rfl⟩ := call_ok h
      have h1 := hw q hq
      have h2 := hs q
      have h3 := weight_run I hg
      simp only [weight]
      omega
  | calling t ts =>
    simp only at h
    split at h
    · cases h
    · obtain ⟨q, hq, rfl⟩ := serial_ok h
      have h1 := hw q hq
      have h2 := hs q
      simp only [weight]
      omega
  | resubmit =>
    obtain ⟨s1, h1, h⟩ := bind_ok h
    obtain ⟨q, hq, rfl⟩ := serial_ok h1
    obtain ⟨s2, h2, h⟩ := bind_ok h
    obtain ⟨p, hp, rfl⟩ := submit_ok h2
    cases h
    have h1 := hw q hq
    have h2 := hs q
    have h3 : wpool C.N p = wpool C.N s.p + wsub C.N := wpool_submit hp
    simp only [if_true] at h1
    simp only [weight]
    omega

/-- Every step of the system by itself decreases the weight. -/
theorem weight_less (hC : C.Ok) (hr : Reachable C s) {a : Act} (ha : internal a = true) (h : step C s a = .ok s') :
    weight C s' < weight C s := by
  have I := hr.inv hC
  have hM := hr.unused hC
  cases a with
  | graph a =>
    have hab : ∃ n, about a = some n := by cases a <;> simp [internal] at ha <;> exact ⟨_, rfl⟩
    obtain ⟨n, hn⟩ := hab
    have hg : ∃ g, Graph.step s.g a = .ok g ∧ s' = { s with g := g } := by
      cases a <;> simp [internal] at ha <;> simp only [step, makes] at h
      all_goals
        repeat' split at h
        all_goals cases h
        all_goals exact ⟨_, ‹_›, rfl⟩
    obtain ⟨g, hg, rfl⟩ := hg
    obtain ⟨h1, h2⟩ := wnode_le (N := C.N) (given := s.given) hn hg
    have hp : s.g.pc n ≠ .none := by
      intro hp
      have ho := (I.gr.inv.fr n hp).1
      cases a <;> simp only [about, Option.some.injEq, reduceCtorEq] at hn <;> subst hn <;> simp [Graph.step, hp, ho] at hg
      split at hg <;> cases hg
    have := sum_drop (d := 1) (by omega) h1 ((I.nodes n).2 hp)
    simp only [weight]
    omega
  | give n i =>
    simp only [step] at h
    split at h
    · cases h
    · rename_i hn
      simp only [not_or, Decidable.not_not, Bool.not_eq_true] at hn
      have hw := weight_give I hn.1 hn.2
      split at h
      · obtain ⟨p, hp, rfl⟩ := submit_ok h
        have := wpool_submit hp
        simp only [weight] at *
        omega
      · rename_i j he
        obtain ⟨s1, h1, h⟩ := bind_ok h
        obtain ⟨q, hq, rfl⟩ := serial_ok h1
        cases h
        have h2 := sumTo_serial (C := C) (q := s.q) (hC.serial _ j he) q
        have h3 := wserial_enqueue (N := C.N) hq
        simp only [weight]
        omega
      · obtain ⟨g, hg, rfl⟩ := call_ok h
        have := weight_run I hg
        simp only [weight]
        omega
  | kick j i =>
    simp only [step] at h
    obtain ⟨s1, h1, h⟩ := bind_ok h
    obtain ⟨q, hq, rfl⟩ := serial_ok h1
    obtain ⟨p, hp, rfl⟩ := submit_ok h
    have hjM : j < C.M := by
      refine Nat.lt_of_not_le fun h => ?_
      rw [hM j h] at hq
      simp [SerialQueue.step] at hq
    have h2 := sumTo_serial (C := C) (q := s.q) hjM q
    have h3 := wserial_kick (N := C.N) hq
    have h4 : wpool C.N p = wpool C.N s.p + wsub C.N := wpool_submit hp
    simp only [weight]
    omega
  | pool a =>
    simp only [step] at h
    split at h
    · split at h <;> cases h
      have := wpool_less hC.N I.pr I.nj ha ‹_›
      simp only [weight]
      omega
    · cases h
  | begin i =>
    simp only [step] at h
    split at h
    · rename_i hi
      split at h
      · rename_i t ht
        split at h
        · cases h
        · split at h
          · obtain ⟨s1, h1, h⟩ := bind_ok h
            obtain ⟨g, hg, rfl⟩ := call_ok h1
            cases h
            have := weight_run I hg
            simp only [weight]
            omega
          · rename_i j hjt
            obtain ⟨s1, h1, h⟩ := bind_ok h
            obtain ⟨q, hq, rfl⟩ := serial_ok h1
            cases h
            have hjM : j < C.M := by
              refine Nat.lt_of_not_le fun h => ?_
              simp only [hM j h] at hq
              simp [SerialQueue.step] at hq
            have h2 := sumTo_serial (C := C) (q := s.q) hjM q
            have h3 := wserial_runJob (N := C.N) hq
            simp only [weight] at *
            omega
      · cases h
    · cases h
  | serve i k =>
    simp only [step] at h
    split at h
    · exact weight_serve I hM ‹_› h
    · cases h
  | finish i =>
    simp only [step] at h
    split at h
    · split at h <;> cases h
      have := wpool_finish ‹_›
      simp only [weight]
      omega
    · cases h

end Verif.Layers
