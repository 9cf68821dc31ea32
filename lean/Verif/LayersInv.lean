import Verif.Layers
import Verif.Future.GraphProps
import Verif.ThreadPoolProps
import Verif.SerialQueueProps

/-!
# Invariant of futures on the executors of the library
-/

namespace Verif.Layers

@[grind =] theorem upd_eq {α : Type} (f : Nat → α) (k : Nat) (v : α) (i : Nat) : upd f k v i = if i = k then v else f i := rfl

/-! ## What steps of the parts leave alone -/

/-- The node whose task is called. -/
def calledBy : Graph.Act → Option Nat
  | .run n => some n
  | .discard n => some n
  | _ => none

@[grind =] theorem dropOwn_pc (g : Graph.St) (n : Nat) : (Graph.dropOwn g n).pc = g.pc := by simp only [Graph.dropOwn]; split <;> rfl
@[grind =] theorem dropOwn_kind (g : Graph.St) (n : Nat) : (Graph.dropOwn g n).kind = g.kind := by simp only [Graph.dropOwn]; split <;> rfl
@[grind =] theorem resolve_pc (g : Graph.St) (n : Nat) (o : Shared.Outcome) (k : Nat) : (Graph.resolve g n o).pc k =
    if k = n then .ready else if g.pc k = .queued ∧ (g.kind k).bind Graph.Kind.parent = some n then .sched
      else if g.pc k = .waiting n then .flat n else g.pc k := rfl

theorem graph_frame {g g' : Graph.St} {a : Graph.Act} (h : Graph.step g a = .ok g') (n : Nat) (hn : calledBy a ≠ some n) :
    (g.pc n = .sched → g'.pc n = .sched) ∧ (g'.pc n = .running → g.pc n = .running) ∧
    (g.pc n ≠ .none → g.pc n ≠ .queued → g'.pc n ≠ .none ∧ g'.pc n ≠ .queued) ∧
    (g'.pc n ≠ .none ↔ g.pc n ≠ .none ∨ makes a = some n) ∧ (makes a = some n → g.pc n = .none) ∧
    (g'.pc n = .sched → g.pc n = .sched ∨ g.pc n = .queued ∨ g.pc n = .none) := by
  cases a <;> simp only [Graph.step] at h <;> (repeat' split at h) <;>
    first
      | (cases h; done)
      | (cases h; simp only [makes, calledBy] at *; grind [Shared.upd])

theorem graph_run {g g' : Graph.St} {n : Nat} (h : Graph.step g (.run n) = .ok g') :
    g.pc n = .sched ∧ g'.pc n ≠ .sched ∧ g'.pc n ≠ .none ∧ g'.pc n ≠ .queued := by
  simp only [Graph.step] at h
  (repeat' split at h) <;>
    first
      | (cases h; done)
      | (cases h; grind [Shared.upd])

open ThreadPool in
theorem pool_frame {N limit : Nat} {p p' : ThreadPool.St} {a : ThreadPool.Act} (hw : within a = true) (h : ThreadPool.step N limit p a = some p') :
    p'.next = p.next ∧ p.nth ≤ p'.nth ∧ (∀ i t, i < p.nth → p.th i = .calling t → p'.th i = .calling t) ∧
    (∀ i t, i < p'.nth → p'.th i = .calling t → (i < p.nth ∧ p.th i = .calling t) ∨ p'.trace = p.trace ++ [.start i t]) ∧
    (∃ ev, p'.trace = p.trace ++ ev ∧ ∀ e ∈ ev, e ≠ .join ∧ ∀ t, e ≠ .finish t) := by
  cases a <;> simp only [within, Bool.false_eq_true] at hw <;> simp only [ThreadPool.step] at h <;> (repeat' split at h) <;>
    first
      | (cases h; done)
      | (cases h
         simp only [evalPop, evalWait, pushTo] at *
         repeat' split
         all_goals
           refine ⟨by simp, by simp, ?_, ?_, ?_⟩
           · grind [ThreadPool.upd]
           · grind [ThreadPool.upd]
           · first
               | exact ⟨[], (List.append_nil _).symm, by simp⟩
               | (refine ⟨[_], rfl, ?_⟩; simp))

/-! ## Invariant -/

/-- How many tasks of the pool that serve queue `j` have not begun. -/
def waitingFor (s : St) (j : Nat) : Nat := (List.range s.p.next).countP fun t => decide (s.job t = .drain j) && !s.begun t

structure Inv (C : Cfg) (s : St) : Prop where
  gr : Graph.Reachable s.g
  pr : ThreadPool.Reachable C.N C.limit s.p
  nj : .join ∉ s.p.trace
  qr : ∀ j, SerialQueue.Reachable (C.mode j) (s.q j)
  nodes : ∀ n, n ∈ s.nodes ↔ s.g.pc n ≠ .none
  nodup : s.nodes.Nodup
  late : ∀ n, s.given n = true → s.g.pc n ≠ .none ∧ s.g.pc n ≠ .queued
  pjob : ∀ t n, t < s.p.next → s.job t = .node n → s.given n = true ∧ (∃ p, C.exe n = .pool p) ∧ (s.begun t = false → s.g.pc n = .sched)
  pinj : ∀ t t' n, t < s.p.next → t' < s.p.next → s.job t = .node n → s.job t' = .node n → t = t'
  djob : ∀ t j, t < s.p.next → s.job t = .drain j → j < C.M
  qjob : ∀ j i, i < (s.q j).next → s.given (s.node j i) = true ∧ C.exe (s.node j i) = .serial j ∧
    (.start i ∉ (s.q j).trace → s.g.pc (s.node j i) = .sched)
  qinj : ∀ j i i', i < (s.q j).next → i' < (s.q j).next → s.node j i = s.node j i' → i = i'
  gave : ∀ n, s.given n = true → s.g.pc n = .sched → (∃ t, t < s.p.next ∧ s.job t = .node n ∧ s.begun t = false) ∨
    ∃ j i, i < (s.q j).next ∧ s.node j i = n ∧ .start i ∉ (s.q j).trace
  pend : ∀ j, (s.q j).pending = waitingFor s j
  fin : ∀ t, .finish t ∈ s.p.trace → s.begun t = true
  beg : ∀ t, s.begun t = true → ∃ i, .start i t ∈ s.p.trace
  ph : ∀ i t, i < s.p.nth → s.p.th i = .calling t → s.begun t = true → s.phase i ≠ .idle
  ph' : ∀ i, s.phase i ≠ .idle → i < s.p.nth ∧ ∃ t, s.p.th i = .calling t ∧ s.begun t = true
  dr : ∀ i j, s.phase i = .drain j → (s.q j).jobs ≠ []
  dr' : ∀ j, (s.q j).jobs ≠ [] → ∃ i, s.phase i = .drain j
  dinj : ∀ i i' j, s.phase i = .drain j → s.phase i' = .drain j → i = i'
  run : ∀ n j, s.g.pc n = .running → C.exe n = .serial j → ∃ t ts, (s.q j).jobs = [.calling t ts] ∧ s.node j t = n

variable {C : Cfg} {s s' : St}

theorem Inv.init : Inv C (init C) := by
  constructor <;> simp [Layers.init, ThreadPool.init, waitingFor]
  · exact ⟨[], rfl⟩
  · exact ⟨[], rfl⟩
  · exact fun j => ⟨[], rfl⟩

theorem graph_snoc {g g' : Graph.St} {a : Graph.Act} (h : Graph.Reachable g) (e : Graph.step g a = .ok g') : Graph.Reachable g' := by
  obtain ⟨as, h⟩ := h
  refine ⟨as ++ [a], ?_⟩
  have : ∀ (as : List Graph.Act) (x : Graph.St), Graph.exec x as = some g → Graph.exec x (as ++ [a]) = some g' := by
    intro as
    induction as with
    | nil => intro x h; simp only [Graph.exec, Option.some.injEq] at h; subst h; simp [Graph.exec, e]
    | cons b as ih =>
      intro x h
      simp only [Graph.exec] at h
      simp only [List.cons_append, Graph.exec]
      split at h
      · exact ih _ h
      · cases h
  exact this as _ h

theorem pool_snoc {p p' : ThreadPool.St} {a : ThreadPool.Act} (h : ThreadPool.Reachable C.N C.limit p)
    (e : ThreadPool.step C.N C.limit p a = some p') : ThreadPool.Reachable C.N C.limit p' := by
  obtain ⟨as, h⟩ := h
  refine ⟨as ++ [a], ?_⟩
  have : ∀ (as : List ThreadPool.Act) (x : ThreadPool.St), ThreadPool.exec C.N C.limit x as = some p →
      ThreadPool.exec C.N C.limit x (as ++ [a]) = some p' := by
    intro as
    induction as with
    | nil => intro x h; simp only [ThreadPool.exec, Option.some.injEq] at h; subst h; simp [ThreadPool.exec, e]
    | cons b as ih =>
      intro x h
      simp only [ThreadPool.exec] at h
      simp only [List.cons_append, ThreadPool.exec]
      split at h
      · cases h
      · exact ih _ h
  exact this as _ h

theorem serial_snoc {m : SerialQueue.Mode} {q q' : SerialQueue.St} {a : SerialQueue.Act} (h : SerialQueue.Reachable m q)
    (e : SerialQueue.step m q a = .ok q') : SerialQueue.Reachable m q' := by
  obtain ⟨as, h⟩ := h
  refine ⟨as ++ [a], ?_⟩
  have : ∀ (as : List SerialQueue.Act) (x : SerialQueue.St), SerialQueue.exec m x as = some q → SerialQueue.exec m x (as ++ [a]) = some q' := by
    intro as
    induction as with
    | nil => intro x h; simp only [SerialQueue.exec, Option.some.injEq] at h; subst h; simp [SerialQueue.exec, e]
    | cons b as ih =>
      intro x h
      simp only [SerialQueue.exec] at h
      simp only [List.cons_append, SerialQueue.exec]
      split at h
      · exact ih _ h
      · cases h
  exact this as _ h

/-! ## Steps of the graph -/

theorem Inv.graph (I : Inv C s) {a : Graph.Act} (h : step C s (.graph a) = .ok s') : Inv C s' := by
  have key : calledBy a = none ∧ ∃ g, Graph.step s.g a = .ok g ∧ s' = { s with g := g, nodes := match makes a with
                                      | some n => n :: s.nodes
                                      | none => s.nodes } := by
    cases a <;> simp only [step] at h <;> (try cases h) <;> (split at h <;> cases h) <;> exact ⟨rfl, _, ‹_›, rfl⟩
  obtain ⟨hc, g, hg, rfl⟩ := key
  have F := fun n => graph_frame hg n (by rw [hc]; simp)
  obtain ⟨gr, pr, nj, qr, nodes, nodup, late, pjob, pinj, djob, qjob, qinj, gave, pend, fin, beg, ph, ph', dr, dr', dinj, run⟩ := I
  refine ⟨graph_snoc gr hg, pr, nj, qr, ?_, ?_, ?_, ?_, pinj, djob, ?_, qinj, ?_, pend, fin, beg, ph, ph', dr, dr', dinj, ?_⟩
  · intro n
    show n ∈ (match makes a with | some n => n :: s.nodes | none => s.nodes) ↔ _
    rw [(F n).2.2.2.1, ← nodes]
    clear F hg
    cases makes a with
    | none => simp
    | some m => rw [List.mem_cons, Option.some.injEq, or_comm, eq_comm (a := n)]
  · show (match makes a with | some n => n :: s.nodes | none => s.nodes).Nodup
    split
    · next n hm => exact List.nodup_cons.2 ⟨by rw [nodes]; simp [(F n).2.2.2.2.1 hm], nodup⟩
    · exact nodup
  · exact fun n hn => (F n).2.2.1 (late n hn).1 (late n hn).2
  · exact fun t n ht hj => ⟨(pjob t n ht hj).1, (pjob t n ht hj).2.1, fun hb => (F n).1 ((pjob t n ht hj).2.2 hb)⟩
  · exact fun j i hi => ⟨(qjob j i hi).1, (qjob j i hi).2.1, fun hb => (F _).1 ((qjob j i hi).2.2 hb)⟩
  · intro n hn hs
    by_cases hb : s.g.pc n = .sched
    · exact gave n hn hb
    · exfalso
      -- it became due just now, but was given before
      have := late n hn
      rcases (F n).2.2.2.2.2 hs with h | h | h
      · exact hb h
      · exact this.2 h
      · exact this.1 h
  · exact fun n j hr he => run n j ((F n).2.1 hr) he

/-! ## A task is given to the pool -/

theorem pool_submit {C : Cfg} {p p' : ThreadPool.St} {prio i : Nat} (h : ThreadPool.step C.N C.limit p (.submit prio i) = some p') :
    p'.next = p.next + 1 ∧ p'.nth = p.nth ∧ p'.th = p.th ∧ p'.trace = p.trace ++ [.submit p.next] := by
  simp only [ThreadPool.step] at h
  split at h <;> cases h
  exact ⟨rfl, rfl, rfl, rfl⟩

theorem submit_ok {prio i : Nat} {b : Job} (h : submit C s prio i b = .ok s') :
    ∃ p, ThreadPool.step C.N C.limit s.p (.submit prio i) = some p ∧
      s' = { s with p := p, job := upd s.job s.p.next b, begun := upd s.begun s.p.next false } := by
  simp only [submit] at h
  split at h <;> cases h
  exact ⟨_, ‹_›, rfl⟩

theorem call_ok {n : Nat} (h : call s n = .ok s') : ∃ g, Graph.step s.g (.run n) = .ok g ∧ s' = { s with g := g } := by
  simp only [call] at h
  split at h <;> cases h
  exact ⟨_, ‹_›, rfl⟩

theorem serial_ok {j : Nat} {a : SerialQueue.Act} (h : serial C s j a = .ok s') :
    ∃ q, SerialQueue.step (C.mode j) (s.q j) a = .ok q ∧ s' = { s with q := upd s.q j q } := by
  simp only [serial] at h
  split at h <;> cases h
  exact ⟨_, ‹_›, rfl⟩

theorem bind_ok {o : Out} {f : St → Out} (h : o.bind f = .ok s') : ∃ s1, o = .ok s1 ∧ f s1 = .ok s' := by
  cases o with
  | no => cases h
  | ub => cases h
  | ok s1 => exact ⟨s1, rfl, h⟩

/-- Counting after a task is submitted. -/
theorem waitingFor_submit {p : ThreadPool.St} {b : Job} (hn : p.next = s.p.next + 1) (j : Nat) :
    waitingFor { s with p := p, job := upd s.job s.p.next b, begun := upd s.begun s.p.next false } j =
      waitingFor s j + if b = .drain j then 1 else 0 := by
  simp only [waitingFor, hn, List.range_succ, List.countP_append, List.countP_cons, List.countP_nil]
  congr 1
  · refine List.countP_congr fun t ht => ?_
    have : t ≠ s.p.next := by have := List.mem_range.1 ht; omega
    simp [upd, this]
  · by_cases h : b = .drain j <;> simp [upd, h]

theorem waitingFor_begin {t : Nat} (ht : t < s.p.next) (hb : s.begun t = false) (j : Nat) :
    waitingFor s j = waitingFor { s with begun := upd s.begun t true } j + if s.job t = .drain j then 1 else 0 := by
  have : ∀ n, (List.range n).countP (fun k => decide (s.job k = .drain j) && !s.begun k) =
      (List.range n).countP (fun k => decide (s.job k = .drain j) && !(upd s.begun t true) k) + if t < n ∧ s.job t = .drain j then 1 else 0 := by
    intro n
    induction n with
    | zero => simp
    | succ n ih =>
      simp only [List.range_succ, List.countP_append, List.countP_cons, List.countP_nil, ih]
      by_cases hn : n = t
      · subst hn
        by_cases hj : s.job n = .drain j <;> simp [upd, hb, hj]
      · have h1 : (t < n + 1 ∧ s.job t = .drain j) ↔ (t < n ∧ s.job t = .drain j) := by constructor <;> (rintro ⟨h, h'⟩; exact ⟨by omega, h'⟩)
        simp only [h1, upd, hn, if_false]
        omega
  simp only [waitingFor]
  rw [this s.p.next]
  simp [ht]

/-- A task started is one that was submitted. -/
theorem started_lt {p : ThreadPool.St} (hN : 0 < C.N) (h : ThreadPool.Reachable C.N C.limit p) {i t : Nat} (hs : .start i t ∈ p.trace) : t < p.next := by
  have h1 := (ThreadPool.c26_at_most_once hN h t).2.2 i hs
  have h2 := (h.inv hN).counts.submit t
  have h3 := List.countP_pos_iff.2 ⟨_, h1, show ThreadPool.isSubmit t (.submit t) = true by simp [ThreadPool.isSubmit]⟩
  split at h2
  · assumption
  · omega

theorem calling_start {p : ThreadPool.St} (hN : 0 < C.N) (h : ThreadPool.Reachable C.N C.limit p) {i t : Nat} (hi : i < p.nth)
    (hs : p.th i = .calling t) : ∃ k, .start k t ∈ p.trace := by
  have h1 := (h.inv hN).counts.call t
  have h2 := ThreadPool.le_sumTo (f := fun i => ThreadPool.calls t (p.th i)) hi
  simp only [ThreadPool.calls, hs, if_true] at h2
  obtain ⟨e, he, hp⟩ := List.countP_pos_iff.1 (show 0 < p.trace.countP (ThreadPool.isStart t) by
    simp only [ThreadPool.calls] at h1; omega)
  cases e <;> simp [ThreadPool.isStart] at hp
  subst hp
  exact ⟨_, he⟩

theorem Inv.begun_lt (I : Inv C s) (hC : C.Ok) {t : Nat} (h : s.begun t = true) : t < s.p.next := by
  obtain ⟨i, hi⟩ := I.beg t h
  exact started_lt hC.N I.pr hi

theorem Inv.givePool (I : Inv C s) (hC : C.Ok) {n prio i : Nat} (hs : s.g.pc n = .sched) (hg : s.given n = false) (he : C.exe n = .pool prio)
    (h : submit C { s with given := upd s.given n true } prio i (.node n) = .ok s') : Inv C s' := by
  obtain ⟨p, hp, rfl⟩ := submit_ok h
  obtain ⟨h1, h2, h3, h4⟩ := pool_submit hp
  have hw : ∀ j, waitingFor { s with given := upd s.given n true, p := p, job := upd s.job s.p.next (.node n), begun := upd s.begun s.p.next false } j
      = waitingFor s j := fun j => by
    have := waitingFor_submit (s := s) (b := .node n) h1 j
    simpa [waitingFor] using this
  have hbl := fun t => I.begun_lt hC (t := t)
  obtain ⟨gr, pr, nj, qr, nodes, nodup, late, pjob, pinj, djob, qjob, qinj, gave, pend, fin, beg, ph, ph', dr, dr', dinj, run⟩ := I
  refine ⟨gr, pool_snoc pr hp, ?_, qr, nodes, nodup, ?_, ?_, ?_, ?_, ?_, qinj, ?_, ?_, ?_, ?_, ?_, ?_, dr, dr', dinj, run⟩
  · simp [h4, nj]
  · grind
  · grind
  · grind
  · grind
  · grind
  · intro m hm hms
    by_cases hmn : m = n
    · subst hmn
      exact .inl ⟨s.p.next, by simp [h1], by simp [upd], by simp [upd]⟩
    · rcases gave m (by simpa [upd, hmn] using hm) hms with ⟨t, h5, h6, h7⟩ | h5
      · exact .inl ⟨t, by simp only [h1]; omega, by simp [upd, show t ≠ s.p.next by omega, h6], by simp [upd, show t ≠ s.p.next by omega, h7]⟩
      · exact .inr h5
  · intro j; rw [hw]; exact pend j
  · grind
  · grind
  · grind
  · grind

theorem Inv.kick (I : Inv C s) (hC : C.Ok) {j i : Nat} (h : step C s (.kick j i) = .ok s') : Inv C s' := by
  simp only [step] at h
  obtain ⟨s1, h1, h⟩ := bind_ok h
  obtain ⟨q, hq, rfl⟩ := serial_ok h1
  obtain ⟨p, hp, rfl⟩ := submit_ok h
  obtain ⟨h1, h2, h3, h4⟩ := pool_submit hp
  have hqr := serial_snoc (I.qr j) hq
  have hk : (s.q j).kicks ≠ 0 ∧ q.queue = (s.q j).queue ∧ q.next = (s.q j).next ∧ q.trace = (s.q j).trace ∧ q.jobs = (s.q j).jobs ∧ q.pending = (s.q j).pending + 1 := by
    simp only [SerialQueue.step] at hq
    split at hq <;> cases hq
    exact ⟨‹_›, rfl, rfl, rfl, rfl, rfl⟩
  obtain ⟨hk0, -, hk1, hk2, hk3, hk4⟩ := hk
  -- the queue has a task, hence exists
  have hj : j < C.M := by
    have hn : 0 < (s.q j).next := by
      have J := (I.qr j).inv
      have := J.order
      cases J.token with
      | idle => omega
      | kick _ h _ _ _ =>
        have hl := congrArg List.length this
        simp only [List.length_append, List.length_range] at hl
        have := List.length_pos_iff.2 h
        omega
      | pending => omega
      | job => omega
    exact hC.serial _ j (I.qjob j 0 hn).2.1
  have hw := fun k => waitingFor_submit (s := { s with q := upd s.q j q }) (b := .drain j) h1 k
  have hw0 : ∀ k, waitingFor { s with q := upd s.q j q } k = waitingFor s k := fun k => rfl
  have hbl := fun t => I.begun_lt hC (t := t)
  obtain ⟨gr, pr, nj, qr, nodes, nodup, late, pjob, pinj, djob, qjob, qinj, gave, pend, fin, beg, ph, ph', dr, dr', dinj, run⟩ := I
  refine ⟨gr, pool_snoc pr hp, ?_, ?_, nodes, nodup, late, ?_, ?_, ?_, ?_, ?_, ?_, ?_, ?_, ?_, ?_, ?_, ?_, ?_, dinj, ?_⟩
  · simp [h4, nj]
  · grind
  · grind
  · grind
  · grind
  · grind
  · grind
  · intro m hm hms
    rcases gave m hm hms with ⟨t, h5, h6, h7⟩ | ⟨k, i', h5, h6, h7⟩
    · exact .inl ⟨t, by simp only [h1]; omega, by simp [upd, show t ≠ s.p.next by omega, h6], by simp [upd, show t ≠ s.p.next by omega, h7]⟩
    · exact .inr ⟨k, i', by grind, h6, by grind⟩
  · intro k
    rw [hw, hw0]
    have := pend k
    grind
  · grind
  · grind
  · grind
  · grind
  · grind
  · grind
  · grind

/-- No two threads of the pool are calling the same task. -/
theorem calling_unique {N limit : Nat} (hN : 0 < N) {p : ThreadPool.St} (hp : ThreadPool.Reachable N limit p) {i k u : Nat} (h0 : i < p.nth)
    (hu : p.th i = .calling u) (hk : k < p.nth) (hku : p.th k = .calling u) : k = i := by
  by_cases hki : k = i
  · exact hki
  · exfalso
    have hc := (hp.inv hN).counts.call u
    have h1' := (ThreadPool.c26_at_most_once hN hp u).1
    have hs := ThreadPool.sumTo_upd (ThreadPool.calls u) p.th (.scan 0) i h0
    have hl := ThreadPool.le_sumTo (f := fun x => ThreadPool.calls u (ThreadPool.upd p.th i (.scan 0) x)) hk
    simp only [ThreadPool.calls, ThreadPool.upd, hki, if_false, hku, hu, if_true, reduceCtorEq] at hs hl hc
    omega

/-! ## A task is given to a serial queue -/

theorem Inv.giveSerial (I : Inv C s) {n j : Nat} {q : SerialQueue.St} (hs : s.g.pc n = .sched) (hg : s.given n = false)
    (he : C.exe n = .serial j) (hq : SerialQueue.step (C.mode j) (s.q j) .enqueue = .ok q) :
    Inv C { s with q := upd s.q j q, given := upd s.given n true, node := upd s.node j (upd (s.node j) (s.q j).next n) } := by
  have hqr := serial_snoc (I.qr j) hq
  have hk : q.next = (s.q j).next + 1 ∧ q.trace = (s.q j).trace ++ [.submit (s.q j).next] ∧ q.jobs = (s.q j).jobs ∧ q.pending = (s.q j).pending := by
    simp only [SerialQueue.step] at hq
    cases hq
    exact ⟨rfl, rfl, rfl, rfl⟩
  obtain ⟨hk1, hk2, hk3, hk4⟩ := hk
  have hst : ∀ i, SerialQueue.Event.start i ∈ (s.q j).trace → i < (s.q j).next := by
    intro i hi
    have J := (I.qr j).inv
    have : i ∈ SerialQueue.started (s.q j).trace := List.mem_filterMap.2 ⟨_, hi, rfl⟩
    have h2 : i ∈ List.range (s.q j).next := by rw [← J.order]; simp [this]
    simpa using h2
  have hcall : ∀ t ts, (s.q j).jobs = [.calling t ts] → t < (s.q j).next := by
    intro t ts ht
    have J := (I.qr j).inv
    have h1 := J.fin
    rw [ht] at h1
    simp only [SerialQueue.current, Option.toList] at h1
    have : t ∈ SerialQueue.started (s.q j).trace := by rw [← h1]; simp
    have h2 : t ∈ List.range (s.q j).next := by rw [← J.order]; simp [this]
    simpa using h2
  obtain ⟨gr, pr, nj, qr, nodes, nodup, late, pjob, pinj, djob, qjob, qinj, gave, pend, fin, beg, ph, ph', dr, dr', dinj, run⟩ := I
  refine ⟨gr, pr, nj, ?_, nodes, nodup, ?_, ?_, pinj, djob, ?_, ?_, ?_, ?_, fin, beg, ph, ph', ?_, ?_, dinj, ?_⟩
  · intro k
    by_cases hk : k = j
    · subst hk; simpa [upd] using hqr
    · simpa [upd, hk] using qr k
  · grind
  · grind
  · intro k i hi
    by_cases hkj : k = j
    · subst hkj
      by_cases hin : i = (s.q k).next
      · subst hin
        simp [upd, he, hs]
      · have h1 := qjob k i (by simp [upd, hk1] at hi; omega)
        have h2 : s.node k i ≠ n := fun h => by rw [h, hg] at h1; cases h1.1
        simpa [upd, hin, hk2, h2] using h1
    · have h1 := qjob k i (by simpa [upd, hkj] using hi)
      have h2 : s.node k i ≠ n := fun h => by rw [h, hg] at h1; cases h1.1
      simpa [upd, hkj, h2] using h1
  · intro k i i' hi hi'
    by_cases hkj : k = j
    · subst hkj
      have h3 : ∀ i, i < (s.q k).next → s.node k i ≠ n := fun i hi h => by have := (qjob k i hi).1; rw [h, hg] at this; cases this
      simp [upd, hk1] at hi hi' ⊢
      have h1 := qinj k i i'
      have h4 := h3 i
      have h5 := h3 i'
      grind
    · simpa [upd, hkj] using qinj k i i' (by simpa [upd, hkj] using hi) (by simpa [upd, hkj] using hi')
  · intro m hm hms
    by_cases hmn : m = n
    · subst hmn
      refine .inr ⟨j, (s.q j).next, by simp [upd, hk1], by simp [upd], ?_⟩
      have := hst (s.q j).next
      grind
    · rcases gave m (by simpa [upd, hmn] using hm) hms with h5 | ⟨k, i, h5, h6, h7⟩
      · exact .inl h5
      · refine .inr ⟨k, i, ?_, ?_, ?_⟩
        · show i < (upd s.q j q k).next
          simp only [upd]
          split
          · subst_vars; omega
          · exact h5
        · show upd s.node j (upd (s.node j) (s.q j).next n) k i = m
          simp only [upd]
          split
          · subst_vars
            simp only [upd]
            rw [if_neg (by omega)]
          · exact h6
        · show ¬ SerialQueue.Event.start i ∈ (upd s.q j q k).trace
          simp only [upd]
          split
          · subst_vars; simpa [hk2] using h7
          · exact h7
  · intro k
    have := pend k
    show (upd s.q j q k).pending = waitingFor s k
    grind
  · grind
  · grind
  · intro m k hm hmk
    obtain ⟨t, ts, h1, h2⟩ := run m k hm hmk
    by_cases hkj : k = j
    · subst hkj
      have h3 := hcall t ts h1
      exact ⟨t, ts, by simp [upd, hk3, h1], by simp [upd, show t ≠ (s.q k).next by omega, h2]⟩
    · exact ⟨t, ts, by simp [upd, hkj, h1], by simp [upd, hkj, h2]⟩

/-! ## A packaged task is called -/

theorem run_frame {g g' : Graph.St} {n : Nat} (h : Graph.step g (.run n) = .ok g') :
    g.pc n = .sched ∧ g'.pc n ≠ .sched ∧ (g'.pc n ≠ .none ∧ g'.pc n ≠ .queued) ∧ (∀ m, m ≠ n → g.pc m = .sched → g'.pc m = .sched) ∧
      (∀ m, m ≠ n → g'.pc m = .running → g.pc m = .running) ∧
      (∀ m, g.pc m ≠ .none → g.pc m ≠ .queued → g'.pc m ≠ .none ∧ g'.pc m ≠ .queued) ∧ (∀ m, g'.pc m ≠ .none ↔ g.pc m ≠ .none) ∧
      (∀ m, g'.pc m = .sched → g.pc m = .sched ∨ g.pc m = .queued ∨ g.pc m = .none) := by
  obtain ⟨h1, h2, h3, h4⟩ := graph_run h
  have F := fun m (hm : m ≠ n) => graph_frame h m (by simp only [calledBy, ne_eq, Option.some.injEq]; exact fun e => hm e.symm)
  refine ⟨h1, h2, ⟨h3, h4⟩, fun m hm => (F m hm).1, fun m hm => (F m hm).2.1, fun m h5 h6 => ?_, fun m => ?_, fun m h5 => ?_⟩
  · by_cases hm : m = n
    · subst hm; exact ⟨h3, h4⟩
    · exact (F m hm).2.2.1 h5 h6
  · by_cases hm : m = n
    · subst hm; simp [h1, h3]
    · have := (F m hm).2.2.2.1
      simpa [makes] using this
  · by_cases hm : m = n
    · subst hm; exact absurd h5 h2
    · exact (F m hm).2.2.2.2.2 h5

theorem Inv.giveImmediate (I : Inv C s) {n : Nat} (hg : s.given n = false) (he : C.exe n = .immediate) {g : Graph.St}
    (h : Graph.step s.g (.run n) = .ok g) : Inv C { s with g := g } := by
  obtain ⟨F1, F2, F3, F4, F5, F6, F7, F8⟩ := run_frame h
  obtain ⟨gr, pr, nj, qr, nodes, nodup, late, pjob, pinj, djob, qjob, qinj, gave, pend, fin, beg, ph, ph', dr, dr', dinj, run⟩ := I
  refine ⟨graph_snoc gr h, pr, nj, qr, ?_, nodup, ?_, ?_, pinj, djob, ?_, qinj, ?_, pend, fin, beg, ph, ph', dr, dr', dinj, ?_⟩
  · grind
  · grind
  · grind
  · grind
  · grind
  · grind

theorem Inv.beginNode (I : Inv C s) (hC : C.Ok) {i t n : Nat} (hi : i < s.p.nth) (ht : s.p.th i = .calling t) (hb : s.begun t = false)
    (hj : s.job t = .node n) {g : Graph.St} (h : Graph.step s.g (.run n) = .ok g) :
    Inv C { s with g := g, begun := upd s.begun t true, phase := upd s.phase i (.node n) } := by
  obtain ⟨F1, F2, F3, F4, F5, F6, F7, F8⟩ := run_frame h
  have hst := calling_start hC.N I.pr hi ht
  have hlt : t < s.p.next := by obtain ⟨k, hk⟩ := hst; exact started_lt hC.N I.pr hk
  have hidle : s.phase i = .idle := by
    by_cases hp : s.phase i = .idle
    · exact hp
    · obtain ⟨-, u, hu, hub⟩ := I.ph' i hp
      rw [ht] at hu
      cases hu
      rw [hb] at hub
      cases hub
  have hw := fun j => waitingFor_begin (s := s) hlt hb j
  have huniq := fun k hk hku => calling_unique hC.N I.pr hi ht (k := k) hk hku
  obtain ⟨gr, pr, nj, qr, nodes, nodup, late, pjob, pinj, djob, qjob, qinj, gave, pend, fin, beg, ph, ph', dr, dr', dinj, run⟩ := I
  have hex := (pjob t n hlt hj).2.1
  refine ⟨graph_snoc gr h, pr, nj, qr, ?_, nodup, ?_, ?_, pinj, djob, ?_, qinj, ?_, ?_, ?_, ?_, ?_, ?_, ?_, ?_, ?_, ?_⟩
  · grind
  · grind
  · grind
  · grind
  · grind
  · intro j
    have h1 := hw j
    have h2 := pend j
    simp only [hj, reduceCtorEq, if_false, Nat.add_zero] at h1
    rw [h2, h1]
    rfl
  · grind
  · grind
  · grind
  · grind
  · grind
  · intro j hjj
    obtain ⟨k, hk⟩ := dr' j hjj
    exact ⟨k, by grind⟩
  · grind
  · grind

theorem Inv.beginDrain (I : Inv C s) (hC : C.Ok) {i t j : Nat} (hi : i < s.p.nth) (ht : s.p.th i = .calling t) (hb : s.begun t = false)
    (hj : s.job t = .drain j) {q : SerialQueue.St} (hq : SerialQueue.step (C.mode j) (s.q j) .runJob = .ok q) :
    Inv C { s with q := upd s.q j q, begun := upd s.begun t true, phase := upd s.phase i (.drain j) } := by
  have hst := calling_start hC.N I.pr hi ht
  have hlt : t < s.p.next := by obtain ⟨k, hk⟩ := hst; exact started_lt hC.N I.pr hk
  have hidle : s.phase i = .idle := by
    by_cases hp : s.phase i = .idle
    · exact hp
    · obtain ⟨-, u, hu, hub⟩ := I.ph' i hp
      rw [ht] at hu
      cases hu
      rw [hb] at hub
      cases hub
  have hw := fun j => waitingFor_begin (s := s) hlt hb j
  have huniq := fun k hk hku => calling_unique hC.N I.pr hi ht (k := k) hk hku
  have hqr := serial_snoc (I.qr j) hq
  have hk : (s.q j).pending ≠ 0 ∧ q.next = (s.q j).next ∧ q.trace = (s.q j).trace ∧ q.jobs = (s.q j).jobs ++ [.begin] ∧
      (s.q j).pending = q.pending + 1 := by
    simp only [SerialQueue.step] at hq
    split at hq <;> cases hq
    exact ⟨‹_›, rfl, rfl, rfl, by simp; omega⟩
  obtain ⟨hk0, hk1, hk2, hk3, hk4⟩ := hk
  have hnil : (s.q j).jobs = [] := by
    have := SerialQueue.c22_one_job (I.qr j)
    exact List.length_eq_zero_iff.1 (by omega)
  rw [hnil, List.nil_append] at hk3
  obtain ⟨gr, pr, nj, qr, nodes, nodup, late, pjob, pinj, djob, qjob, qinj, gave, pend, fin, beg, ph, ph', dr, dr', dinj, run⟩ := I
  refine ⟨gr, pr, nj, ?_, nodes, nodup, late, ?_, pinj, djob, ?_, ?_, ?_, ?_, ?_, ?_, ?_, ?_, ?_, ?_, ?_, ?_⟩
  · grind
  · grind
  · grind
  · grind
  · intro m hm hms
    rcases gave m hm hms with ⟨u, h5, h6, h7⟩ | ⟨k, i', h5, h6, h7⟩
    · exact .inl ⟨u, h5, h6, by grind⟩
    · exact .inr ⟨k, i', by grind, h6, by grind⟩
  · intro k
    have h1 := hw k
    have h2 := pend k
    show (upd s.q j q k).pending = waitingFor { s with begun := upd s.begun t true } k
    grind
  · grind
  · grind
  · grind
  · grind
  · grind
  · intro k hk
    by_cases hkj : k = j
    · exact ⟨i, by simp [upd, hkj]⟩
    · obtain ⟨i', hi'⟩ := dr' k (by simpa [upd, hkj] using hk)
      exact ⟨i', by grind⟩
  · grind
  · grind

/-! ## Steps of the pool -/

theorem Inv.pool (I : Inv C s) (hC : C.Ok) {a : ThreadPool.Act} {p : ThreadPool.St} (hw : within a = true)
    (h : ThreadPool.step C.N C.limit s.p a = some p) : Inv C { s with p := p } := by
  obtain ⟨h1, h2, h3, h4, ev, h5, h6⟩ := pool_frame hw h
  have hpr := pool_snoc I.pr h
  have hnew : ∀ i t, p.trace = s.p.trace ++ [.start i t] → s.begun t = false := by
    intro i t ht
    cases hb : s.begun t with
    | false => rfl
    | true =>
      exfalso
      obtain ⟨k, hk⟩ := I.beg t hb
      have h7 := (ThreadPool.c26_at_most_once hC.N hpr t).1
      have h8 : 0 < s.p.trace.countP (ThreadPool.isStart t) := List.countP_pos_iff.2 ⟨_, hk, by simp [ThreadPool.isStart]⟩
      rw [ht, List.countP_append] at h7
      simp only [List.countP_cons, List.countP_nil, ThreadPool.isStart, beq_self_eq_true, if_true] at h7
      omega
  obtain ⟨gr, pr, nj, qr, nodes, nodup, late, pjob, pinj, djob, qjob, qinj, gave, pend, fin, beg, ph, ph', dr, dr', dinj, run⟩ := I
  refine ⟨gr, hpr, ?_, qr, nodes, nodup, late, ?_, ?_, ?_, qjob, qinj, ?_, ?_, ?_, ?_, ?_, ?_, dr, dr', dinj, run⟩
  · rw [h5]
    intro hm
    rcases List.mem_append.1 hm with hm | hm
    · exact nj hm
    · exact (h6 _ hm).1 rfl
  · grind
  · grind
  · grind
  · grind
  · intro j
    have := pend j
    simp only [waitingFor] at this ⊢
    rw [h1]
    exact this
  · intro t ht
    rw [h5] at ht
    rcases List.mem_append.1 ht with hm | hm
    · exact fin t hm
    · exact absurd rfl ((h6 _ hm).2 t)
  · intro t ht
    obtain ⟨i, hi⟩ := beg t ht
    exact ⟨i, by rw [h5]; simp [hi]⟩
  · intro i t hi ht hb
    rcases h4 i t hi ht with ⟨h7, h8⟩ | h7
    · exact ph i t h7 h8 hb
    · rw [hnew i t h7] at hb; cases hb
  · intro i hi
    obtain ⟨h7, t, h8, h9⟩ := ph' i hi
    exact ⟨by simp only; omega, t, h3 i t h7 h8, h9⟩

theorem Inv.finish (I : Inv C s) (hC : C.Ok) {i : Nat} {p : ThreadPool.St} (hph : s.phase i ≠ .idle) (hdr : ∀ j, s.phase i ≠ .drain j)
    (h : ThreadPool.step C.N C.limit s.p (.finish i) = some p) : Inv C { s with p := p, phase := upd s.phase i .idle } := by
  have hpr := pool_snoc I.pr h
  obtain ⟨-, u, hu, hub⟩ := I.ph' i hph
  have hf : i < s.p.nth ∧ p.next = s.p.next ∧ p.nth = s.p.nth ∧ p.th = ThreadPool.upd s.p.th i (.scan 0) ∧ p.trace = s.p.trace ++ [.finish u] := by
    simp only [ThreadPool.step] at h
    split at h
    · rw [hu] at h
      cases h
      exact ⟨‹_›, rfl, rfl, rfl, rfl⟩
    · cases h
  obtain ⟨h0, h1, h2, h3, h4⟩ := hf
  have h3' : ∀ k, p.th k = if k = i then .scan 0 else s.p.th k := fun k => by rw [h3]; rfl
  have huniq := fun k hk hku => calling_unique hC.N I.pr h0 hu (k := k) hk hku
  obtain ⟨gr, pr, nj, qr, nodes, nodup, late, pjob, pinj, djob, qjob, qinj, gave, pend, fin, beg, ph, ph', dr, dr', dinj, run⟩ := I
  refine ⟨gr, hpr, ?_, qr, nodes, nodup, late, ?_, ?_, ?_, qjob, qinj, ?_, ?_, ?_, ?_, ?_, ?_, ?_, ?_, ?_, run⟩
  · simp [h4, nj]
  · grind
  · grind
  · grind
  · grind
  · intro j
    have := pend j
    simp only [waitingFor] at this ⊢
    rw [h1]
    exact this
  · grind
  · intro t ht
    obtain ⟨k, hk⟩ := beg t ht
    exact ⟨k, by simp [h4, hk]⟩
  · grind
  · grind
  · grind
  · intro j hj
    obtain ⟨k, hk⟩ := dr' j hj
    exact ⟨k, by grind⟩
  · grind

end Verif.Layers
