import Verif.ChannelLayersInv
import Verif.LayersProps
import Verif.LayersThreads
import Verif.Channel.Kahn

/-!
# Channels on the executors of the library: properties (C108)
-/

namespace Verif.ChannelLayers

open Channel (Net)

variable {G : Net} {X : Cfg} {s s' : St}

/-- **C108**: the parts of the system behave as each was modelled alone: every theorem about reachable states of a network of processes and of the
executors applies. -/
theorem c108_parts (h : Reachable G X s) : Channel.Reachable G s.c ∧ Layers.Reachable X.layers s.l := ⟨h.inv.cr, h.inv.lr⟩

/-! ## The system comes to rest -/

/-- The system goes from one state to another by itself. -/
def Next (G : Net) (X : Cfg) (s s' : St) : Prop := ∃ a, internal a = true ∧ step G X s a = some s'

/-- Nothing is left to do: the system cannot go on by itself. -/
def AtRest (G : Net) (X : Cfg) (s : St) : Prop := ∀ s', ¬Next G X s s'

/-- Whatever order the steps are taken in, `P` holds at some time. -/
inductive Eventually (G : Net) (X : Cfg) (P : St → Prop) : St → Prop where
  | now {s : St} : P s → Eventually G X P s
  | later {s : St} : (∃ s', Next G X s s') → (∀ s', Next G X s s' → Eventually G X P s') → Eventually G X P s

/-- How many steps of processes are still to be given to an executor. -/
def uncalled (s : St) : Nat := (List.range s.c.next).countP fun j => (begins (s.c.pc j)).isSome && (s.task j).isNone

def weight (X : Cfg) (s : St) : Nat := uncalled s * (2 * Layers.wsub X.N + 21) + Layers.weight X.layers s.l

theorem uncalled_call {l : Layers.St} {i j : Nat} (hj : j < s.c.next) (hb : begins (s.c.pc j) = some i) (ht : s.task j = none) :
    uncalled s = uncalled { s with l := l, task := Layers.upd s.task j (some i) } + 1 := by
  have : ∀ n, (List.range n).countP (fun k => (begins (s.c.pc k)).isSome && (s.task k).isNone) =
      (List.range n).countP (fun k => (begins (s.c.pc k)).isSome && (Layers.upd s.task j (some i) k).isNone) + if j < n then 1 else 0 := by
    intro n
    induction n with
    | zero => simp
    | succ n ih =>
      simp only [List.range_succ, List.countP_append, List.countP_cons, List.countP_nil, ih]
      by_cases hn : n = j
      · subst hn; simp [Layers.upd, hb, ht]
      · have h1 : j < n + 1 ↔ j < n := by omega
        simp only [h1, Layers.upd, hn, if_false]
        omega
  simp only [uncalled]
  rw [this s.c.next, if_pos hj]

theorem weight_async {C : Layers.Cfg} {l l' : Layers.St} {n : Nat} (I : Layers.Inv C l) (P : Plain l.g)
    (h : Layers.step C l (.graph (.async n n)) = .ok l') : Layers.weight C l' = Layers.weight C l + (2 * Layers.wsub C.N + 20) := by
  have hg := graph_ok h
  have hl : l' = { l with g := l'.g, nodes := n :: l.nodes } := by
    simp only [Layers.step, Layers.makes] at h
    split at h <;> cases h
    rfl
  obtain ⟨P', h1, h2⟩ := P.async hg
  have hgv : l.given n = false := by
    cases hv : l.given n with
    | false => rfl
    | true => exact absurd h1 (I.late n hv).1
  have hn : n ∉ l.nodes := by rw [I.nodes]; simp [h1]
  have hw : Layers.wnode C.N l'.g l.given n = 2 * Layers.wsub C.N + 20 := by
    simp [Layers.wnode, h2, Shared.upd, hgv, P'.own n]
  have hm : l.nodes.map (Layers.wnode C.N l'.g l.given) = l.nodes.map (Layers.wnode C.N l.g l.given) := by
    refine List.map_congr_left fun m hm => ?_
    have : m ≠ n := fun h => hn (h ▸ hm)
    simp [Layers.wnode, h2, Shared.upd, this, P'.own m, P.own m]
  rw [hl]
  simp only [Layers.weight, List.map_cons, List.sum_cons, hw, hm]
  omega

/-- A step of the system by itself is a step of a thread of the network, or makes the weight less. -/
theorem next_cases (hX : X.Ok) (I : Inv G X s) (h : Next G X s s') :
    Channel.Next G s.c s'.c ∨ (s'.c = s.c ∧ weight X s' < weight X s) := by
  obtain ⟨a, ha, h⟩ := h
  cases a with
  | user a => cases ha
  | job j =>
    simp only [step] at h
    split at h
    · obtain ⟨c, hc, rfl⟩ := Option.map_eq_some_iff.1 h
      exact .inl ⟨_, rfl, hc⟩
    · cases h
  | ret j r =>
    simp only [step] at h
    split at h
    · obtain ⟨c, hc, rfl⟩ := Option.map_eq_some_iff.1 h
      exact .inl ⟨_, rfl, hc⟩
    · cases h
  | exe a =>
    simp only [step] at h
    split at h
    · cases h
    · obtain ⟨l, hl, rfl⟩ := layers_ok h
      have := Layers.weight_less hX.layers I.lr ha hl
      refine .inr ⟨rfl, ?_⟩
      simp only [weight, uncalled]
      omega
  | call j =>
    simp only [step] at h
    split at h
    · rename_i i hb ht
      obtain ⟨s1, h1, rfl⟩ := Option.map_eq_some_iff.1 h
      obtain ⟨l, hl, rfl⟩ := layers_ok h1
      have hj : j < s.c.next := Nat.lt_of_not_le fun h1 => by rw [I.fr j h1] at hb; cases hb
      have h2 := uncalled_call (l := l) hj hb ht
      have h3 := weight_async (I.lr.inv hX.layers) I.pl hl
      have h4 : X.layers.N = X.N := rfl
      refine .inr ⟨rfl, ?_⟩
      simp only [weight]
      rw [h2, h3, h4, Nat.add_mul, Nat.one_mul]
      omega
    · cases h
  | over j =>
    simp only [step] at h
    split at h
    · split at h
      · obtain ⟨l, hl, rfl⟩ := layers_ok h
        have := Layers.weight_less hX.layers I.lr (a := .graph (.retVal _ 0)) rfl hl
        refine .inr ⟨rfl, ?_⟩
        simp only [weight, uncalled]
        omega
      · cases h
    · cases h

theorem Next.reachable (h : Reachable G X s) (hn : Next G X s s') : Reachable G X s' := by
  obtain ⟨a, -, hn⟩ := hn
  exact .step a h hn

/-- **C108**: without new messages there are only finitely many steps of the threads of the system, in whatever order they take them. -/
theorem c108_terminates (W : G.Wf) {n : Nat} (B : G.Bounded n) (hX : X.Ok) (h : Reachable G X s) : Acc (fun s' s => Next G X s s') s := by
  have key : ∀ c, Acc (fun c' c => Channel.Next G c c') c → ∀ w s, s.c = c → weight X s = w → Reachable G X s → Acc (fun s' s => Next G X s s') s := by
    intro c hc
    induction hc with
    | intro c _ ih =>
      intro w
      induction w using Nat.strongRecOn with
      | ind w ihw =>
        intro s hsc hw h
        constructor
        intro s' hn
        rcases next_cases hX h.inv hn with h1 | ⟨h1, h2⟩
        · exact ih s'.c (hsc ▸ h1) _ s' rfl rfl (hn.reachable h)
        · exact ihw (weight X s') (hw ▸ h2) s' (h1.trans hsc) rfl (hn.reachable h)
  exact key s.c (Channel.c59_terminates W B h.inv.cr) _ s rfl rfl h

theorem c108_no_infinite_run (W : G.Wf) {n : Nat} (B : G.Bounded n) (hX : X.Ok) (h : Reachable G X s) (f : Nat → St) (h0 : f 0 = s) :
    ¬∀ n, Next G X (f n) (f (n + 1)) := by
  intro hf
  have key : ∀ s, Acc (fun s' s => Next G X s s') s → ∀ n, f n ≠ s := by
    intro s ha
    induction ha with
    | intro s _ ih =>
      intro n hn
      exact ih (f (n + 1)) (hn ▸ hf n) (n + 1) rfl
  exact key s (c108_terminates W B hX h) 0 h0

/-! ## At rest nothing is left to do -/

theorem ended_eq (p : Channel.Pc) : ended p = p.ended := by cases p <;> rfl

/-- A thread that is executed can go on unless it ended. -/
theorem runs_next {j : Nat} (hr : runs s j = true) (he : ended (s.c.pc j) = false) : ∃ s', Next G X s s' := by
  rw [ended_eq] at he
  by_cases hb : ∃ i, s.c.pc j = .busy i
  · obtain ⟨i, hi⟩ := hb
    have : ∃ s', step G X s (.ret j (.val 0)) = some s' := by simp [step, hr, Channel.step, hi]
    obtain ⟨s', h1⟩ := this
    exact ⟨s', _, rfl, h1⟩
  · obtain ⟨c, hc⟩ := Channel.c39_threads_go_on (G := G) he fun i hi => hb ⟨i, hi⟩
    have : ∃ s', step G X s (.job j) = some s' := by simp [step, hr, hc]
    obtain ⟨s', h1⟩ := this
    exact ⟨s', _, rfl, h1⟩

theorem AtRest.not_running (h : Reachable G X s) (r : AtRest G X s) (n : Nat) : s.l.g.pc n ≠ .running := by
  intro hn
  have I := h.inv
  obtain ⟨i, j, rfl⟩ : ∃ i j, n = Nat.pair i j := ⟨n.unpair.1, n.unpair.2, (Nat.pair_unpair n).symm⟩
  have ht := I.nod i j (by simp [hn])
  cases he : ended (s.c.pc j) with
  | true =>
    have : ∃ s', step G X s (.over j) = some s' := by
      simp [step, ht, he, layers, Layers.step, Graph.step, hn]
    obtain ⟨s', h1⟩ := this
    exact r s' ⟨_, rfl, h1⟩
  | false =>
    obtain ⟨s', h1⟩ := runs_next (G := G) (X := X) ((runs_iff j).2 (.inl ⟨i, ht, hn⟩)) he
    exact r s' h1

/-- The executors are at rest as well. -/
theorem AtRest.layers (h : Reachable G X s) (r : AtRest G X s) : Layers.AtRest X.layers s.l := by
  intro a l ha hl
  have I := h.inv
  cases hg : isGraph a with
  | false => exact r { s with l := l } ⟨.exe a, ha, by simp [step, hg, ChannelLayers.layers, hl]⟩
  | true =>
    cases a <;> simp only [isGraph, Bool.false_eq_true] at hg
    rename_i a
    have hs := graph_ok hl
    have hnr := r.not_running h
    cases a <;> simp only [Layers.internal, Bool.false_eq_true] at ha <;> simp only [Graph.step] at hs
    case retVal n v => simp [hnr n] at hs
    case retThrow n v => simp [hnr n] at hs
    case retFut n f =>
      split at hs
      · cases hs
      · simp [hnr n] at hs
    case flatten n =>
      have := I.pl.pcs n
      split at hs
      · simp_all
      · cases hs
    case reap n => simp [I.pl.own n] at hs

/-- **C108**: at rest nothing is left to do anywhere: no thread of the network has anything to do, all tasks given to the pool and to serial queues
were executed, and no thread of the pool is calling one. -/
theorem c108_at_rest (hX : X.Ok) (h : Reachable G X s) (r : AtRest G X s) :
    (∀ j, (s.c.pc j).ended = true) ∧ (∀ t < s.l.p.next, .finish t ∈ s.l.p.trace) ∧ (∀ i < s.l.p.nth, ∀ t, s.l.p.th i ≠ .calling t) ∧
      ∀ q, SerialQueue.finished (s.l.q q).trace = SerialQueue.submitted (s.l.q q).trace := by
  have I := h.inv
  obtain ⟨h1, h2⟩ := Layers.c107_at_rest hX.layers I.lr (r.layers h)
  refine ⟨fun j => ?_, h2⟩
  rw [← ended_eq]
  cases he : ended (s.c.pc j) with
  | true => rfl
  | false =>
    exfalso
    cases ht : s.task j with
    | some i =>
      have hn := (I.tsk j i ht).2
      rcases I.pl.pcs (Nat.pair i j) with hp | hp | hp | hp
      · exact hn hp
      · exact (h1 _).1 hp
      · exact (h1 _).2.1 hp
      · rw [I.rdy i j hp] at he; cases he
    | none =>
      cases hb : begins (s.c.pc j) with
      | some i =>
        have hn : s.l.g.pc (Nat.pair i j) = .none := by
          refine Classical.byContradiction fun hn => ?_
          rw [I.nod i j hn] at ht
          cases ht
        have : ∃ s', step G X s (.call j) = some s' := by
          simp [step, ht, hb, ChannelLayers.layers, Layers.step, Graph.step, hn, I.pl.fut _ hn]
        obtain ⟨s', h1⟩ := this
        exact r s' ⟨_, rfl, h1⟩
      | none =>
        obtain ⟨s', h1⟩ := runs_next (G := G) (X := X) (s := s) (j := j) (by simp [runs, ht, hb]) he
        exact r s' h1

/-- **C108**: the system does come to rest, whatever its threads do, also with a single thread in the pool: a process that waits for room in the
queues after it holds no thread. -/
theorem c108_rest (W : G.Wf) {n : Nat} (B : G.Bounded n) (hX : X.Ok) (h : Reachable G X s) : Eventually G X (AtRest G X) s := by
  induction c108_terminates W B hX h with
  | intro s _ ih =>
    by_cases hr : AtRest G X s
    · exact .now hr
    · simp only [AtRest, Classical.not_forall, Classical.not_not] at hr
      exact .later hr fun s' hs => ih s' hs (hs.reachable h)

theorem AtRest.quiet (hX : X.Ok) (h : Reachable G X s) (r : AtRest G X s) (hr : ∀ i, s.c.rcv i = 0) : Channel.Quiet s.c :=
  ⟨(c108_at_rest hX h r).1, hr⟩

/-- **C108**: if every receiver is ready, then at rest every message sent was handled, by the process it was sent to and by all after it, except for
what was sent to a process that got an error, or is before one that did. -/
theorem c108_all_handled (W : G.Wf) (T : G.Tight) {n : Nat} (B : G.Bounded n) (hX : X.Ok) (h : Reachable G X s) (r : AtRest G X s)
    (hr : ∀ i, s.c.rcv i = 0) {i : Nat} (hE : ∀ d, Channel.Below G i d → Channel.Eager G d)
    (hn : ∀ d, Channel.Below G i d → ∀ m ∈ s.c.pops d, ∀ x ∈ m, x.2 ≠ .err) :
    (∀ k < G.slots i, s.c.inp i k = Channel.fromSlot k (s.c.calls i)) ∧ (s.c.outs i).length = (s.c.calls i).length ∧
      ∀ d k, (d, k) ∈ G.down i → s.c.inp d k = s.c.outs i :=
  Channel.c39_all_handled W T B h.inv.cr (r.quiet hX h hr) hE fun d hd hF => by
    obtain ⟨m, hm, x, hx, he⟩ := (Channel.c46_failed_iff W T h.inv.cr (r.quiet hX h hr) d).1 hF
    exact hn d hd m hm x hx he

/-- **C108**: the streams do not depend on the executors: at rest every process was called as often as the messages sent allow, with the arguments
that the network computes. -/
theorem c108_streams (W : G.Wf) (T : G.Tight) (hX : X.Ok) (h : Reachable G X s) (r : AtRest G X s) (hr : ∀ i, s.c.rcv i = 0)
    {C : Nat → Prop} {v : Nat → Nat} (V : Channel.Rates G C v) (hF : ∀ i, C i → ¬Channel.Failed s.c i) {n : Nat}
    (hS : ∀ i, C i → G.up i 0 = none → v i * (s.c.inp i 0).length = n) {F : Nat → List Channel.Args → Channel.Msg} {Y : Nat → List Channel.Msg}
    (R : Channel.Runs G C F Y s.c) {i : Nat} (hi : C i) :
    v i * (s.c.calls i).length = n ∧ (∀ k, k < G.slots i → s.c.inp i k = Channel.fromSlot k (s.c.calls i) ∧ s.c.q i k = []) ∧
      Channel.collect (Channel.callAt G F Y (i + 1) i) (s.c.calls i).length = some (s.c.calls i) :=
  Channel.c95_complete W T h.inv.cr (r.quiet hX h hr) V hF hS R hi

/-! ## Who calls the functions -/

/-- A thread in a step of process `i` is a task that its executor is executing. -/
theorem Inv.running (I : Inv G X s) {i j : Nat} (ho : (s.c.pc j).of = some i) (hp : s.c.pc j ≠ .pop i) (he : ended (s.c.pc j) = false) :
    s.l.g.pc (Nat.pair i j) = .running := by
  rcases I.own i j ho with h1 | ⟨-, h1⟩
  · rcases I.pl.pcs (Nat.pair i j) with h2 | h2 | h2 | h2
    · exact absurd h2 (I.tsk j i h1).2
    · exact absurd (I.sch i j h2) hp
    · exact h2
    · rw [I.rdy i j h2] at he; cases he
  · exact absurd h1 hp

theorem Inv.busy (I : Inv G X s) {i j : Nat} (h : s.c.pc j = .busy i) : s.l.g.pc (Nat.pair i j) = .running :=
  I.running (by rw [h]; rfl) (by rw [h]; simp) (by rw [h]; rfl)

/-- **C108**: of all processes with the same serial queue at most one is in a step, hence at most one of their functions is being called: a serial queue
makes processes exclude each other. -/
theorem c108_exclusive (hX : X.Ok) (h : Reachable G X s) {i i' j j' q : Nat} (hi : X.exe i = .serial q) (hi' : X.exe i' = .serial q)
    (ho : (s.c.pc j).of = some i) (hp : s.c.pc j ≠ .pop i) (he : (s.c.pc j).ended = false)
    (ho' : (s.c.pc j').of = some i') (hp' : s.c.pc j' ≠ .pop i') (he' : (s.c.pc j').ended = false) : i = i' ∧ j = j' := by
  have I := h.inv
  have := Layers.c107_exclusive hX.layers I.lr (n := Nat.pair i j) (m := Nat.pair i' j') (j := q) (by simpa [Cfg.layers] using hi)
    (by simpa [Cfg.layers] using hi') (I.running ho hp (by rw [ended_eq]; exact he)) (I.running ho' hp' (by rw [ended_eq]; exact he'))
  simpa using this

/-- **C108**: no more functions of processes that do not use `immediate_executor` are being called at the same time than the pool has threads, and
each is called by a thread of the pool. -/
theorem c108_threads (hX : X.Ok) (h : Reachable G X s) {l : List (Nat × Nat)} (hl : l.Nodup)
    (hb : ∀ x ∈ l, s.c.pc x.2 = .busy x.1 ∧ X.exe x.1 ≠ .immediate) :
    l.length ≤ s.l.p.nth ∧ ∀ x ∈ l, ∃ k, Layers.CalledBy X.layers s.l (Nat.pair x.1 x.2) k := by
  have I := h.inv
  have hr : ∀ n ∈ l.map fun x => Nat.pair x.1 x.2, s.l.g.pc n = .running ∧ X.layers.exe n ≠ .immediate := by
    intro n hn
    obtain ⟨x, hx, rfl⟩ := List.mem_map.1 hn
    refine ⟨I.busy (hb x hx).1, ?_⟩
    have := (hb x hx).2
    simpa [Cfg.layers] using this
  refine ⟨?_, fun x hx => ?_⟩
  · have := Layers.c107_threads hX.layers I.lr (l := l.map fun x => Nat.pair x.1 x.2) ?_ hr
    · simpa using this
    · refine List.Pairwise.map _ (fun x y hxy h => hxy ?_) hl
      simp only [Nat.pair_eq_pair] at h
      exact Prod.ext h.1 h.2
  · have := hr _ (List.mem_map_of_mem (f := fun x : Nat × Nat => Nat.pair x.1 x.2) hx)
    exact Layers.c107_called_by hX.layers I.lr this.1 this.2

/-! ## An execution

Two processes, one after the other, with the same serial queue over a pool with one thread. -/

def cfg : Cfg := { N := 1, limit := 1, M := 1, mode := fun _ => .single, exe := fun _ => .serial 0 }

theorem cfg_ok : cfg.Ok := ⟨by decide, fun _ _ h => (by cases h), fun _ _ h => (by cases h; decide)⟩

def go (j n : Nat) : List Act := List.replicate n (.job j)

/-- The receivers become ready, 10 is sent, and the function of process 0 is called by the thread of the pool. -/
def first : List Act :=
  [.user (.dropRecv 1), .job 0, .user (.dropRecv 0), .job 1, .user (.send 0 0 (.val 10)), .call 2, .exe (.give 4 0), .exe (.kick 0 0),
   .exe (.pool (.tryPush 0 true)), .exe (.pool (.notify 0)), .exe (.pool (.tryPop 0 true)), .exe (.begin 0), .exe (.serve 0 0),
   .exe (.serve 0 0)] ++ go 2 3

/-- It returns 22, which is sent on: process 1 is to be executed by the serial queue while process 0 still is. -/
def second : List Act := [.ret 2 (.val 22)] ++ go 2 5 ++ [.call 3, .exe (.give 10 0)]

/-- Process 0 returns, and the function of process 1 is called. -/
def third : List Act :=
  go 2 3 ++ [.over 2, .exe (.serve 0 0), .exe (.serve 0 0), .exe (.serve 0 0), .exe (.finish 0), .exe (.pool (.tryPush 0 true)),
   .exe (.pool (.notify 0)), .exe (.pool (.tryPop 0 true)), .exe (.begin 0), .exe (.serve 0 0), .exe (.serve 0 0)] ++ go 3 5

/-- Nothing is left to do. -/
def fourth : List Act :=
  [.ret 3 (.val 23)] ++ go 3 5 ++ [.over 3, .exe (.serve 0 0), .exe (.serve 0 0), .exe (.finish 0), .exe (.pool (.tryPop 0 true)),
   .exe (.pool (.enter 0))]

theorem exec_reachable {as : List Act} (h : Reachable G X s) (he : exec G X s as = some s') : Reachable G X s' := by
  induction as generalizing s with
  | nil => cases he; exact h
  | cons a as ih =>
    obtain ⟨s1, h1, h2⟩ := Option.bind_eq_some_iff.1 he
    exact ih (.step a h h1) h2

theorem witness {as : List Act} (f : St → Bool) (h : (exec G X (init G X) as).any f = true) : ∃ s, Reachable G X s ∧ f s = true := by
  cases h1 : exec G X (init G X) as with
  | none => rw [h1] at h; cases h
  | some s => rw [h1] at h; exact ⟨s, exec_reachable .init h1, h⟩

open Channel (pipe)

/-- The hypotheses of `c108_exclusive` and `c108_threads`: process 0 is in a step, process 1 waits for the serial queue. -/
example : ∃ s, Reachable (pipe 1) cfg s ∧ s.c.pc 2 = .busy 0 ∧ s.c.pc 3 = .none := by
  obtain ⟨s, h, hf⟩ := witness (G := pipe 1) (X := cfg) (as := first) (fun s => decide (s.c.pc 2 = .busy 0 ∧ s.c.pc 3 = .none)) (by decide)
  exact ⟨s, h, by simpa using hf⟩

example : ∃ s, Reachable (pipe 1) cfg s ∧ (s.c.pc 2).of = some 0 ∧ (s.c.pc 2).ended = false ∧ s.c.pc 3 = .pop 1 ∧
    s.l.g.pc (Nat.pair 0 2) = .running ∧ s.l.g.pc (Nat.pair 1 3) = .sched := by
  obtain ⟨s, h, hf⟩ := witness (G := pipe 1) (X := cfg) (as := first ++ second) (fun s => decide ((s.c.pc 2).of = some 0 ∧
    (s.c.pc 2).ended = false ∧ s.c.pc 3 = .pop 1 ∧ s.l.g.pc (Nat.pair 0 2) = .running ∧ s.l.g.pc (Nat.pair 1 3) = .sched)) (by decide)
  exact ⟨s, h, by simpa using hf⟩

/-- The other function has the thread later. -/
example : ∃ s, Reachable (pipe 1) cfg s ∧ s.c.pc 3 = .busy 1 ∧ s.c.calls 1 = [[(0, .val 22)]] := by
  obtain ⟨s, h, hf⟩ := witness (G := pipe 1) (X := cfg) (as := first ++ second ++ third) (fun s => decide (s.c.pc 3 = .busy 1 ∧
    s.c.calls 1 = [[(0, .val 22)]])) (by decide)
  exact ⟨s, h, by simpa using hf⟩

/-- A state at rest, as in the hypotheses of `c108_at_rest`, `c108_all_handled` and `c108_streams`. -/
example : ∃ s, Reachable (pipe 1) cfg s ∧ AtRest (pipe 1) cfg s ∧ (∀ i, s.c.rcv i = 0) ∧ (∀ i < 2, ∀ m ∈ s.c.pops i, ∀ x ∈ m, x.2 ≠ .err) ∧
    s.c.calls 0 = [[(0, .val 10)]] ∧ s.c.calls 1 = [[(0, .val 22)]] := by
  obtain ⟨s, h, hf⟩ := witness (G := pipe 1) (X := cfg) (as := first ++ second ++ third ++ fourth) (fun s => (weight cfg s == 0) &&
    ((List.range s.c.next).all fun j => (s.c.pc j).ended) && ((List.range 2).all fun i => s.c.rcv i == 0) &&
    ((List.range 2).all fun i => (s.c.pops i).all fun m => m.all fun x => decide (x.2 ≠ .err)) &&
    (s.c.calls 0 == [[(0, .val 10)]]) && (s.c.calls 1 == [[(0, .val 22)]])) (by decide)
  simp only [Bool.and_eq_true, List.all_eq_true, List.mem_range, decide_eq_true_eq, beq_iff_eq] at hf
  obtain ⟨⟨⟨⟨⟨h1, h2⟩, h3⟩, h4⟩, h5⟩, h6⟩ := hf
  refine ⟨s, h, fun s' hn => ?_, fun i => ?_, h4, h5, h6⟩
  · rcases next_cases cfg_ok h.inv hn with ⟨a, ha, hs⟩ | ⟨-, hw⟩
    · have he : ∀ j, (s.c.pc j).ended = true := fun j => by
        by_cases hj : j < s.c.next
        · exact h2 j hj
        · rw [h.inv.fr j (by omega)]; rfl
      cases a with
      | job j =>
        have := he j
        simp only [Channel.step] at hs
        cases hp : s.c.pc j <;> rw [hp] at this <;> first | (cases this; done) | (simp [Channel.stepJob, hp] at hs; done)
      | ret j r =>
        have := he j
        simp only [Channel.step] at hs
        cases hp : s.c.pc j <;> rw [hp] at this hs <;> first | (cases this; done) | cases hs
      | _ => cases ha
    · omega
  · by_cases hi : i < 2
    · exact h3 i hi
    · exact h.inv.cr.rcv (if_neg hi)

end Verif.ChannelLayers
