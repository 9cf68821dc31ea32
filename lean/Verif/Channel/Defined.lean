import Verif.Channel.Counter
import Verif.Channel.ProcessTimedProps

/-!
# C74: no data races and no undefined behaviour in channels

All members of a `shared_process` (channel.hpp lines 734-757) are atomic, or constant, or only used with `_process_mutex` locked, but
for `_process` and `_downstream`: these are used without a lock by the thread that runs the process (lines 671-672, 886-900,
1009-1080, 1113), and are cleared with `_downstream_mutex` locked (lines 821-825). All atomics are sequentially consistent. So an
execution has a data race if and only if at some time two threads are about to access one of these two members of a process, one of
them to write it, and not both with `_downstream_mutex` locked.
-/

namespace Verif.Channel

variable {G : Net} {s : St}

inductive Mem where
  | process
  | downstream
  deriving DecidableEq, Repr

structure Access where
  /-- the process -/
  of : Nat
  mem : Mem
  write : Bool
  /-- with `_downstream_mutex` locked -/
  locked : Bool
  deriving DecidableEq, Repr

/-- What the next step of a thread at `p` accesses. A call of the function may change it (lines 1111-1114). The destruction of the senders
and then of the function, once begun (lines 821-823), is for the process for which the thread is marked in `clr`. -/
def accesses (s : St) (j : Nat) (a : Access) : Prop :=
  match s.pc j with
  | .call i _ | .busy i => a = ⟨i, .process, true, false⟩
  | .bcast i _ | .free i _ _ _ => a = ⟨i, .downstream, false, true⟩
  | .send i _ _ => a = ⟨i, .downstream, false, false⟩
  | .taskDone i => s.final i = true ∧ (a = ⟨i, .downstream, true, true⟩ ∨ a = ⟨i, .process, true, true⟩)
  | .clear _ | .close2 _ _ => s.clr a.of = some j ∧ a.write = true ∧ a.locked = true
  | _ => False

/-- Two accesses that need an order. -/
def Conflict (a b : Access) : Prop := a.of = b.of ∧ a.mem = b.mem ∧ (a.write = true ∨ b.write = true) ∧ ¬(a.locked = true ∧ b.locked = true)

/-- Two threads are about to access the same member. -/
def DataRace (s : St) : Prop := ∃ j j' a b, j ≠ j' ∧ accesses s j a ∧ accesses s j' b ∧ Conflict a b

theorem accesses_of (I : Inv G s) {j : Nat} {a : Access} (h : accesses s j a) :
    s.main a.of = some j ∨ s.clr a.of = some j := by
  unfold accesses at h
  split at h
  case h_9 => exact h.elim
  case h_7 => exact .inr h.1
  case h_8 => exact .inr h.1
  all_goals
    rename_i hp
    left
    refine (I.mn _ _).1 ?_
    rw [hp]
  case h_6 => rcases h.2 with rfl | rfl <;> rfl
  all_goals subst h; rfl

/-- **C74**, data races: in every execution of a network in which each process with receivers has one with buffer size 1, no two threads
access the function or the receivers of a process at the same time, one of them to change it, without a lock. -/
theorem c74_no_race_partial (W : G.Wf) (T : G.Tight) (h : Reachable G s) : ¬DataRace s := by
  have I := h.inv W T
  rintro ⟨j, j', a, b, hne, ha, hb, hc, -⟩
  have h1 := accesses_of I ha
  have h2 := accesses_of I hb
  rw [← hc] at h2
  have h3 := I.dn a.of
  rcases h1 with h1 | h1 <;> rcases h2 with h2 | h2
  · rw [h1] at h2; cases h2; exact hne rfl
  · rcases h3 with ⟨-, h3⟩ | ⟨-, -, h3⟩
    · rw [h3] at h2; cases h2
    · rw [h3] at h1; cases h1
  · rcases h3 with ⟨-, h3⟩ | ⟨-, -, h3⟩
    · rw [h3] at h1; cases h1
    · rw [h3] at h2; cases h2
  · rw [h1] at h2; cases h2; exact hne rfl

/-- Process 0 is about to be closed while process 1 handles the last message; then its sender is destroyed. -/
example : (pipe 1).Wf ∧ (pipe 1).Tight ∧ ∃ s, CleanReachable (pipe 1) s ∧ s.pc 4 = .busy 1 ∧ s.pc 5 = .taskDone 0 ∧ s.final 0 = true ∧
    accesses s 4 ⟨1, .process, true, false⟩ ∧ accesses s 5 ⟨0, .downstream, true, true⟩ := by
  refine ⟨pipe_wf 1, pipe_tight, ?_⟩
  obtain ⟨s, h, hp⟩ := clean_witness (G := pipe 1)
    (as := ready2 ++ [.send 0 0 (.val 10), .dropSender 0 0] ++ go 3 1 ++ go 2 3 ++ [.ret 2 (.val 20)] ++ go 2 8 ++ go 4 5 ++ go 5 2)
    (fun s => s.pc 4 = .busy 1 ∧ s.pc 5 = .taskDone 0 ∧ s.final 0 = true) (by decide) (by decide)
  have hp := of_decide_eq_true hp
  exact ⟨s, h, hp.1, hp.2.1, hp.2.2, by simp [accesses, hp.1], by simp [accesses, hp.2.1, hp.2.2]⟩

example : ∃ s, CleanReachable (pipe 1) s ∧ s.pc 4 = .busy 1 ∧ s.pc 5 = .clear [(1, .up 0 0)] ∧ s.clr 0 = some 5 ∧
    accesses s 5 ⟨0, .downstream, true, true⟩ := by
  obtain ⟨s, h, hp⟩ := clean_witness (G := pipe 1)
    (as := ready2 ++ [.send 0 0 (.val 10), .dropSender 0 0] ++ go 3 1 ++ go 2 3 ++ [.ret 2 (.val 20)] ++ go 2 8 ++ go 4 5 ++ go 5 3)
    (fun s => s.pc 4 = .busy 1 ∧ s.pc 5 = .clear [(1, .up 0 0)] ∧ s.clr 0 = some 5) (by decide) (by decide)
  have hp := of_decide_eq_true hp
  exact ⟨s, h, hp.1, hp.2.1, hp.2.2, by simp [accesses, hp.2.1, hp.2.2]⟩

/-- With an unlimited buffer, or one of size 2, there are data races: two threads are in the function of a process, which both may
change it. -/
theorem c74_race_counterexample : ∀ b ∈ [0, 2], ∃ s, CleanReachable (pipe b) s ∧ DataRace s := by
  intro b hb
  obtain ⟨s, h, h4, h5, -⟩ := c40_counterexample b hb
  exact ⟨s, h, 4, 5, ⟨0, .process, true, false⟩, ⟨0, .process, true, false⟩, by decide, by simp [accesses, h4], by simp [accesses, h5],
    rfl, rfl, .inl rfl, by simp⟩

/-- ... or a thread destroys the function while another is in it. -/
theorem c74_destroyed_counterexample : ∀ b ∈ [0, 2],
    ∃ s, CleanReachable (pipe b) s ∧ s.pc 4 = .busy 0 ∧ accesses s 6 ⟨0, .process, true, true⟩ ∧ DataRace s := by
  intro b hb
  have hb : b = 0 ∨ b = 2 := by simpa using hb
  obtain ⟨s, h, hp⟩ := clean_witness (G := pipe b) (as := ready2 ++ [.send 0 0 (.val 10), .send 0 0 (.val 11)] ++ go 2 3 ++
      [.ret 2 (.val 20)] ++ go 2 8 ++ go 3 1 ++ go 4 3 ++ go 3 4 ++ [.dropSender 0 0] ++ go 5 2 ++ go 6 2)
    (fun s => s.pc 4 = .busy 0 ∧ s.pc 6 = .taskDone 0 ∧ s.final 0 = true) (by decide) (by rcases hb with rfl | rfl <;> decide)
  have hp := of_decide_eq_true hp
  have h6 : accesses s 6 ⟨0, .process, true, true⟩ := by simp [accesses, hp.2.1, hp.2.2]
  exact ⟨s, h, hp.1, h6, 4, 6, ⟨0, .process, true, false⟩, ⟨0, .process, true, true⟩, by decide, by simp [accesses, hp.1], h6,
    rfl, rfl, .inl rfl, by simp⟩

/-- **C74**, assertions and what has to be there. -/
theorem c74_defined_partial (W : G.Wf) (T : G.Tight) (h : Reachable G s) :
    -- line 817
    (∀ i j, s.pc j = .taskDone i → s.final i = true → isEmpty G s i = true ∧ s.closeQ i = false) ∧
    -- line 599
    (∀ j d o es, s.pc j = .clear ((d, o) :: es) → 0 < s.snd d) ∧
    (∀ i n, .ext n ∈ s.sown i → 0 < s.snd i) ∧
    -- lines 1113 and 823: the function that is called has not been destroyed
    (∀ i j m, s.pc j = .call i m ∨ s.pc j = .busy i → s.clr i = none) ∧
    -- line 672: the senders that are called exist
    (∀ i j r es, s.pc j = .send i r es → ∀ e ∈ es, e ∈ s.down i) := by
  have I := h.inv W T
  refine ⟨?_, ?_, ?_, ?_, ?_⟩
  · intro i j _ hf
    exact ⟨(I.fi i hf).1, (I.fi i hf).2.1⟩
  · intro j d o es hj
    obtain ⟨i, k, ho, hc⟩ := I.cl j (d, o) (by simp [hj, Pc.rest])
    simp only at ho
    subst ho
    have := (I.so i d k).2 (.inr (by simp [pcm, hc, hj, Pc.rest]))
    rw [I.sn]
    exact List.length_pos_of_mem this
  · intro i n hi
    rw [I.sn]
    exact List.length_pos_of_mem hi
  · intro i j m hj
    have hm := (I.mn i j).1 (by rcases hj with hj | hj <;> rw [hj] <;> rfl)
    rcases I.dn i with ⟨-, h3⟩ | ⟨-, -, h3⟩
    · exact h3
    · rw [h3] at hm; cases hm
  · intro i j r es hj e he
    have hm := (I.mn i j).1 (by rw [hj]; rfl)
    exact (I.un i).2 e (by simpa [pcm, hm, hj, Pc.unsent] using he)

/-- Each queue that `front` and `pop_front` take a message of has one (lines 410-412, 443-455, 493-503, 547-557), in any state. -/
theorem c74_front (W : G.Wf) (s : St) (i : Nat) (h : isEmpty G s i = false) :
    popSlots (G.strat i) (G.slots i) (s.idx i) (s.q i) ≠ [] ∧
    ∀ k ∈ popSlots (G.strat i) (G.slots i) (s.idx i) (s.q i), s.q i k ≠ [] := by
  unfold isEmpty emptyQ at h
  unfold popSlots
  have := W.slots i
  cases hs : G.strat i <;> simp only [hs] at h ⊢
  · simpa using h
  · refine ⟨by simp; omega, fun k hk => ?_⟩
    have := List.any_eq_false.1 h k hk
    simpa using this
  · simpa using h
  · obtain ⟨k, hk, hq⟩ := List.all_eq_false.1 h
    cases hf : (List.range (G.slots i)).find? fun k => s.q i k ≠ [] with
    | none => have := List.find?_eq_none.1 hf k hk; simp_all
    | some x =>
      have := List.find?_some hf
      simpa using this

example : ∃ s, CleanReachable (merge .unord 1) s ∧ isEmpty (merge .unord 1) s 2 = false ∧ s.q 2 0 = [] ∧ s.q 2 1 = [.val 50] := by
  obtain ⟨s, h, hp⟩ := clean_witness (G := merge .unord 1)
    (as := ready4 ++ [.send 1 0 (.val 50)] ++ go 4 3 ++ [.ret 4 (.val 50)] ++ go 4 8)
    (fun s => isEmpty (merge .unord 1) s 2 = false ∧ s.q 2 0 = [] ∧ s.q 2 1 = [.val 50]) (by decide) (by decide)
  exact ⟨s, h, by simpa using hp⟩

end Verif.Channel

namespace Verif.Process

open Verif.Channel (Mem)

variable {σ : Type} {P : Proc σ} {n : Nat} {s s' : St σ}

/-- A thread of the process, or the one of receiver `k` in `clear_to_send`. -/
inductive Who where
  | thread (j : Nat)
  | receiver (k : Nat)
  deriving DecidableEq, Repr

structure Access where
  mem : Mem
  write : Bool
  /-- with `_downstream_mutex` locked -/
  locked : Bool
  deriving DecidableEq, Repr

/-- What the next step of a thread accesses: `get_process_state` reads the process (lines 837, 1009, 1014, 1063), as does line 1078;
the members other than `state` may change it (lines 303, 888-900, 1025, 1047, 1078); lines 1138-1140 and 1160 read the receivers;
lines 821-825 clear both. -/
def accesses (s : St σ) : Who → Access → Prop
  | .receiver k, a => s.cts k = .second ∧ a = ⟨.process, false, false⟩
  | .thread j, a => match s.pc j with
    | .loop | .handle _ | .decide | .own2 _ | .later | .timeout2 => a = ⟨.process, false, false⟩
    | .inErr | .inAwait _ | .inClose _ | .inYield _ => a = ⟨.process, true, false⟩
    | .bcast _ _ => a = ⟨.downstream, false, true⟩
    | .send _ _ _ => a = ⟨.downstream, false, false⟩
    | .clear => a = ⟨.downstream, true, true⟩ ∨ a = ⟨.process, true, true⟩
    | _ => False

def Conflict (a b : Access) : Prop := a.mem = b.mem ∧ (a.write = true ∨ b.write = true) ∧ ¬(a.locked = true ∧ b.locked = true)

def DataRace (s : St σ) : Prop := ∃ w w' a b, w ≠ w' ∧ accesses s w a ∧ accesses s w' b ∧ Conflict a b

theorem accesses_thread (I : Inv P n s) {j : Nat} {a : Access} (h : accesses s (.thread j) a) :
    s.main = some j ∧ (a.write = true → (pcm s).own = 0) ∨ s.pc j = .clear := by
  have ht := I.nt j
  simp only [accesses] at h
  cases hp : s.pc j <;> simp only [hp] at h ht
  case clear => exact .inr rfl
  case timeout2 => cases ht
  all_goals first
    | exact h.elim
    | (left
       obtain ⟨h1, h2, -⟩ := I.main hp rfl
       refine ⟨h1, fun hw => ?_⟩
       subst h
       first | (rw [h2]; rfl) | cases hw)

/-- **C74**, data races: nor are there any in a process with `await` and `yield` that never awaits with a time-out. -/
theorem c74_process_no_race_partial (hP : Untimed P) (h : Reachable P n s) : ¬DataRace s := by
  have I := inv hP h
  rintro ⟨w, w', a, b, hne, ha, hb, hm, hw, -⟩
  have key : ∀ {j k : Nat} {a : Access}, accesses s (.thread j) a → a.write = true → s.cts k ≠ .second := by
    intro j k a ha hw hk
    rcases accesses_thread I ha with ⟨h1, h2⟩ | h1
    · have := I.ze (by simp [h1]) (h2 hw) k
      simp [due, hk, Cts.busy] at this
    · exact (I.fi (I.cl j h1).1).2.2.1 k hk
  cases w with
  | receiver k =>
    cases w' with
    | receiver k' =>
      obtain ⟨-, rfl⟩ := ha
      obtain ⟨-, rfl⟩ := hb
      simp at hw
    | thread j =>
      obtain ⟨h1, rfl⟩ := ha
      exact key hb (by simpa using hw) h1
  | thread j =>
    cases w' with
    | receiver k =>
      obtain ⟨h1, rfl⟩ := hb
      exact key ha (by simpa using hw) h1
    | thread j' =>
      rcases accesses_thread I ha with ⟨h1, -⟩ | h1 <;> rcases accesses_thread I hb with ⟨h2, -⟩ | h2
      · rw [h1] at h2; cases h2; exact hne rfl
      · have := (I.cl j' h2).2; rw [h1] at this; cases this
      · have := (I.cl j h1).2; rw [h2] at this; cases this
      · have h3 := (I.lk j).1 (by rw [h1]; rfl)
        have h4 := (I.lk j').1 (by rw [h2]; rfl)
        rw [h3] at h4; cases h4; exact hne rfl

/-- The sender count, and the flags that go with it. -/
structure Ends (s : St σ) : Prop where
  fr : ∀ j, s.next ≤ j → s.pc j = .none
  fi : s.final = true → s.q = [] ∧ s.closeQ = false ∧ s.snd = 0
  cq : s.closeQ = true → s.snd = 0
  c1 : ∀ j, s.pc j = .close2 → s.snd = 0 ∧ s.closeQ = false ∧ s.final = false
  c2 : ∀ j j', s.pc j = .close2 → s.pc j' = .close2 → j = j'

theorem Ends.init : Ends (init P) := by
  constructor <;> simp [Process.init]

set_option hygiene false in
/-- All fields of `Ends` at once. -/
macro "all_ends" : tactic => `(tactic| (
  constructor <;> (try simp only [goto, spawn, run, back, upd_apply]) <;> grind))

theorem Ends.crit {x : σ} (h : Ends s) : Ends (ctsCrit P x s) := by
  obtain ⟨fr, fi, cq, c1, c2⟩ := h
  unfold ctsCrit
  dsimp only
  split
  · split <;> all_ends
  · all_ends

theorem Ends.goBack {j : Nat} {b : By} (h : Ends s) (hj : j < s.next) : Ends (back j b s) := by
  obtain ⟨fr, fi, cq, c1, c2⟩ := h
  cases b <;> all_ends

theorem ctsCrit_next {x : σ} : s.next ≤ (ctsCrit P x s).next := by
  unfold ctsCrit
  dsimp only
  split
  · split <;> simp [run, spawn]
  · simp

theorem Ends.step {a : Act} (h : Ends s) (ha : step P n s a = .ok s') : Ends s' := by
  have h0 := h
  obtain ⟨fr, fi, cq, c1, c2⟩ := h
  cases a with
  | job j =>
    simp only [Process.step] at ha
    cases hp : s.pc j
    case none => simp only [stepJob, hp] at ha; cases ha
    all_goals
      simp only [stepJob, hp] at ha
      have hj : j < s.next := by
        refine Nat.lt_of_not_le fun hl => ?_
        have := fr j hl; rw [hp] at this; cases this
    case own2 b =>
      split at ha
      · cases ha
      · cases ha
        refine Ends.goBack (Ends.crit ?_) (Nat.lt_of_lt_of_le hj (ctsCrit_next (s := { s with main := none })))
        all_ends
    case own1 b =>
      split at ha <;> cases ha
      · refine Ends.goBack ?_ hj
        all_ends
      · all_ends
    all_goals
      (repeat' split at ha) <;> cases ha <;> all_ends
  | fail j =>
    simp only [Process.step] at ha
    split at ha <;> cases ha
    all_ends
  | send m =>
    simp only [Process.step] at ha
    split at ha <;> cases ha
    unfold enqueue
    dsimp only
    split <;> all_ends
  | copySender =>
    simp only [Process.step] at ha
    split at ha <;> cases ha
    all_ends
  | dropSender =>
    simp only [Process.step] at ha
    (repeat' split at ha) <;> cases ha <;> all_ends
  | ready =>
    simp only [Process.step] at ha
    split at ha <;> cases ha
    all_ends
  | pop k =>
    simp only [Process.step] at ha
    (repeat' split at ha) <;> cases ha <;> all_ends
  | cts k =>
    simp only [Process.step] at ha
    split at ha
    · cases ha
    · cases ha; all_ends
    · split at ha <;> cases ha
      refine Ends.crit ?_
      all_ends

theorem ends (h : Reachable P n s) : Ends s := by
  induction h with
  | init => exact .init
  | step _ ha ih => exact ih.step ha

/-- **C74**, assertions, for every process object: that of line 817, and that of line 599 for a sender that is there. -/
theorem c74_process_assertions (h : Reachable P n s) :
    (∀ j, s.pc j = .taskDone → s.final = true → s.q = [] ∧ s.closeQ = false) ∧
    (∀ s', step P n s .dropSender = .ok s' → s.snd = s'.snd + 1) := by
  have E := ends h
  refine ⟨fun j _ hf => ⟨(E.fi hf).1, (E.fi hf).2.1⟩, fun s' ha => ?_⟩
  simp only [step] at ha
  (repeat' split at ha) <;> cases ha
  · simp [spawn]; omega
  · simp; omega

/-- ... and in one that may await with a time-out, but does not delay a `yield`, only between a receiver that asks for the state (line
837) and a thread that is in a member function of the process object or destroys it, see `c74_timed_race_counterexample`. -/
theorem c74_timed_race_partial (hP : Undelayed P) (h : Reachable P n s) {w w' : Who} {a b : Access} (hne : w ≠ w')
    (ha : accesses s w a) (hb : accesses s w' b) (hc : Conflict a b) :
    ∃ j k, s.cts k = .second ∧ (InMember (s.pc j) ∨ s.pc j = .clear) ∧
      (w = .thread j ∧ w' = .receiver k ∨ w = .receiver k ∧ w' = .thread j) := by
  have key : ∀ {j : Nat} {a : Access}, accesses s (.thread j) a → s.lock = some j := by
    intro j a ha
    refine ((wide h).lk j).1 ?_
    have hl := (locked hP h).nl j
    simp only [accesses] at ha
    cases hp : s.pc j <;> simp only [hp] at ha hl <;> first
      | exact ha.elim
      | rfl
      | cases hl
      | (rename_i b _ _; cases b <;> simp_all [Pc.isLater, Pc.holds] <;> done)
      | (rename_i b _; cases b <;> simp_all [Pc.isLater, Pc.holds] <;> done)
      | (rename_i b; cases b <;> simp_all [Pc.isLater, Pc.holds] <;> done)
  have wr : ∀ {j : Nat} {a : Access}, accesses s (.thread j) a → a.write = true → InMember (s.pc j) ∨ s.pc j = .clear := by
    intro j a ha hw
    simp only [accesses] at ha
    cases hp : s.pc j <;> simp only [hp] at ha <;> first
      | exact ha.elim
      | exact .inr rfl
      | (left; simp [InMember]; done)
      | (subst ha; cases hw; done)
  obtain ⟨-, hw, -⟩ := hc
  cases w with
  | receiver k =>
    cases w' with
    | receiver k' =>
      obtain ⟨-, rfl⟩ := ha
      obtain ⟨-, rfl⟩ := hb
      simp at hw
    | thread j =>
      obtain ⟨h1, rfl⟩ := ha
      exact ⟨j, k, h1, wr hb (by simpa using hw), .inr ⟨rfl, rfl⟩⟩
  | thread j =>
    cases w' with
    | receiver k =>
      obtain ⟨h1, rfl⟩ := hb
      exact ⟨j, k, h1, wr ha (by simpa using hw), .inl ⟨rfl, rfl⟩⟩
    | thread j' =>
      have h1 := key ha
      rw [key hb] at h1
      cases h1
      exact absurd rfl hne

/-- There is such a race. -/
theorem c74_timed_race_counterexample : Undelayed timed ∧ ∃ s, Reachable timed 1 s ∧ DataRace s := by
  obtain ⟨s, h, h1, h2, -⟩ := c67_state_counterexample
  exact ⟨timed_undelayed, s, h, .thread 4, .receiver 0, ⟨.process, true, false⟩, ⟨.process, false, false⟩, by decide,
    by simp [accesses, h1], ⟨h2, rfl⟩, rfl, .inl rfl, by simp⟩

/-- The second message is in `await`, or the result is being sent. -/
example : Untimed pairs ∧ (∃ s, Reachable pairs 2 s ∧ accesses s (.thread 1) ⟨.process, true, false⟩) ∧
    (∃ s, Reachable pairs 2 s ∧ accesses s (.thread 1) ⟨.downstream, false, false⟩ ∧ s.sent 0 = [.val 7]) ∧
    ∃ s, Reachable pairs 2 s ∧ accesses s (.thread 1) ⟨.downstream, false, false⟩ ∧ accesses s (.receiver 0) ⟨.process, false, false⟩ :=
  ⟨pairs_untimed,
    ⟨((exec pairs 2 (init pairs) inAwait4).get rfl), exec_reachable .init (Option.some_get _).symm, rfl⟩,
    ⟨((exec pairs 2 (init pairs) sending7).get rfl), exec_reachable .init (Option.some_get _).symm, rfl, rfl⟩,
    ⟨((exec pairs 2 (init pairs) (sending7 ++ [Act.pop 0, Act.cts 0])).get (by rfl)), exec_reachable .init (Option.some_get _).symm, by rfl, by rfl, by rfl⟩⟩

/-- The last step of a process that is closed. -/
example : ∃ s, Reachable pairs 2 s ∧ s.pc 3 = .taskDone ∧ s.final = true :=
  ⟨((exec pairs 2 (init pairs) (arrived7 ++ .dropSender :: .job 2 :: jobs 3 5)).get rfl), exec_reachable .init (Option.some_get _).symm,
    rfl, rfl⟩

end Verif.Process
