import Verif.Channel.CopyThrow

/-!
# C99: copying a result throws while it is sent to the receivers
-/

namespace Verif.Channel.CopyThrow

variable {G : Net} {s : St}

/-- `channel(f)` with two receivers, all of the default buffer size. -/
def fork : Net where
  strat := fun _ => .dflt
  slots := fun _ => 1
  up := fun d k => if (d = 1 ∨ d = 2) ∧ k = 0 then some 0 else none
  down := fun i => if i = 0 then [(1, 0), (2, 0)] else []
  buf := fun _ => 1
  recv := fun i => if i < 3 then 1 else 0

theorem fork_wf : fork.Wf := by
  constructor <;> grind [fork]

theorem fork_tight : fork.Tight := by
  constructor
  · intro i h
    have : i = 0 := by grind [fork]
    subst this
    exact ⟨(1, 0), by decide, rfl⟩
  · intro d h
    simp [fork] at h

/-- Steps of thread `j`. -/
def xgo (j n : Nat) : List XAct := List.replicate n (.base (.job j))

theorem witness {as : List XAct} (P : St → Bool) (he : (xexec G (init G) as).any P = true) : ∃ s, XReachable G s ∧ P s = true := by
  cases h : xexec G (init G) as with
  | none => rw [h] at he; cases he
  | some s => rw [h] at he; exact ⟨s, ⟨as, h⟩, he⟩

/-- Three messages are sent to the channel. The result for the first is copied for the first receiver, and the copy for the second throws. -/
def torn : List XAct := [.base (.dropRecv 1)] ++ xgo 0 1 ++ [.base (.dropRecv 2)] ++ xgo 1 1 ++ [.base (.dropRecv 0)] ++ xgo 2 1 ++
  [.base (.send 0 0 (.val 10)), .base (.send 0 0 (.val 11)), .base (.send 0 0 (.val 12))] ++ xgo 3 3 ++ [.base (.ret 3 (.val 20))] ++ xgo 3 6 ++
  [.copyThrows 3] ++ xgo 3 5

/-- The first receiver handles the result, and then both are sent the error. -/
def tornSent : List XAct := torn ++ xgo 4 5 ++ [.base (.ret 4 (.val 30))] ++ xgo 4 5 ++ xgo 3 5

/-- Each of the two takes the error out of its queue, and tells the process. -/
def tornTwice : List XAct := tornSent ++ xgo 5 3 ++ xgo 7 3 ++ xgo 6 3 ++ xgo 8 3

set_option maxRecDepth 20000 in
/-- **C39 and C40 fail**: the function of a process is executing twice at the same time, although all buffers have the size 1. The suspend count
was set for the second broadcast, and the receiver that has got both the result and the error has lowered it for both. -/
theorem c99_one_at_a_time_counterexample :
    ∃ G s, G.Wf ∧ G.Tight ∧ XReachable G s ∧ ∃ i j j', j ≠ j' ∧ s.pc j = .busy i ∧ s.pc j' = .busy i := by
  obtain ⟨s, h, hp⟩ := witness (G := fork) (as := tornTwice) (fun s => s.pc 7 = .busy 0 ∧ s.pc 8 = .busy 0) (by decide)
  simp only [Bool.decide_and, Bool.and_eq_true, decide_eq_true_eq] at hp
  exact ⟨fork, s, fork_wf, fork_tight, h, 0, 7, 8, by decide, hp.1, hp.2⟩

set_option maxRecDepth 20000 in
/-- **The receivers do not get the same**: for one call of the function one receiver is sent two messages, the result and the error, the other
only the error. -/
theorem c99_same_for_all_counterexample :
    ∃ G s, G.Wf ∧ G.Tight ∧ XReachable G s ∧ ∃ i d d' v, G.up d 0 = some i ∧ G.up d' 0 = some i ∧ (s.calls i).length = 1 ∧ s.outs i = [.val v] ∧
      s.inp d 0 = [.val v, .err] ∧ s.inp d' 0 = [.err] := by
  obtain ⟨s, h, hp⟩ := witness (G := fork) (as := tornSent)
    (fun s => (s.calls 0).length = 1 ∧ s.outs 0 = [.val 20] ∧ s.inp 1 0 = [.val 20, .err] ∧ s.inp 2 0 = [.err]) (by decide)
  simp only [Bool.decide_and, Bool.and_eq_true, decide_eq_true_eq] at hp
  obtain ⟨h1, h2, h3, h4⟩ := hp
  exact ⟨fork, s, fork_wf, fork_tight, h, 0, 1, 2, 20, rfl, rfl, h1, h2, h3, h4⟩

/-- If copies only throw for the first receiver, then the function of a process is not executing twice at the same time. -/
theorem c99_one_at_a_time_partial (W : G.Wf) (T : G.Tight) (h : FirstReachable G s) {i j j' : Nat} (hj : s.pc j = .busy i)
    (hj' : s.pc j' = .busy i) : j = j' := by
  obtain ⟨t, S⟩ := h.sim W T
  have I := S.inv
  have hpc : t.pc = s.pc := by rw [S.eq]; rfl
  have h1 := (I.mn i j).1 (by rw [hpc, hj]; rfl)
  have h2 := (I.mn i j').1 (by rw [hpc, hj']; rfl)
  rw [h1] at h2
  cases h2
  rfl

/-- ... and all receivers are sent the same: for each result, in order and once, the result itself, or an error in its place. -/
theorem c99_same_for_all_partial (W : G.Wf) (T : G.Tight) (h : FirstReachable G s) (i : Nat) :
    ∃ l : List Msg, List.Forall₂ Got (s.outs i) l ∧
      ∀ d k, G.up d k = some i → k < G.slots d → ∃ m : List Msg, m.length ≤ 1 ∧ l = s.inp d k ++ m := by
  obtain ⟨t, S⟩ := h.sim W T
  have I := S.inv
  have hin : t.inp = s.inp := by rw [S.eq]; rfl
  refine ⟨t.outs i, S.outs i, fun d k hu hk => ?_⟩
  have := I.fl i d k hu hk
  rw [List.append_assoc, hin] at this
  refine ⟨_, ?_, this⟩
  by_cases hd : (d, k) ∈ (pcm t.pc t.main i).unsent
  · rw [if_pos hd]
    cases pcm t.pc t.main i <;> simp [Pc.fresh, Pc.sending]
  · rw [if_neg hd]
    cases pcm t.pc t.main i <;> simp [Pc.fresh]

/-- ... and the messages are handled in order, each once. -/
theorem c99_in_order_partial (W : G.Wf) (T : G.Tight) (h : FirstReachable G s) (i k : Nat) :
    ∃ p : List Args, p.length ≤ 1 ∧ s.inp i k = fromSlot k (s.calls i) ++ fromSlot k p ++ s.q i k := by
  obtain ⟨t, S⟩ := h.sim W T
  have I := S.inv
  have H := h.reachable.hist W
  have h1 : t.pops = s.pops := by rw [S.eq]; rfl
  have h2 : t.calls = s.calls := by rw [S.eq]; rfl
  have := I.ca i
  rw [h1, h2] at this
  refine ⟨(pcm t.pc t.main i).tocall, ?_, ?_⟩
  · cases pcm t.pc t.main i <;> simp [Pc.tocall] <;> split <;> simp
  · rw [H.inp i k, this, fromSlot_append]

/-- The copy for the first of the two receivers throws, and they are sent the error. -/
def firstThrows : List XAct := [.base (.dropRecv 1)] ++ xgo 0 1 ++ [.base (.dropRecv 2)] ++ xgo 1 1 ++ [.base (.dropRecv 0)] ++ xgo 2 1 ++
  [.base (.send 0 0 (.val 10)), .base (.send 0 0 (.val 11))] ++ xgo 3 3 ++ [.base (.ret 3 (.val 20))] ++ xgo 3 5 ++
  [.copyThrows 3] ++ xgo 3 7

/-- `First` for each action of an execution. -/
def firstOk (G : Net) (s : St) : List XAct → Bool
  | [] => true
  | a :: as => (match a with
    | .base _ => true
    | .copyThrows j => match s.pc j with
      | .send i _ es => es = s.down i
      | _ => true) && (xstep G s a).any fun s' => firstOk G s' as

theorem first_witness {as : List XAct} (P : St → Bool) (he : (xexec G (init G) as).any P = true) (hf : firstOk G (init G) as = true) :
    ∃ s, FirstReachable G s ∧ P s = true := by
  have : ∀ (as : List XAct) (s s' : St), FirstReachable G s → firstOk G s as = true → xexec G s as = some s' → FirstReachable G s' := by
    intro as
    induction as with
    | nil => intro s s' h _ e; cases e; exact h
    | cons a as ih =>
      intro s s' h hf e
      simp only [firstOk, Bool.and_eq_true] at hf
      simp only [xexec] at e
      cases e1 : xstep G s a with
      | none => rw [e1] at e; cases e
      | some s1 =>
        rw [e1] at e hf
        refine ih s1 s' (.step h ?_ e1) hf.2 e
        cases a with
        | base a => trivial
        | copyThrows j =>
          intro i r es hp
          have := hf.1
          simp only [hp, decide_eq_true_eq] at this
          exact this
  cases h : xexec G (init G) as with
  | none => rw [h] at he; cases he
  | some s => rw [h] at he; exact ⟨s, this as _ s .init hf h, he⟩

set_option maxRecDepth 20000 in
example : ∃ s, FirstReachable fork s ∧ s.outs 0 = [.val 20] ∧ s.inp 1 0 = [.err] ∧ s.inp 2 0 = [.err] ∧ s.q 0 0 = [.val 11] := by
  obtain ⟨s, h, hp⟩ := first_witness (G := fork) (as := firstThrows)
    (fun s => s.outs 0 = [.val 20] ∧ s.inp 1 0 = [.err] ∧ s.inp 2 0 = [.err] ∧ s.q 0 0 = [.val 11]) (by decide) (by decide)
  exact ⟨s, h, by simpa using hp⟩

/-- In particular if no process has more than one receiver: the function is not executing twice at the same time, and the receiver is sent, for
each result, the result or an error. -/
theorem c99_one_receiver (W : G.Wf) (T : G.Tight) (h1 : ∀ i, (G.down i).length ≤ 1) (h : XReachable G s) :
    (∀ i j j', s.pc j = .busy i → s.pc j' = .busy i → j = j') ∧
      ∀ i d k, G.up d k = some i → k < G.slots d → ∃ m : List Msg, m.length ≤ 1 ∧ List.Forall₂ Got (s.outs i) (s.inp d k ++ m) := by
  have F := h.first W T h1
  refine ⟨fun i j j' => c99_one_at_a_time_partial W T F, fun i d k hu hk => ?_⟩
  obtain ⟨l, hl, ha⟩ := c99_same_for_all_partial W T F i
  obtain ⟨m, hm, rfl⟩ := ha d k hu hk
  exact ⟨m, hm, hl⟩

set_option maxRecDepth 20000 in
example : (∀ i, ((pipe 1).down i).length ≤ 1) ∧ ∃ s, XReachable (pipe 1) s ∧ s.outs 0 = [.val 20] ∧ s.inp 1 0 = [.err] := by
  refine ⟨by intro i; simp only [pipe]; split <;> simp, ?_⟩
  obtain ⟨s, h, hp⟩ := witness (G := pipe 1) (as := ready2.map .base ++ [.base (.send 0 0 (.val 10))] ++ xgo 2 3 ++
    [.base (.ret 2 (.val 20))] ++ xgo 2 4 ++ [.copyThrows 2] ++ xgo 2 5) (fun s => s.outs 0 = [.val 20] ∧ s.inp 1 0 = [.err]) (by decide)
  exact ⟨s, h, by simpa using hp⟩

/-- Whatever the buffer sizes and whichever copies throw: no message is handled more often than it was sent, and none is lost before it is
taken out to be handled, in order. -/
theorem c99_taken_in_order (W : G.Wf) (h : XReachable G s) (i k : Nat) :
    ∃ taken : List Msg, s.inp i k = taken ++ s.q i k ∧ ∀ x, (fromSlot k (s.calls i)).count x ≤ taken.count x := by
  refine ⟨fromSlot k (s.pops i), (h.hist W).inp i k, fun x => fromSlot_count_le fun m => ?_⟩
  have := h.once.le i m
  omega

set_option maxRecDepth 20000 in
example : ∃ s, XReachable fork s ∧ s.inp 1 0 = [.val 20, .err] ∧ s.calls 1 = [[(0, .val 20)]] ∧ s.q 1 0 = [.err] := by
  obtain ⟨s, h, hp⟩ := witness (G := fork) (as := tornSent)
    (fun s => s.inp 1 0 = [.val 20, .err] ∧ s.calls 1 = [[(0, .val 20)]] ∧ s.q 1 0 = [.err]) (by decide)
  exact ⟨s, h, by simpa using hp⟩

end Verif.Channel.CopyThrow
