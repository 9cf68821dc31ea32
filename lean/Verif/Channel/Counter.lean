import Verif.Channel.Props

/-!
# Networks for which the properties fail
-/

namespace Verif.Channel

/-- Three messages are sent; the first is handled and its result sent, which makes process 0 run again. -/
def run40 : List Act := ready2 ++ [.send 0 0 (.val 10), .send 0 0 (.val 11), .send 0 0 (.val 12)] ++ go 2 3 ++ [.ret 2 (.val 20)] ++
  go 2 8 ++ go 3 1 ++ go 4 3 ++ go 3 4 ++ go 5 3

/-- C40 fails with an unlimited buffer or one of size 2: the process is not suspended after its broadcast, and still
`pop_from_queue` of its downstream process calls `clear_to_send` (line 868), which starts a second thread though one is
running (lines 838-843). -/
theorem c40_counterexample : ∀ b ∈ [0, 2],
    ∃ s, CleanReachable (pipe b) s ∧ s.pc 4 = .busy 0 ∧ s.pc 5 = .busy 0 ∧ s.calls 0 = [[(0, .val 10)], [(0, .val 11)], [(0, .val 12)]] := by
  intro b hb
  have : b = 0 ∨ b = 2 := by simpa using hb
  obtain ⟨s, h, hp⟩ := clean_witness (G := pipe b) (as := run40)
    (fun s => s.pc 4 = .busy 0 ∧ s.pc 5 = .busy 0 ∧ s.calls 0 = [[(0, .val 10)], [(0, .val 11)], [(0, .val 12)]]) (by decide)
    (by rcases this with rfl | rfl <;> decide)
  exact ⟨s, h, by simpa using hp⟩

/-- ... and the two threads take their messages in any order: process 1 gets the result of the third message before that
of the second, and the limit of its buffer is not kept (C41). -/
def run41 : List Act := run40 ++ [.send 0 0 (.val 13), .ret 5 (.val 22)] ++ go 5 3 ++ [.ret 4 (.val 21)] ++ go 4 8 ++ go 6 3 ++
  [.ret 6 (.val 23)] ++ go 6 8 ++ go 5 5

/-- C41 fails: three messages wait in a queue of size 2. -/
theorem c41_counterexample :
    ∃ s, CleanReachable (pipe 2) s ∧ (pipe 2).buf 1 = 2 ∧ s.q 1 0 = [.val 21, .val 23, .val 22] := by
  obtain ⟨s, h, hp⟩ := clean_witness (G := pipe 2) (as := run41) (fun s => s.q 1 0 = [.val 21, .val 23, .val 22]) (by decide) (by decide)
  exact ⟨s, h, rfl, by simpa using hp⟩

/-- C42 fails if the process after the merge has buffer size 2: the second call of the function is with the third messages. -/
theorem c42_counterexample : ∃ s, CleanReachable (merge .zip 2) s ∧
    s.inp 2 0 = [.val 10, .val 11, .val 12] ∧ s.inp 2 1 = [.val 50, .val 51, .val 52] ∧
    s.calls 2 = [[(0, .val 10), (1, .val 50)], [(0, .val 12), (1, .val 52)], [(0, .val 11), (1, .val 51)]] := by
  obtain ⟨s, h, hp⟩ := clean_witness (G := merge .zip 2)
    (as := ready4 ++ [.send 0 0 (.val 10)] ++ go 4 3 ++ [.ret 4 (.val 10)] ++ go 4 8 ++ go 5 3 ++ [.send 1 0 (.val 50)] ++ go 6 3 ++
      [.ret 6 (.val 50)] ++ go 6 8 ++ go 7 7 ++ [.send 0 0 (.val 11)] ++ go 8 3 ++ [.ret 8 (.val 11)] ++ go 8 8 ++
      [.send 1 0 (.val 51)] ++ go 9 3 ++ [.ret 9 (.val 51)] ++ go 9 8 ++ [.ret 7 (.val 110)] ++ go 7 8 ++ go 11 5 ++
      [.send 0 0 (.val 12)] ++ go 12 3 ++ [.ret 12 (.val 12)] ++ go 12 8 ++ [.send 1 0 (.val 52)] ++ go 13 3 ++
      [.ret 13 (.val 52)] ++ go 13 8 ++ go 10 5 ++ go 14 7 ++ go 11 2)
    (fun s => s.inp 2 0 = [.val 10, .val 11, .val 12] ∧ s.inp 2 1 = [.val 50, .val 51, .val 52] ∧
      s.calls 2 = [[(0, .val 10), (1, .val 50)], [(0, .val 12), (1, .val 52)], [(0, .val 11), (1, .val 51)]]) (by decide) (by decide)
  exact ⟨s, h, by simpa using hp⟩

/-- C43 fails likewise: two messages of upstream 0 are handled one after the other. -/
theorem c43_counterexample : ∃ s, CleanReachable (merge .rr 2) s ∧
    s.calls 2 = [[(0, .val 10)], [(0, .val 11)], [(1, .val 50)]] := by
  obtain ⟨s, h, hp⟩ := clean_witness (G := merge .rr 2)
    (as := ready4 ++ [.send 0 0 (.val 10)] ++ go 4 3 ++ [.ret 4 (.val 10)] ++ go 4 8 ++ go 5 5 ++ [.send 1 0 (.val 50)] ++ go 6 3 ++
      [.ret 6 (.val 50)] ++ go 6 8 ++ [.ret 5 (.val 110)] ++ go 5 8 ++ go 8 3 ++ [.send 0 0 (.val 11)] ++ go 9 3 ++
      [.ret 9 (.val 11)] ++ go 9 8 ++ go 7 5 ++ go 10 5 ++ go 8 2)
    (fun s => s.calls 2 = [[(0, .val 10)], [(0, .val 11)], [(1, .val 50)]]) (by decide) (by decide)
  exact ⟨s, h, by simpa using hp⟩

/-- C44 fails likewise: the third message of upstream 0 is handled before its second. -/
theorem c44_counterexample : ∃ s, CleanReachable (merge .unord 2) s ∧
    s.inp 2 0 = [.val 10, .val 11, .val 12] ∧ s.calls 2 = [[(0, .val 10)], [(0, .val 12)], [(0, .val 11)]] := by
  obtain ⟨s, h, hp⟩ := clean_witness (G := merge .unord 2)
    (as := ready4 ++ [.send 0 0 (.val 10)] ++ go 4 3 ++ [.ret 4 (.val 10)] ++ go 4 8 ++ go 5 5 ++ [.send 0 0 (.val 11)] ++ go 6 3 ++
      [.ret 6 (.val 11)] ++ go 6 8 ++ [.ret 5 (.val 110)] ++ go 5 8 ++ go 8 3 ++ [.send 0 0 (.val 12)] ++ go 9 3 ++
      [.ret 9 (.val 12)] ++ go 9 8 ++ go 7 5 ++ go 10 5 ++ go 8 2)
    (fun s => s.inp 2 0 = [.val 10, .val 11, .val 12] ∧ s.calls 2 = [[(0, .val 10)], [(0, .val 12)], [(0, .val 11)]])
    (by decide) (by decide)
  exact ⟨s, h, by simpa using hp⟩

set_option maxRecDepth 4000 in
/-- C45 fails for `zip_with` of channels that get different numbers of messages, also with the default buffer sizes: all
senders are gone and nothing is going on, but process 0 has a message left that is never handled, and neither it nor the
merge nor the process after it is closed. -/
theorem c45_counterexample : ∃ s, CleanReachable (merge .zip 1) s ∧ Quiet s ∧ s.sown 0 = [] ∧ s.sown 1 = [] ∧ s.q 0 0 = [.val 12] ∧
    s.final 0 = false ∧ s.final 2 = false ∧ s.final 3 = false := by
  obtain ⟨s, h, hp⟩ := clean_witness (G := merge .zip 1)
    (as := ready4 ++ [.send 0 0 (.val 10)] ++ go 4 3 ++ [.ret 4 (.val 10)] ++ go 4 8 ++ [.send 1 0 (.val 50)] ++ go 6 3 ++
      [.ret 6 (.val 50)] ++ go 6 8 ++ go 5 7 ++ [.ret 5 (.val 90)] ++ go 5 8 ++ [.send 0 0 (.val 11)] ++ go 8 3 ++
      [.ret 8 (.val 11)] ++ go 8 8 ++ [.send 0 0 (.val 12), .dropSender 0 0, .dropSender 1 0] ++ go 7 5 ++ go 9 2 ++ go 10 2 ++
      go 11 5 ++ [.ret 7 (.val 91)] ++ go 7 5)
    (fun s => (((List.range s.next).all fun j => (s.pc j).ended) && (List.range 4).all fun i => s.rcv i = 0) = true ∧
      s.sown 0 = [] ∧ s.sown 1 = [] ∧ s.q 0 0 = [.val 12] ∧ s.final 0 = false ∧ s.final 2 = false ∧ s.final 3 = false)
    (by decide) (by decide)
  have hp := of_decide_eq_true hp
  exact ⟨s, h, h.reachable.quiet 4 (fun i hi => if_neg (by omega)) hp.1, hp.2⟩

/-- C46 fails: the function of process 0 throws for the first of two messages. Process 1 gets the error and stays marked as
running with nothing running (line 1108: `do_close` is not read afterwards); the result of the second message stays in
its queue, process 0 stays suspended and is not closed though all senders are gone. -/
theorem c46_counterexample : ∃ s, Reachable (pipe 1) s ∧ Quiet s ∧ s.sown 0 = [] ∧ s.running 1 = true ∧ s.q 1 0 = [.val 20] ∧
    s.calls 1 = [] ∧ s.final 0 = false ∧ s.final 1 = false := by
  obtain ⟨s, h, hp⟩ := witness (G := pipe 1)
    (as := ready2 ++ [.send 0 0 (.val 10), .send 0 0 (.val 11)] ++ go 2 3 ++ [.ret 2 .err] ++ go 2 8 ++ go 3 4 ++ go 4 3 ++
      [.ret 4 (.val 20), .dropSender 0 0] ++ go 4 8 ++ go 5 2)
    (fun s => (((List.range s.next).all fun j => (s.pc j).ended) && (List.range 2).all fun i => s.rcv i = 0) = true ∧
      s.sown 0 = [] ∧ s.running 1 = true ∧ s.q 1 0 = [.val 20] ∧ s.calls 1 = [] ∧ s.final 0 = false ∧ s.final 1 = false)
    (by decide)
  have hp := of_decide_eq_true hp
  exact ⟨s, h, h.quiet 2 (fun i hi => if_neg (by omega)) hp.1, hp.2⟩

end Verif.Channel
