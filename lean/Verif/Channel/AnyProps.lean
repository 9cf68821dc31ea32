import Verif.Channel.Any
import Verif.Channel.Counter

/-!
# C66: whatever the buffer sizes, nothing is left behind
-/

namespace Verif.Channel

variable {G : Net} {s s' : St}

/-- A process that has no sender gets none any more. -/
theorem step_closed {a : Act} (h : step G s a = some s') {i : Nat} (hi : s.sown i = []) : s'.sown i = [] := by
  cases a with
  | job j =>
    simp only [step, stepJob] at h
    split at h <;> (try split at h) <;> cases h
    all_goals first
      | exact hi
      | (rw [popCrit_users.2]; exact hi)
      | (rw [taskDone_users.2]; exact hi)
      | (show (enqueue _ _ _ _).sown i = []; rw [enqueue_users.2]; exact hi)
      | (show (ctsCrit _ _ _ _).sown i = []; rw [ctsCrit_users.2]; exact hi)
      | (split <;> exact hi)
      | (simp only [goto, upd]
         split
         · next e => subst e; rw [hi]; rfl
         · exact hi)
  | ret j r =>
    simp only [step] at h
    split at h <;> cases h
    exact hi
  | send i' n m =>
    simp only [step] at h
    split at h <;> cases h
    rw [enqueue_users.2]; exact hi
  | copySender i' n n' =>
    simp only [step] at h
    split at h
    · rename_i hm
      cases h
      have : i ≠ i' := by rintro rfl; rw [hi] at hm; cases hm.1
      simpa [upd, this] using hi
    · cases h
  | dropSender i' n =>
    simp only [step] at h
    split at h
    · rename_i hm
      have : i ≠ i' := by rintro rfl; rw [hi] at hm; cases hm
      split at h <;> cases h <;> simpa [upd, this] using hi
    · cases h
  | copyRecv i' =>
    simp only [step] at h
    split at h <;> cases h
    exact hi
  | dropRecv i' =>
    simp only [step] at h
    split at h
    · split at h <;> cases h <;> exact hi
    · cases h

/-- Every process has a sender: none has been closed. -/
def Open (s : St) : Prop := ∀ i, s.sown i ≠ []

theorem Reachable.flow (W : G.Wf) (h : Reachable G s) (o : Open s) : Flow G s ∧ Ledger G s := by
  refine h.induct (P := fun s => Open s → Flow G s ∧ Ledger G s) (fun _ => ⟨Flow.init W, Ledger.init W⟩) (fun h ih e o => ?_) o
  obtain ⟨F, L⟩ := ih fun i hi => o i (step_closed e hi)
  exact ⟨F.step W (h.hist W) e o, L.step F W e o⟩

/-- The threads destroy no senders then. -/
theorem Flow.sown (F : Flow G s) (h : Next G s s') : s'.sown = s.sown := by
  obtain ⟨a, ha, h⟩ := h
  cases a with
  | ret j r =>
    simp only [Channel.step] at h
    split at h <;> cases h
    rfl
  | job j =>
    have nc := F.nc j
    simp only [Channel.step, stepJob] at h
    split at h <;> (try split at h) <;> cases h
    all_goals first
      | rfl
      | exact popCrit_users.2
      | exact taskDone_users.2
      | exact enqueue_users.2
      | exact ctsCrit_users.2
      | (split <;> rfl)
      | (next hp => rw [hp] at nc; cases nc)
      | (next hp _ => rw [hp] at nc; cases nc)
  | _ => cases ha

/-- A process that got no error has no thread when nothing is going on. -/
theorem Quiet.of (Q : Quiet s) {i : Nat} (hF : ¬Failed s i) (j : Nat) : (s.pc j).of ≠ some i := by
  intro h1
  have h2 := Q.idle j
  cases hp : s.pc j <;> rw [hp] at h1 h2 <;> cases h1 <;> try cases h2
  exact hF ⟨j, _, hp⟩

/-- What the threads have left to do. -/
theorem Quiet.left (Q : Quiet s) (j : Nat) :
    (s.pc j).readies = none ∧ (s.pc j).post = false ∧ (s.pc j).pend = [] ∧ (s.pc j).unsent = [] := by
  have h2 := Q.idle j
  cases hp : s.pc j <;> rw [hp] at h2 <;> first | (cases h2; done) | exact ⟨rfl, rfl, rfl, rfl⟩

/-- A process that has something to do in a quiet network waits for a downstream process. -/
theorem Flow.quiet_waits (F : Flow G s) (Q : Quiet s) {i : Nat} (hF : ¬Failed s i) (h : isEmpty G s i = false) :
    ∃ d k, (d, k) ∈ G.down i ∧ s.q d k ≠ [] := by
  have hr : s.running i = true := by
    cases e : s.running i with
    | true => rfl
    | false =>
      rcases F.wk i e (Q.ready i) with h' | ⟨j, hj⟩
      · rw [h] at h'; cases h'
      · rw [(Q.left j).1] at hj; cases hj
  have ho : s.owed i ≠ [] := by
    intro h0
    have h1 := F.sl i
    rw [h0] at h1
    rcases F.rn i hr with ⟨j, hj⟩ | h2
    · exact absurd hj (Q.of hF j)
    · simp at h1; omega
  obtain ⟨c, hc⟩ := List.exists_mem_of_ne_nil _ ho
  cases c with
  | own => obtain ⟨j, hj⟩ := F.own i hc; rw [(Q.left j).2.1] at hj; cases hj.2
  | edge d k =>
    obtain ⟨h1, h2⟩ := F.ed i d k hc
    refine ⟨d, k, h1, ?_⟩
    rcases h2 with h2 | ⟨j, hj⟩ | ⟨j, hj⟩
    · exact h2
    · rw [(Q.left j).2.2.1] at hj; cases hj.2
    · rw [(Q.left j).2.2.2] at hj; cases hj.2

theorem Flow.quiet_empty (W : G.Wf) (F : Flow G s) (Q : Quiet s) {N : Nat} (B : G.Bounded N) :
    ∀ n i, N - i ≤ n → (∀ d, Below G i d → Eager G d) → (∀ d, Below G i d → ¬Failed s d) → ∀ k < G.slots i, s.q i k = [] := by
  intro n
  induction n with
  | zero =>
    intro i hi hE hF k hk
    refine Classical.byContradiction fun hq => ?_
    obtain ⟨d, k', hd, -⟩ := F.quiet_waits Q (hF i .refl) ((hE i .refl).nonempty W hk hq)
    obtain ⟨hu, -⟩ := (W.edges _ _ _).1 hd
    have := W.order _ _ _ hu
    have := B _ _ _ hu
    omega
  | succ n ih =>
    intro i hi hE hF k hk
    refine Classical.byContradiction fun hq => ?_
    obtain ⟨d, k', hd, hq'⟩ := F.quiet_waits Q (hF i .refl) ((hE i .refl).nonempty W hk hq)
    obtain ⟨hu, hk'⟩ := (W.edges _ _ _).1 hd
    have h1 := W.order _ _ _ hu
    have := B _ _ _ hu
    exact hq' (ih d (by omega) (fun e he => hE e (he.head hd)) (fun e he => hF e (he.head hd)) k' hk')

theorem jsum_ge {c : Pc → Nat} {j : Nat} (h : j < s.next) : c (s.pc j) ≤ jsum c s := by
  have : ∀ n, j < n → c (s.pc j) ≤ sumTo n fun j => c (s.pc j) := by
    intro n
    induction n with
    | zero => omega
    | succ n ih =>
      intro h
      rw [sumTo]
      by_cases e : j = n
      · subst e; omega
      · have := ih (by omega); omega
  exact this _ h

theorem jsum_zero {c : Pc → Nat} (h : ∀ j, c (s.pc j) = 0) : jsum c s = 0 := by
  have : ∀ n, sumTo n (fun j => c (s.pc j)) = 0 := by
    intro n
    induction n with
    | zero => rfl
    | succ n ih => rw [sumTo, ih, h]
  exact this _

/-- As long as every process has a sender, a network at rest has handled all messages to processes that have got no error
and have none below that has, whatever the buffer sizes: each message sent to a process was given to its function exactly once, each call has its result, and all
results went to each downstream process exactly once. (Not in order: see `c40_counterexample`.) -/
theorem c66_rest_partial (W : G.Wf) {N : Nat} (B : G.Bounded N) (h : Reachable G s) (o : Open s) (Q : Quiet s) {i : Nat}
    (hE : ∀ d, Below G i d → Eager G d) (hF : ∀ d, Below G i d → ¬Failed s d) :
    (∀ k < G.slots i, (s.inp i k).Perm (fromSlot k (s.calls i))) ∧ (s.outs i).length = (s.calls i).length ∧
      ∀ d k, (d, k) ∈ G.down i → (s.inp d k).Perm (s.outs i) := by
  obtain ⟨F, L⟩ := h.flow W o
  have H := h.hist W
  have hn := Q.of (hF i .refl)
  refine ⟨?_, ?_, ?_⟩
  · intro k hk
    have hq := F.quiet_empty W Q B _ i (Nat.le_refl _) hE hF k hk
    have h1 : (s.pops i).Perm (s.calls i) := by
      refine List.perm_iff_count.2 fun m => ?_
      rw [L.ca i m, jsum_zero fun j => by simp [Pc.holds, hn j], Nat.add_zero]
    rw [H.inp i k, hq, List.append_nil]
    exact fromSlot_perm h1
  · rw [L.cb i, jsum_zero fun j => by simp [Pc.within, hn j], Nat.add_zero]
  · intro d k hd
    refine List.perm_iff_count.2 fun r => ?_
    rw [L.cc i d k r hd, jsum_zero fun j => by simp [Pc.tosend, hn j], Nat.add_zero]

/-- The processes that have got stuck are those that have taken an error from their queues. -/
theorem c66_failed_iff (W : G.Wf) (h : Reachable G s) (o : Open s) (Q : Quiet s) (i : Nat) :
    Failed s i ↔ ∃ m ∈ s.pops i, ∃ x ∈ m, x.2 = .err := by
  obtain ⟨F, L⟩ := h.flow W o
  have S := h.sorted
  constructor
  · rintro ⟨j, m, hj⟩
    refine ⟨m, ?_, S.dead j i m hj⟩
    refine List.count_pos_iff.1 ?_
    have hjn := F.lt (j := j) (by rw [hj]; simp)
    have : (s.pc j).holds i m ≤ jsum (Pc.holds i m) s := jsum_ge (c := Pc.holds i m) hjn
    rw [hj] at this
    simp [Pc.holds, Pc.of, Pc.tocall] at this
    rw [L.ca i m]
    omega
  · rintro ⟨m, hm, x, hx, he⟩
    refine Classical.byContradiction fun hF => ?_
    have h1 := L.ca i m
    rw [jsum_zero fun j => by simp [Pc.holds, Q.of hF j]] at h1
    have h2 := List.count_pos_iff.2 hm
    exact S.calls i m (List.count_pos_iff.1 (by omega)) x hx he

/-- ... and if every receiver is ready, it comes to rest, whatever the order of the steps and whether functions throw or not. -/
theorem c66_all_handled_partial (W : G.Wf) {N : Nat} (B : G.Bounded N) (h : Reachable G s) (o : Open s) (hr : ∀ i, s.rcv i = 0) :
    Eventually (Next G) (fun s => (∀ j, (s.pc j).ended = true) ∧ ∀ i, (∀ d, Below G i d → Eager G d) →
      (∀ d, Below G i d → ∀ m ∈ s.pops d, ∀ x ∈ m, x.2 ≠ .err) →
      (∀ k < G.slots i, (s.inp i k).Perm (fromSlot k (s.calls i))) ∧ (s.outs i).length = (s.calls i).length ∧
        ∀ d k, (d, k) ∈ G.down i → (s.inp d k).Perm (s.outs i)) s := by
  have ha := c59_terminates W B h
  induction ha with
  | intro s _ ih =>
    by_cases hq : ∀ j, (s.pc j).ended = true
    · have Q : Quiet s := ⟨hq, hr⟩
      refine .now ⟨hq, fun i hE hn => c66_rest_partial W B h o Q hE fun d hd hF => ?_⟩
      obtain ⟨m, hm, x, hx, he⟩ := (c66_failed_iff W h o Q d).1 hF
      exact hn d hd m hm x hx he
    · obtain ⟨j, hj⟩ := Classical.not_forall.1 hq
      obtain ⟨s1, h1⟩ := progress (G := G) (s := s) (j := j) (by simpa using hj)
      refine .later ⟨s1, h1.next⟩ fun s' hs => ih s' hs (by obtain ⟨a, -, hs⟩ := hs; exact h.step hs) ?_ ?_
      · intro i; rw [(h.flow W o).1.sown hs]; exact o i
      · rw [hs.users.1]; exact hr

/-- No message that goes through the network is lost or doubled at any time, either: of each message of a process, as many as
were sent are in its queue, given to the function, or held by a thread about to call it; and of each result, as many as there
are were sent downstream or are held by threads about to send them. -/
theorem c66_accounts_partial (W : G.Wf) (h : Reachable G s) (o : Open s) (i : Nat) :
    (∃ held : List Args, (s.pops i).Perm (s.calls i ++ held) ∧ ∀ m ∈ held, ∃ j, (s.pc j).of = some i ∧ m ∈ (s.pc j).tocall) ∧
      (∀ k, s.inp i k = fromSlot k (s.pops i) ++ s.q i k) ∧
      ∀ d k, (d, k) ∈ G.down i → ∃ rest : List Msg, (s.outs i).Perm (s.inp d k ++ rest) ∧
        ∀ r ∈ rest, ∃ j, (s.pc j).of = some i ∧ (r ∈ (s.pc j).fresh ∨ ((d, k) ∈ (s.pc j).unsent ∧ r ∈ (s.pc j).sending)) := by
  obtain ⟨-, L⟩ := h.flow W o
  have pos : ∀ (c : Pc → Nat), 0 < jsum c s → ∃ j, 0 < c (s.pc j) := by
    intro c
    have : ∀ n, 0 < sumTo n (fun j => c (s.pc j)) → ∃ j, 0 < c (s.pc j) := by
      intro n
      induction n with
      | zero => intro h; cases h
      | succ n ih =>
        intro h
        simp only [sumTo] at h
        by_cases h0 : 0 < c (s.pc n)
        · exact ⟨n, h0⟩
        · exact ih (by omega)
    exact this _
  have split : ∀ {α : Type} [BEq α] [LawfulBEq α] (l l' : List α), (∀ x, l'.count x ≤ l.count x) →
      l.Perm (l' ++ l'.foldl List.erase l) ∧ ∀ x, (l'.foldl List.erase l).count x = l.count x - l'.count x := by
    intro α _ _ l l' h
    have hc : ∀ x, (l'.foldl List.erase l).count x = l.count x - l'.count x := by
      intro x
      clear h
      induction l' generalizing l with
      | nil => simp
      | cons a l' ih =>
        rw [List.foldl_cons, ih, List.count_erase, List.count_cons]
        split <;> omega
    refine ⟨List.perm_iff_count.2 fun x => ?_, hc⟩
    rw [List.count_append, hc]
    have := h x
    omega
  refine ⟨?_, (h.hist W).inp i, ?_⟩
  · obtain ⟨h1, h2⟩ := split (s.pops i) (s.calls i) fun m => by rw [L.ca i m]; omega
    refine ⟨_, h1, fun m hm => ?_⟩
    have h3 := List.count_pos_iff.2 hm
    rw [h2, L.ca i m, Nat.add_sub_cancel_left] at h3
    obtain ⟨j, hj⟩ := pos _ h3
    simp only [Pc.holds] at hj
    split at hj
    · rename_i e; exact ⟨j, e, List.count_pos_iff.1 hj⟩
    · cases hj
  · intro d k hd
    obtain ⟨h1, h2⟩ := split (s.outs i) (s.inp d k) fun m => by rw [L.cc i d k m hd]; omega
    refine ⟨_, h1, fun r hr => ?_⟩
    have h3 := List.count_pos_iff.2 hr
    rw [h2, L.cc i d k r hd, Nat.add_sub_cancel_left] at h3
    obtain ⟨j, hj⟩ := pos _ h3
    simp only [Pc.tosend] at hj
    split at hj
    · rename_i e
      refine ⟨j, e, ?_⟩
      by_cases h0 : r ∈ (s.pc j).fresh
      · exact .inl h0
      · rw [List.count_eq_zero.2 h0, Nat.zero_add] at hj
        exact .inr ⟨List.count_pos_iff.1 (Nat.pos_of_mul_pos_right hj), List.count_pos_iff.1 (Nat.pos_of_mul_pos_left hj)⟩
    · cases hj

/-- The second message is in the function of process 0 while its downstream process makes it be marked as not running; the
sender is destroyed, which starts a thread that closes the process. -/
def runLost : List Act := ready2 ++ [.send 0 0 (.val 10), .send 0 0 (.val 11)] ++ go 2 3 ++ [.ret 2 (.val 20)] ++ go 2 8 ++ go 3 1 ++
  go 4 3 ++ go 3 4 ++ [.dropSender 0 0] ++ go 5 2 ++ go 6 4

/-- With unlimited buffers or such of size 2 a process is closed, its function object destroyed and the connection to its
downstream process cleared (lines 820-824) while the function is executing; its result goes nowhere. -/
theorem c66_close_counterexample : ∀ b ∈ [0, 2],
    (∃ s, CleanReachable (pipe b) s ∧ s.pc 4 = .busy 0 ∧ s.final 0 = true ∧ s.down 0 = []) ∧
    ∃ s, CleanReachable (pipe b) s ∧ Quiet s ∧ s.inp 0 0 = [.val 10, .val 11] ∧ s.outs 0 = [.val 20, .val 21] ∧
      s.inp 1 0 = [.val 20] := by
  intro b hb
  have hb : b = 0 ∨ b = 2 := by simpa using hb
  refine ⟨?_, ?_⟩
  · obtain ⟨s, h, hp⟩ := clean_witness (G := pipe b) (as := runLost) (fun s => s.pc 4 = .busy 0 ∧ s.final 0 = true ∧ s.down 0 = [])
      (by decide) (by rcases hb with rfl | rfl <;> decide)
    exact ⟨s, h, by simpa using hp⟩
  · obtain ⟨s, h, hp⟩ := clean_witness (G := pipe b)
      (as := runLost ++ go 6 2 ++ [.ret 4 (.val 21)] ++ go 4 4 ++ [.ret 3 (.val 30)] ++ go 3 5 ++ go 7 4)
      (fun s => (((List.range s.next).all fun j => (s.pc j).ended) && (List.range 2).all fun i => s.rcv i = 0) = true ∧
        s.inp 0 0 = [.val 10, .val 11] ∧ s.outs 0 = [.val 20, .val 21] ∧ s.inp 1 0 = [.val 20])
      (by decide) (by rcases hb with rfl | rfl <;> decide)
    have hp := of_decide_eq_true hp
    exact ⟨s, h, h.reachable.quiet 2 (fun i hi => if_neg (by omega)) hp.1, hp.2⟩

/-! The hypotheses hold of a network with buffer size 2 in which two threads are in the same function and three messages were
sent. -/

theorem exec_open {as : List Act} (W : G.Wf) (h : CleanReachable G s) (o : Open s) (hp : as.all Plain = true)
    (hd : as.all (fun a => match a with | .dropSender .. => false | _ => true) = true) (he : exec G s as = some s') : Open s' := by
  induction as generalizing s with
  | nil => cases he; exact o
  | cons a as ih =>
    simp only [List.all_cons, Bool.and_eq_true] at hp hd
    simp only [exec] at he
    cases hs : step G s a with
    | none => rw [hs] at he; cases he
    | some s1 =>
      rw [hs] at he
      refine ih (clean_exec h (as := [a]) (by simp [hp.1]) (by simp [exec, hs])) ?_ hp.2 hd.2 he
      have F := (h.reachable.flow W o).1
      cases a with
      | job j => intro i; rw [F.sown ⟨.job j, rfl, hs⟩]; exact o i
      | ret j r => intro i; rw [F.sown ⟨.ret j r, rfl, hs⟩]; exact o i
      | send i n m =>
        simp only [step] at hs
        split at hs <;> cases hs
        intro x; rw [enqueue_users.2]; exact o x
      | copySender i n n' =>
        simp only [step] at hs
        split at hs <;> cases hs
        intro x
        simp only [upd]
        split
        · simp
        · exact o x
      | dropSender => cases hd.1
      | copyRecv i =>
        simp only [step] at hs
        split at hs <;> cases hs
        exact o
      | dropRecv i =>
        simp only [step] at hs
        split at hs
        · split at hs <;> cases hs <;> exact o
        · cases hs

theorem pipe_open (b : Nat) : Open (init (pipe b)) := by intro i; simp [init, pipe]

example : ∃ s, CleanReachable (pipe 2) s ∧ Open s ∧ (∀ i, s.rcv i = 0) ∧ s.pc 4 = .busy 0 ∧ s.pc 5 = .busy 0 ∧
    s.inp 0 0 = [.val 10, .val 11, .val 12] ∧ s.calls 1 = [[(0, .val 20)]] := by
  have hp : run40.all Plain = true := by decide
  cases h : exec (pipe 2) (init (pipe 2)) run40 with
  | none =>
    have : (exec (pipe 2) (init (pipe 2)) run40).isSome = true := by decide
    rw [h] at this; cases this
  | some s =>
    have hs : (exec (pipe 2) (init (pipe 2)) run40).any (fun s => ((List.range 2).all fun i => s.rcv i = 0) = true ∧
      s.pc 4 = .busy 0 ∧ s.pc 5 = .busy 0 ∧ s.inp 0 0 = [.val 10, .val 11, .val 12] ∧ s.calls 1 = [[(0, .val 20)]]) = true := by decide
    rw [h] at hs
    obtain ⟨h1, h2⟩ := of_decide_eq_true hs
    have hc := clean_exec .init hp h
    refine ⟨s, hc, exec_open (pipe_wf 2) .init (pipe_open 2) hp (by decide) h, fun i => ?_, h2⟩
    by_cases hi : i < 2
    · simp only [List.all_eq_true, List.mem_range, decide_eq_true_eq] at h1; exact h1 i hi
    · exact hc.reachable.rcv (if_neg hi)

end Verif.Channel
