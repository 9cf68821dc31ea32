import Verif.Channel.ProcessInv3

/-!
# C60: processes with `await` and `yield`

The theorems hold for every process object, any number of receivers and every execution, as long as the process never
awaits with a time-out. What goes wrong with a time-out is at the end of the file.
-/

namespace Verif.Process

open Verif.Channel (Msg upd)

variable {σ : Type} {P : Proc σ} {n : Nat} {s s' : St σ}

/-- The thread is in a member function of the process object. -/
def InMember (p : Pc) : Prop := p = .inErr ∨ (∃ v, p = .inAwait v) ∨ (∃ m, p = .inClose m) ∨ ∃ b, p = .inYield b

/-- The thread is in a member function of the process object, or is going to ask for its state, or to destroy it. -/
def Uses (p : Pc) : Prop := InMember p ∨ p = .loop ∨ p = .decide ∨ (∃ b, p = .own2 b) ∨ p = .later ∨ p = .clear ∨ p = .timeout2

/-- No thread has anything left to do for the process, and the receivers have taken everything. -/
def Quiet (s : St σ) : Prop := ∀ k, s.pc k = .none ∧ s.dq k = [] ∧ s.cts k = .none

theorem InMember.isMain {p : Pc} (h : InMember p) : p.isMain = true := by
  rcases h with rfl | ⟨_, rfl⟩ | ⟨_, rfl⟩ | ⟨_, rfl⟩ <;> rfl

theorem InMember.own {p : Pc} (h : InMember p) : p.own = 0 := by
  rcases h with rfl | ⟨_, rfl⟩ | ⟨_, rfl⟩ | ⟨_, rfl⟩ <;> rfl

/-- **C60**, member functions of the process object are called one at a time: while a thread is in one, no other thread is
in one, asks for the state, or destroys the object. -/
theorem c60_one_at_a_time (hP : Untimed P) (h : Reachable P n s) {i j : Nat} (hi : InMember (s.pc i)) (hj : Uses (s.pc j)) :
    i = j := by
  have hI := inv hP h
  have hm := (hI.mn i).1 hi.isMain
  have key : (s.pc j).isMain = true → i = j := fun h1 => by
    have h2 := (hI.mn j).1 h1
    rw [hm] at h2; exact Option.some.inj h2
  rcases hj with hj | hj | hj | ⟨b, hj⟩ | hj | hj | hj
  · exact key hj.isMain
  · exact key (by rw [hj]; rfl)
  · exact key (by rw [hj]; rfl)
  · exact key (by rw [hj]; rfl)
  · exact key (by rw [hj]; rfl)
  · have := (hI.cl j hj).2
    simp [hm] at this
  · exact (hI.noTimeout hj rfl).elim

/-- **C60**, while a thread is in a member function of the process object, no call of `clear_to_send` by a receiver is
waiting to ask for its state. -/
theorem c60_one_at_a_time_receiver (hP : Untimed P) (h : Reachable P n s) {i : Nat} (hi : InMember (s.pc i)) (k : Nat) :
    s.cts k = .none := by
  have hI := inv hP h
  obtain ⟨hm, hq, -⟩ := hI.main rfl hi.isMain
  exact (hI.due0 (by simp [hm]) (by rw [hq]; exact hi.own) k).2

/-- **C60**, the messages are given to the process object in the order they were sent in, each once: what has been given
to it is a prefix of what has been sent; and the rest is in the queue, apart from one message that a thread has taken out and
is going to give to it. -/
theorem c60_in_order (hP : Untimed P) (h : Reachable P n s) :
    s.inp = s.took ++ s.q ∨ ∃ j m, s.pc j = .handle m ∧ s.inp = s.took ++ m :: s.q := by
  have hI := inv hP h
  have hi := hI.hi
  rcases hm : s.main with _ | j
  · left; simpa [pcm, hm, Pc.pend] using hi
  · simp only [pcm, hm] at hi
    rcases hp : s.pc j <;> simp [hp, Pc.pend] at hi
    case handle m => exact .inr ⟨j, m, hp, hi⟩
    all_goals exact .inl hi

/-- **C60**, `yield` is only called in a `yield` state, or when the time to await has expired. -/
theorem c60_yield_state (hP : Untimed P) (h : Reachable P n s) {j : Nat} {b : By} (hj : s.pc j = .inYield b) :
    ∃ x, s.proc = some x ∧ (P.state x = .now ∨ P.state x = .later ∨ P.state x = .expired) := by
  have hI := inv hP h
  obtain ⟨-, hq, -⟩ := hI.main hj rfl
  obtain ⟨x, hx, h1⟩ := hI.yi b hq
  refine ⟨x, hx, ?_⟩
  rcases h2 : P.state x <;> simp [h2, PState.isYield] at h1 ⊢

/-- **C60**, `await`, `set_error` and `close` are only called in an `await` state. -/
theorem c60_await_state (hP : Untimed P) (h : Reachable P n s) {j : Nat}
    (hj : (∃ v, s.pc j = .inAwait v) ∨ s.pc j = .inErr ∨ ∃ m, s.pc j = .inClose m) :
    ∃ x, s.proc = some x ∧ (P.state x).isYield = false := by
  have hI := inv hP h
  rcases hj with ⟨v, hj⟩ | hj | ⟨m, hj⟩ <;>
  · obtain ⟨-, hq, -, -, ⟨x, hx⟩, -⟩ := hI.main hj rfl
    exact ⟨x, hx, hI.ay (by rw [hq]; rfl) x hx⟩

/-- **C60**, every result is sent to every receiver, in the order in which they were yielded: what receiver `k` has been
sent are all results, apart from the last one if a thread is on its way to send that. -/
theorem c60_results (hP : Untimed P) (h : Reachable P n s) {k : Nat} (hk : k < n) :
    s.sent k = s.outs ∨
    ∃ j b r, (s.pc j = .bcast b r ∨ ∃ i, i ≤ k ∧ s.pc j = .send b r i) ∧ s.sent k ++ [r] = s.outs := by
  have hI := inv hP h
  have ho := hI.ou k hk
  rcases hm : s.main with _ | j
  · left; simp [pcm, hm, Pc.unsent] at ho; exact ho.symm
  · simp only [pcm, hm] at ho
    rcases hp : s.pc j <;> simp [hp, Pc.unsent] at ho
    case bcast b r => exact .inr ⟨j, b, r, .inl hp, ho.symm⟩
    case send b r i =>
      by_cases hik : i ≤ k
      · rw [if_pos hik] at ho; exact .inr ⟨j, b, r, .inr ⟨i, hik, hp⟩, ho.symm⟩
      · rw [if_neg hik] at ho; exact .inl (by simpa using ho.symm)
    all_goals exact .inl ho.symm

/-- **C60**, back-pressure: a receiver never has more than one message waiting. -/
theorem c60_backpressure (hP : Untimed P) (h : Reachable P n s) (k : Nat) : (s.dq k).length ≤ 1 := by
  have := (inv hP h).dq1 k; omega

/-- **C60**, back-pressure: the process object is not called until every receiver has taken the result before. -/
theorem c60_backpressure_member (hP : Untimed P) (h : Reachable P n s) {j : Nat} (hj : InMember (s.pc j)) (k : Nat) :
    s.dq k = [] := by
  have hI := inv hP h
  obtain ⟨hm, hq, -⟩ := hI.main rfl hj.isMain
  exact (hI.due0 (by simp [hm]) (by rw [hq]; exact hj.own) k).1

/-- **C60**, the process object is not used after its destruction. -/
theorem c60_no_undefined (hP : Untimed P) (h : Reachable P n s) (a : Act) : step P n s a ≠ .ub := by
  have hI := inv hP h
  intro hs
  cases a with
  | job j =>
    simp only [step] at hs
    have hpr : ∀ {p : Pc}, s.pc j = p → p.isMain = true → s.proc ≠ none := fun hp hm hx => by
      obtain ⟨x, hx'⟩ := (hI.main hp hm).2.2.2.2.1
      simp [hx] at hx'
    unfold stepJob at hs
    split at hs
    case h_3 hp => split at hs <;> first | exact hpr hp rfl ‹_› | cases hs
    case h_5 hp => repeat' split at hs
                   all_goals first | exact hpr hp rfl ‹_› | cases hs
    case h_6 hp =>
      have he := hI.er (hI.main hp rfl).2.1
      split at hs
      · split at hs <;> cases hs
      · rename_i hn
        obtain ⟨f, hf⟩ := Option.ne_none_iff_exists'.1 he
        obtain ⟨x, hx⟩ := Option.ne_none_iff_exists'.1 (hpr hp rfl)
        exact hn x f hx hf
    case h_7 hp => repeat' split at hs
                   all_goals first | exact hpr hp rfl ‹_› | cases hs
    case h_9 hp => repeat' split at hs
                   all_goals first | exact hpr hp rfl ‹_› | cases hs
    case h_10 hp => split at hs <;> first | exact hpr hp rfl ‹_› | cases hs
    case h_14 hp => split at hs <;> first | exact hpr hp rfl ‹_› | cases hs
    case h_21 hp => exact (hI.noTimeout hp rfl).elim
    all_goals first
      | cases hs
      | (split at hs <;> cases hs)
      | (split at hs; cases hs; split at hs <;> cases hs)
  | cts k =>
    simp only [step] at hs
    split at hs
    · cases hs
    · cases hs
    · rename_i hc
      obtain ⟨x, hx⟩ := (hI.cts2 hc).2.2.2.2.2.2.2
      simp [hx] at hs
  | pop k => simp only [step] at hs; repeat' split at hs
             all_goals cases hs
  | fail k => simp only [step] at hs; split at hs <;> cases hs
  | send m => simp only [step] at hs; split at hs <;> cases hs
  | copySender => simp only [step] at hs; split at hs <;> cases hs
  | dropSender => simp only [step] at hs; repeat' split at hs
                  all_goals cases hs
  | ready => simp only [step] at hs; split at hs <;> cases hs

/-- **C60**, nothing is forgotten: when everything has come to rest and there are receivers, then every message has been
given to the process object; and unless the channel has been closed, it is in an `await` state or has not been touched, and
the next message is going to start it again. -/
theorem c60_rest (hP : Untimed P) (h : Reachable P n s) (hr : s.ready = true) (hq : Quiet s) :
    s.took = s.inp ∧ (∀ k < n, s.sent k = s.outs) ∧
    (s.final = false → s.snd ≠ 0 ∧ (∃ x, s.proc = some x ∧ ((P.state x).isYield = false ∨ x = P.start)) ∧
      ∀ m, ∃ j s', step P n s (.send m) = .ok s' ∧ s'.pc j = .start) := by
  have hI := inv hP h
  have hm : s.main = none := by
    rcases hm : s.main with _ | j
    · rfl
    · have := (hI.mn j).2 hm; rw [(hq j).1] at this; cases this
  have h0 : s.inp = s.took ++ s.q := by simpa [pcm, hm, Pc.pend] using hI.hi
  have hout : ∀ k < n, s.sent k = s.outs := fun k hk => by simpa [pcm, hm, Pc.unsent] using (hI.ou k hk).symm
  rcases hf : s.final with _ | _
  · have hrn : s.running = false := by
      rcases hrn : s.running with _ | _
      · rfl
      · have h1 := hI.wt hrn hf hm
        have h2 := hI.sp hf
        rw [show due s = fun _ => 0 from funext fun k => by simp [due, pcm, hm, Pc.toSend, hq k, Cts.busy], sumTo_zero] at h2
        simp [pcm, hm, Pc.own] at h2; omega
    have hnq := hI.nq hrn hr
    have hc : s.q = [] ∧ s.closeQ = false := by
      rcases hnq with ⟨j, hj⟩ | hnq
      · rw [(hq j).1] at hj; cases hj
      · exact hnq
    have hs : s.snd ≠ 0 := fun hs => by
      rcases hI.so.1 hs with h1 | h1 | ⟨j, h1⟩
      · simp [hc.2] at h1
      · simp [hf] at h1
      · rw [(hq j).1] at h1; cases h1
    refine ⟨by simp [h0, hc.1], hout, fun _ => ⟨hs, ?_, fun m => ⟨s.next, _, by simp [step, hs]; rfl, ?_⟩⟩⟩
    · rcases hx : s.proc with _ | x
      · have := (hI.pr hx).1; simp [hf] at this
      · exact ⟨x, rfl, hI.aw hrn x hx⟩
    · simp [enqueue, hr, hrn, run, spawn, upd]
  · have := (hI.fi hf).2.1
    exact ⟨by simp [h0, this], hout, fun hn => by cases hn⟩

/-! ## Closing -/

/-- `close` does not throw, and if it is called in an `await` state it leaves the process object awaiting forever. -/
def CloseEnds (P : Proc σ) : Prop := ∀ x, (P.state x).isYield = false → (P.close x).2 = true ∧ P.state (P.close x).1 = .forever

/-- The channel is being closed downstream, or that has been done. -/
def Closing (P : Proc σ) (s : St σ) : Prop :=
  s.final = true → s.down = false ∨ (∃ j, s.pc j = .inClose false) ∨
    (∃ j x, s.pc j = .decide ∧ s.proc = some x ∧ P.state x = .forever) ∨ (∃ j, s.pc j = .taskDone) ∨ ∃ j, s.pc j = .clear

theorem goto_pc {j i : Nat} {p : Pc} : (goto j p s).pc i = if i = j then p else s.pc i := rfl

theorem spawn_pc {i : Nat} {p : Pc} : (spawn p s).pc i = if i = s.next then p else s.pc i := rfl

theorem run_pc {i : Nat} : (run s).pc i = if i = s.next then .start else s.pc i := rfl

theorem goto_proc {j : Nat} {p : Pc} : (goto j p s).proc = s.proc ∧ (goto j p s).down = s.down ∧ (goto j p s).final = s.final ∧
    (goto j p s).next = s.next := ⟨rfl, rfl, rfl, rfl⟩

theorem run_proc : (run s).proc = s.proc ∧ (run s).down = s.down ∧ (run s).final = s.final := ⟨rfl, rfl, rfl⟩

theorem Closing.ne {s1 : St σ} {j : Nat} {p : Pc} (h : Closing P s) (hI : Inv P n s)
    (hp : s.pc j = p) (h1 : p ≠ .inClose false) (h2 : p ≠ .decide) (h3 : p ≠ .taskDone) (h4 : p ≠ .clear)
    (hpc : ∀ i, i ≠ j → s.pc i ≠ .none → s1.pc i = s.pc i) (hx : p.isMain = true ∨ s1.proc = s.proc) (hd : s1.down = s.down)
    (hf : s1.final = s.final) : Closing P s1 := by
  intro hf'
  have hk : ∀ i, (s.pc i = .inClose false ∨ s.pc i = .decide ∨ s.pc i = .taskDone ∨ s.pc i = .clear) → s1.pc i = s.pc i := by
    intro i hi
    refine hpc i ?_ ?_
    · rintro rfl; rw [hp] at hi; simp [h1, h2, h3, h4] at hi
    · intro h0; simp [h0] at hi
  rcases h (by rw [← hf]; exact hf') with h | ⟨i, h⟩ | ⟨i, x, h, h', h''⟩ | ⟨i, h⟩ | ⟨i, h⟩
  · exact .inl (by rw [hd]; exact h)
  · exact .inr (.inl ⟨i, by rw [hk i (by simp [h])]; exact h⟩)
  · refine .inr (.inr (.inl ⟨i, x, by rw [hk i (by simp [h])]; exact h, ?_, h''⟩))
    rcases hx with hx | hx
    · have e1 := (hI.mn i).1 (by rw [h]; rfl)
      have e2 := (hI.mn j).1 (by rw [hp]; exact hx)
      rw [e1] at e2
      cases e2
      rw [h] at hp; exact absurd hp.symm h2
    · rw [hx]; exact h'
  · exact .inr (.inr (.inr (.inl ⟨i, by rw [hk i (by simp [h])]; exact h⟩)))
  · exact .inr (.inr (.inr (.inr ⟨i, by rw [hk i (by simp [h])]; exact h⟩)))

/-- Something happens that has nothing to do with the threads. -/
theorem Closing.same {s1 : St σ} (h : Closing P s) (hpc : ∀ i, s.pc i ≠ .none → s1.pc i = s.pc i) (hx : s1.proc = s.proc)
    (hd : s1.down = s.down) (hf : s1.final = s.final) : Closing P s1 := by
  intro hf'
  rcases h (by rw [← hf]; exact hf') with h | ⟨i, h⟩ | ⟨i, x, h, h', h''⟩ | ⟨i, h⟩ | ⟨i, h⟩
  · exact .inl (by rw [hd]; exact h)
  · exact .inr (.inl ⟨i, by rw [hpc i (by simp [h])]; exact h⟩)
  · exact .inr (.inr (.inl ⟨i, x, by rw [hpc i (by simp [h])]; exact h, by rw [hx]; exact h', h''⟩))
  · exact .inr (.inr (.inr (.inl ⟨i, by rw [hpc i (by simp [h])]; exact h⟩)))
  · exact .inr (.inr (.inr (.inr ⟨i, by rw [hpc i (by simp [h])]; exact h⟩)))

theorem Closing.job (hP : Untimed P) (hC : CloseEnds P) (hI : Inv P n s) (h : Closing P s) {j : Nat}
    (hs : stepJob P n j s = .ok s') : Closing P s' := by
  have fr := hI.fr
  have hne : ∀ {i : Nat}, s.pc i ≠ .none → i ≠ s.next := fun h1 h2 => h1 (fr _ (by omega))
  unfold stepJob at hs
  split at hs
  case h_1 => cases hs
  case h_4 hp =>
    split at hs <;> cases hs
    · exact fun _ => .inr (.inl ⟨j, by simp [goto, upd]⟩)
    · exact h.ne hI hp (by simp) (by simp) (by simp) (by simp) (by grind [back, ctsCrit, enqueue, goto_pc, run_pc, spawn_pc, goto_proc, run_proc]) (.inl rfl) rfl rfl
  case h_8 m hp =>
    split at hs
    · cases hs
      obtain ⟨x, hx⟩ := (hI.main hp rfl).2.2.2.2.1
      simp_all
    · rename_i x hx
      have := hC x (hI.ay (by rw [(hI.main hp rfl).2.1]; rfl) x hx)
      rw [if_pos this.1] at hs
      cases hs
      cases m
      · exact fun _ => .inr (.inr (.inl ⟨j, _, by simp [goto, upd], rfl, this.2⟩))
      · exact h.ne hI hp (by simp) (by simp) (by simp) (by simp) (by grind [back, ctsCrit, enqueue, goto_pc, run_pc, spawn_pc, goto_proc, run_proc]) (.inl rfl) rfl rfl
  case h_9 hp =>
    obtain ⟨hm, -⟩ := hI.main hp rfl
    split at hs
    · cases hs
    · rename_i x hx
      have hst : s.final = true → P.state x = .forever := by
        intro hf
        rcases h hf with h | ⟨i, h⟩ | ⟨i, y, h, h', h''⟩ | ⟨i, h⟩ | ⟨i, h⟩
        · simp [hI.dw h] at hx
        · have := (hI.mn i).1 (by rw [h]; rfl); grind
        · rw [hx] at h'; cases h'; exact h''
        · have := (hI.mn i).1 (by rw [h]; rfl); grind
        · have := hI.cl i h; grind
      split at hs
      case h_4 => cases hs; exact fun _ => .inr (.inr (.inr (.inl ⟨j, by simp [goto, upd]⟩)))
      all_goals
        cases hs
        intro hf
        have := hst hf
        simp_all
  case h_16 hp =>
    cases hs
    intro hf
    have hf' : s.final = true := by simp only [goto, run, spawn] at hf; split at hf <;> exact hf
    have := hI.fi hf'
    refine .inr (.inr (.inr (.inr ⟨j, ?_⟩)))
    simp [goto, upd, this, hf']
  case h_17 hp => cases hs; exact fun _ => .inl rfl
  case h_15 hp => exact (hI.noTimeout hp rfl).elim
  case h_20 hp => exact (hI.noTimeout hp rfl).elim
  case h_21 hp => exact (hI.noTimeout hp rfl).elim
  case h_14 b hp =>
    split at hs <;> cases hs
    refine h.ne hI hp (by simp) (by simp) (by simp) (by simp) ?_ (.inl rfl) ?_ ?_
    · intro i hi h0; have := hne h0
      cases b <;> grind [back, ctsCrit, enqueue, goto_pc, run_pc, spawn_pc, goto_proc, run_proc]
    · cases b <;> grind [back, ctsCrit, enqueue, goto_pc, run_pc, spawn_pc, goto_proc, run_proc]
    · cases b <;> grind [back, ctsCrit, enqueue, goto_pc, run_pc, spawn_pc, goto_proc, run_proc]
  case h_13 b hp =>
    split at hs <;> cases hs
    · refine h.ne hI hp (by simp) (by simp) (by simp) (by simp) ?_ (.inl rfl) ?_ ?_ <;> cases b <;> grind [back, ctsCrit, enqueue, goto_pc, run_pc, spawn_pc, goto_proc, run_proc]
    · exact h.ne hI hp (by simp) (by simp) (by simp) (by simp) (by grind [back, ctsCrit, enqueue, goto_pc, run_pc, spawn_pc, goto_proc, run_proc]) (.inl rfl) rfl rfl
  case h_22 hp =>
    cases hs
    refine h.ne hI hp (by simp) (by simp) (by simp) (by simp) ?_ (.inr ?_) ?_ ?_
    · intro i hi h0; have := hne h0
      grind [back, ctsCrit, enqueue, goto_pc, run_pc, spawn_pc, goto_proc, run_proc]
    all_goals grind [back, ctsCrit, enqueue, goto_pc, run_pc, spawn_pc, goto_proc, run_proc]
  case h_23 hp =>
    cases hs
    refine h.ne hI hp (by simp) (by simp) (by simp) (by simp) ?_ (.inr ?_) ?_ ?_
    · intro i hi h0; have := hne h0
      grind [back, ctsCrit, enqueue, goto_pc, run_pc, spawn_pc, goto_proc, run_proc]
    all_goals grind [back, ctsCrit, enqueue, goto_pc, run_pc, spawn_pc, goto_proc, run_proc]
  all_goals
    rename_i hp
    repeat' split at hs
    all_goals try cases hs
    all_goals
      refine h.ne hI hp (by simp) (by simp) (by simp) (by simp) (by grind [back, ctsCrit, enqueue, goto_pc, run_pc, spawn_pc, goto_proc, run_proc]) ?_ rfl rfl
      first | exact .inl rfl | exact .inr rfl

theorem Closing.step (hP : Untimed P) (hC : CloseEnds P) (hI : Inv P n s) (h : Closing P s) {a : Act}
    (hs : step P n s a = .ok s') : Closing P s' := by
  have fr := hI.fr
  have hne : ∀ {i : Nat}, s.pc i ≠ .none → i ≠ s.next := fun h1 h2 => h1 (fr _ (by omega))
  cases a with
  | job j => exact h.job hP hC hI hs
  | fail j =>
    simp only [Process.step] at hs
    split at hs <;> cases hs
    rename_i hp
    refine h.ne hI hp (by simp) (by simp) (by simp) (by simp) ?_ (.inl rfl) rfl rfl
    intro i hi h0; have := hne h0
    grind [back, ctsCrit, enqueue, goto_pc, run_pc, spawn_pc, goto_proc, run_proc]
  | send m =>
    simp only [Process.step] at hs
    split at hs <;> cases hs
    refine h.same ?_ ?_ ?_ ?_
    · intro i h0; have := hne h0
      grind [back, ctsCrit, enqueue, goto_pc, run_pc, spawn_pc, goto_proc, run_proc]
    all_goals grind [back, ctsCrit, enqueue, goto_pc, run_pc, spawn_pc, goto_proc, run_proc]
  | cts k =>
    simp only [Process.step] at hs
    repeat' split at hs
    all_goals cases hs
    · exact h.same (fun _ _ => rfl) rfl rfl rfl
    · exact h.same (fun _ _ => rfl) rfl rfl rfl
    · refine h.same ?_ ?_ ?_ ?_
      · intro i h0; have := hne h0
        grind [back, ctsCrit, enqueue, goto_pc, run_pc, spawn_pc, goto_proc, run_proc]
      all_goals grind [back, ctsCrit, enqueue, goto_pc, run_pc, spawn_pc, goto_proc, run_proc]
  | _ =>
    simp only [Process.step] at hs
    repeat' split at hs
    all_goals cases hs
    all_goals
      refine h.same ?_ rfl rfl rfl
      intro i h0; have := hne h0
      grind [back, ctsCrit, enqueue, goto_pc, run_pc, spawn_pc, goto_proc, run_proc]

/-- **C60**, closing: when the last sender is gone and everything has come to rest, the process object has got every message
and has been closed, and is destroyed together with its connection to the receivers, provided that `close` leaves it
awaiting forever if called in an `await` state.

Missing: that this is so whatever `close` does, see `c60_close_yield_counterexample`. -/
theorem c60_close_partial (hP : Untimed P) (hC : CloseEnds P) (h : Reachable P n s) (hr : s.ready = true) (hq : Quiet s)
    (hs : s.snd = 0) : s.took = s.inp ∧ s.early < s.closes ∧ s.proc = none ∧ s.down = false := by
  have hI := inv hP h
  have h1 := c60_rest hP h hr hq
  have hf : s.final = true := by
    rcases hf : s.final with _ | _
    · exact absurd hs (h1.2.2 hf).1
    · rfl
  have hcl : Closing P s := by
    clear hr hq hs h1 hf hI
    induction h with
    | init => intro hf; cases hf
    | step h hs ih => exact ih.step hP hC (inv hP h) hs
  have hd : s.down = false := by
    rcases hcl hf with h | ⟨i, h⟩ | ⟨i, x, h, -⟩ | ⟨i, h⟩ | ⟨i, h⟩
    · exact h
    all_goals rw [(hq i).1] at h; cases h
  exact ⟨h1.1, (hI.fi hf).2.2.2.2, hI.dw hd, hd⟩

/-! ## Examples -/

theorem exec_reachable : ∀ {as : List Act} {s s' : St σ}, Reachable P n s → exec P n s as = some s' → Reachable P n s'
  | [], _, _, h, he => by simp only [exec, Option.some.injEq] at he; exact he ▸ h
  | a :: as, s, _, h, he => by
    simp only [exec] at he
    split at he
    · exact exec_reachable (h.step ‹_›) he
    · cases he

/-- Thread `j` takes `k` steps. -/
def jobs (j k : Nat) : List Act := List.replicate k (.job j)

/-- A process that adds up pairs. -/
def pairs : Proc (List Nat) where
  start := []
  state x := if x.length = 2 then .now else .forever
  await x v := (x ++ [v], true)
  yield x := ([], .val x.sum)
  close _ := ([], true)
  setError := none

theorem pairs_untimed : Untimed pairs := by intro x; simp only [pairs]; split <;> simp

theorem pairs_closeEnds : CloseEnds pairs := by intro x; simp [pairs]

/-- 3 and 4 are sent, and the process is in `await` for 4. -/
def inAwait4 : List Act := [.ready, .job 0, .send (.val 3), .send (.val 4)] ++ jobs 1 8

/-- `c60_one_at_a_time`, `c60_await_state`, `c60_in_order`, `c60_backpressure_member`: a member function is being called. -/
example : ∃ s, Reachable pairs 2 s ∧ s.pc 1 = .inAwait 4 ∧ InMember (s.pc 1) ∧ s.took = [.val 3, .val 4] :=
  ⟨((exec pairs 2 (init pairs) inAwait4).get rfl), exec_reachable .init (Option.some_get _).symm, rfl, .inr (.inl ⟨4, rfl⟩), rfl⟩

/-- 7 has been sent to the first of two receivers. -/
def sending7 : List Act := [.ready, .job 0, .send (.val 3), .send (.val 4)] ++ jobs 1 14

/-- `c60_yield_state`, `c60_results` -/
example : (∃ s, Reachable pairs 2 s ∧ s.pc 1 = .inYield .step) ∧
    ∃ s, Reachable pairs 2 s ∧ s.pc 1 = .send .step (.val 7) 1 ∧ s.sent 0 = [.val 7] ∧ s.sent 1 = [] ∧ s.outs = [.val 7] :=
  ⟨⟨((exec pairs 2 (init pairs) ([.ready, .job 0, .send (.val 3), .send (.val 4)] ++ jobs 1 11)).get rfl),
      exec_reachable .init (Option.some_get _).symm, rfl⟩,
    ((exec pairs 2 (init pairs) sending7).get rfl), exec_reachable .init (Option.some_get _).symm, rfl, rfl, rfl, rfl⟩

/-- 7 has arrived at both receivers. -/
def arrived7 : List Act := [.ready, .job 0, .send (.val 3), .send (.val 4)] ++ jobs 1 17 ++
  [.pop 0, .cts 0, .cts 0, .pop 1, .cts 1, .cts 1] ++ jobs 1 2

theorem quiet_iff_lt (hI : Inv P n s) (h1 : ∀ k < s.next, s.pc k = .none) (h2 : ∀ k < n, s.dq k = [] ∧ s.cts k = .none) : Quiet s := by
  intro k
  refine ⟨?_, ?_⟩
  · by_cases hk : k < s.next
    · exact h1 k hk
    · exact hI.fr k (by omega)
  · by_cases hk : k < n
    · exact h2 k hk
    · exact hI.dn k (by omega)

/-- `c60_rest`: a quiet state. -/
example : ∃ s, Reachable pairs 2 s ∧ s.ready = true ∧ Quiet s ∧ s.final = false ∧ s.inp = [.val 3, .val 4] ∧ s.outs = [.val 7] := by
  have hr : Reachable pairs 2 ((exec pairs 2 (init pairs) arrived7).get rfl) := exec_reachable .init (Option.some_get _).symm
  exact ⟨_, hr, rfl, quiet_iff_lt (inv pairs_untimed hr) (by decide) (by decide), rfl, rfl, rfl⟩

/-- `c60_close_partial`: the channel is closed after that. -/
example : ∃ s, Reachable pairs 2 s ∧ s.ready = true ∧ Quiet s ∧ s.snd = 0 ∧ s.inp = [.val 3, .val 4] ∧ s.outs = [.val 7] := by
  have hr : Reachable pairs 2 ((exec pairs 2 (init pairs) (arrived7 ++ .dropSender :: .job 2 :: jobs 3 8)).get rfl) :=
    exec_reachable .init (Option.some_get _).symm
  exact ⟨_, hr, rfl, quiet_iff_lt (inv pairs_untimed hr) (by decide) (by decide), rfl, rfl, rfl⟩

/-! ## What goes wrong -/

/-- **C60** fails in that `close` is called only once the last sender is gone: it is called whenever the queue is empty (lines
896-900). Here 3 is sent, `close` makes the process forget it, and then 4 is sent by the same sender: the sum of both, which
is the result if 4 is sent before the step for 3 is over, is never yielded. -/
theorem c60_close_early_counterexample :
    ∃ s, Reachable pairs 2 s ∧ Quiet s ∧ s.snd = 1 ∧ s.inp = [.val 3, .val 4] ∧ s.took = s.inp ∧ s.early = 2 ∧ s.outs = [] := by
  have hr : Reachable pairs 2 ((exec pairs 2 (init pairs)
      ([.ready, .job 0, .send (.val 3)] ++ jobs 1 11 ++ [.send (.val 4)] ++ jobs 2 11)).get rfl) :=
    exec_reachable .init (Option.some_get _).symm
  exact ⟨_, hr, quiet_iff_lt (inv pairs_untimed hr) (by decide) (by decide), rfl, rfl, rfl, rfl, rfl⟩

/-- Yields the last message twice over once it is closed. -/
def last : Proc (List Nat) where
  start := []
  state x := if x.length = 2 then .now else .forever
  await _ v := ([v], true)
  yield x := ([], .val x.sum)
  close x := (x ++ x, true)
  setError := none

theorem last_untimed : Untimed last := by intro x; simp only [last]; split <;> simp

/-- **C60** fails in that the receivers learn of the end if `close` leads to a `yield`: the last result is sent, and nothing is
left to do, but the process and its connection to the receivers remain, as `clear_to_send` returns because of `_process_final`
(lines 828-833). -/
theorem c60_close_yield_counterexample :
    ∃ s, Reachable last 1 s ∧ s.ready = true ∧ Quiet s ∧ s.snd = 0 ∧ s.sent 0 = [.val 6] ∧ s.down = true ∧ s.proc = some [] ∧
      s.running = true := by
  have hr : Reachable last 1 ((exec last 1 (init last)
      ([.ready, .job 0, .send (.val 3), .dropSender, .job 2] ++ jobs 1 15 ++ [.pop 0, .cts 0])).get rfl) :=
    exec_reachable .init (Option.some_get _).symm
  exact ⟨_, hr, rfl, quiet_iff_lt (inv last_untimed hr) (by decide) (by decide), rfl, rfl, rfl, rfl, rfl⟩

/-- Awaits with a time-out after 1, and yields after 2. -/
def timed : Proc Nat where
  start := 0
  state x := if x = 1 then .timed else if x = 2 then .now else .forever
  await _ v := (v, true)
  yield x := (0, .val x)
  close x := (x, true)
  setError := none

/-- **C60** fails in the back-pressure if the process awaits with a time-out: each message that arrives before the time is up
starts another step (lines 619-622), and these do not wait for the receivers. -/
theorem c60_timeout_backpressure_counterexample : ∃ s, Reachable timed 1 s ∧ s.dq 0 = [.val 2, .val 2] :=
  ⟨((exec timed 1 (init timed) ([.ready, .job 0, .send (.val 1)] ++ jobs 1 10 ++ [.send (.val 2), .send (.val 2)] ++ jobs 3 14 ++
      jobs 4 10)).get rfl), exec_reachable .init (Option.some_get _).symm, rfl⟩

/-- **C60** fails in that the process object is not used after its destruction if the process awaits with a time-out: here a
message arrives in time, the last sender goes, the process is destroyed at the end of the step, and then the time is up (line
1063). -/
theorem c60_timeout_undefined_counterexample : ∃ s a, Reachable timed 1 s ∧ s.proc = none ∧ step timed 1 s a = .ub :=
  ⟨((exec timed 1 (init timed) ([.ready, .job 0, .send (.val 1)] ++ jobs 1 10 ++ [.send (.val 0), .dropSender, .job 4] ++ jobs 3 12 ++
      [.job 2])).get rfl), .job 2, exec_reachable .init (Option.some_get _).symm, rfl, rfl⟩

end Verif.Process
