import Verif.Channel.Props

/-!
# C46: what an error does to a process

A process that takes an error from its queue does nothing from then on, whatever happens (`c46_wedged`); it never calls its
function with an error (`c46_no_call`), and it has got stuck exactly if it has taken an error (`c46_failed_iff`).
-/

namespace Verif.Channel

variable {G : Net} {s s' : St}

/-- Everything that happens outside of the thread itself. -/
structure Keep (s s' : St) : Prop where
  calls : s'.calls = s.calls
  outs : s'.outs = s.outs
  inp : ∀ i k, ∃ l, s'.inp i k = s.inp i k ++ l
  pc : ∀ j, s'.pc j = s.pc j ∨ (s.pc j = .none ∧ (s'.pc j).tocall = [])

theorem Keep.same (h1 : s'.calls = s.calls) (h2 : s'.outs = s.outs) (h3 : s'.inp = s.inp) (h4 : s'.pc = s.pc) : Keep s s' :=
  ⟨h1, h2, fun _ _ => ⟨[], by rw [h3, List.append_nil]⟩, fun _ => .inl (by rw [h4])⟩

/-- A new thread. -/
theorem Keep.new {s1 : St} (K : Keep s s1) (hn : s1.pc s1.next = .none) {p : Pc} (hp : p.tocall = []) (h1 : s'.calls = s1.calls)
    (h2 : s'.outs = s1.outs) (h3 : s'.inp = s1.inp) (h4 : s'.pc = upd s1.pc s1.next p) : Keep s s' where
  calls := h1.trans K.calls
  outs := h2.trans K.outs
  inp i k := by rw [h3]; exact K.inp i k
  pc j := by
    rw [h4]
    simp only [upd]
    split
    · rename_i h
      subst h
      right
      refine ⟨?_, hp⟩
      rcases K.pc s1.next with h | h
      · rw [← h]; exact hn
      · exact h.1
    · exact K.pc j

theorem Keep.run {s1 : St} (K : Keep s s1) (hn : s1.pc s1.next = .none) (i : Nat) : Keep s (run i s1) :=
  K.new hn (p := .pop i) rfl rfl rfl rfl rfl

theorem Keep.enqueue (hn : s.pc s.next = .none) (i k : Nat) (m : Msg) : Keep s (enqueue i k m s) := by
  have h : ∀ a b, ∃ l, (upd s.inp i (upd (s.inp i) k (s.inp i k ++ [m]))) a b = s.inp a b ++ l := by
    intro a b
    simp only [upd]
    by_cases ha : a = i
    · subst ha
      by_cases hb : b = k
      · subst hb; exact ⟨[m], by simp [upd]⟩
      · exact ⟨[], by simp [upd, hb]⟩
    · exact ⟨[], by simp [ha]⟩
  unfold Channel.enqueue
  dsimp only
  split
  · refine Keep.run ?_ (by exact hn) i
    exact ⟨rfl, rfl, h, fun _ => .inl rfl⟩
  · exact ⟨rfl, rfl, h, fun _ => .inl rfl⟩

theorem Keep.cts {s1 : St} (K : Keep s s1) (hn : s1.pc s1.next = .none) (i : Nat) (c : Credit) : Keep s (ctsCrit G i c s1) := by
  unfold ctsCrit
  dsimp only
  split
  · split
    · refine Keep.run ?_ (by exact hn) i
      exact ⟨K.calls, K.outs, K.inp, K.pc⟩
    · exact ⟨K.calls, K.outs, K.inp, K.pc⟩
  · exact ⟨K.calls, K.outs, K.inp, K.pc⟩

/-- One step. -/
structure Moved (s s' : St) : Prop where
  stay : ∀ j i m, s.pc j = .dead i m → s'.pc j = .dead i m
  call : ∀ j i m, s'.pc j = .call i m → s.pc j = .call i m ∨ ∀ x ∈ m, x.2 ≠ .err
  dead : ∀ j i m, s'.pc j = .dead i m → s.pc j = .dead i m ∨ ∃ x ∈ m, x.2 = .err
  calls : ∀ i, s'.calls i = s.calls i ∨ ∃ j m, s.pc j = .call i m ∧ s'.calls i = s.calls i ++ [m]
  outs : ∀ i, s'.outs i = s.outs i ∨ ∃ j, s.pc j = .busy i
  inp : ∀ i k, ∃ l, s'.inp i k = s.inp i k ++ l

theorem Keep.moved (K : Keep s s') : Moved s s' where
  stay j i m h := by
    rcases K.pc j with h1 | h1
    · rw [h1, h]
    · rw [h] at h1; cases h1.1
  call j i m h := by
    rcases K.pc j with h1 | h1
    · exact .inl (by rw [← h1, h])
    · rw [h] at h1; cases h1.2
  dead j i m h := by
    rcases K.pc j with h1 | h1
    · exact .inl (by rw [← h1, h])
    · rw [h] at h1; cases h1.2
  calls i := .inl (by rw [K.calls])
  outs i := .inl (by rw [K.outs])
  inp := K.inp

theorem Keep.goto {s1 : St} (K : Keep s s1) {j : Nat} (hd : ∀ i m, s.pc j ≠ .dead i m) {p : Pc}
    (hc : ∀ i m, p = .call i m → ∀ x ∈ m, x.2 ≠ .err) (he : ∀ i m, p = .dead i m → ∃ x ∈ m, x.2 = .err) :
    Moved s (goto j p s1) where
  stay j' i m h := by
    have : j' ≠ j := by rintro rfl; exact hd i m h
    simp only [Channel.goto, upd, this, ↓reduceIte]
    exact K.moved.stay j' i m h
  call j' i m h := by
    simp only [Channel.goto, upd] at h
    split at h
    · exact .inr (hc i m h)
    · exact K.moved.call j' i m h
  dead j' i m h := by
    simp only [Channel.goto, upd] at h
    split at h
    · exact .inr (he i m h)
    · exact K.moved.dead j' i m h
  calls i := .inl (by simp only [Channel.goto, K.calls])
  outs i := .inl (by simp only [Channel.goto, K.outs])
  inp := K.inp

theorem stepJob_moved (hn : ∀ j, s.next ≤ j → s.pc j = .none) {j : Nat} (e : stepJob G j s = some s') : Moved s s' := by
  have hn0 := hn s.next (Nat.le_refl _)
  have K : Keep s s := Keep.same rfl rfl rfl rfl
  unfold stepJob at e
  cases hp : s.pc j
  all_goals rw [hp] at e
  case none => cases e
  case dead => cases e
  case busy => cases e
  case pop i =>
    cases e
    unfold popCrit
    split
    · refine Keep.goto ?_ (by simp [hp]) (by simp) (by simp)
      exact Keep.same rfl rfl rfl rfl
    · refine Keep.goto ?_ (by simp [hp]) (by simp) (by simp)
      exact Keep.same rfl rfl rfl rfl
  case cts1 i ks m =>
    cases ks with
    | nil =>
      cases m with
      | none => cases e; exact K.goto (by simp [hp]) (by simp) (by simp)
      | some m =>
        cases e
        split
        · rename_i h
          refine K.goto (by simp [hp]) (by simp) ?_
          rintro i' m' ⟨⟩
          simp only [List.any_eq_true, decide_eq_true_eq] at h
          exact h
        · rename_i h
          refine K.goto (by simp [hp]) ?_ (by simp)
          rintro i' m' ⟨⟩
          intro x hx hx'
          exact h (List.any_eq_true.2 ⟨x, hx, by simpa using hx'⟩)
    | cons k ks =>
      dsimp only at e
      split at e
      · cases e
        split <;> exact K.goto (by simp [hp]) (by simp) (by simp)
      · cases e; exact K.goto (by simp [hp]) (by simp) (by simp)
  case cts2 i ks m =>
    cases ks with
    | nil => cases e; exact K.goto (by simp [hp]) (by simp) (by simp)
    | cons k ks =>
      dsimp only at e
      split at e
      · cases e; exact (K.cts hn0 _ _).goto (by simp [hp]) (by simp) (by simp)
      · cases e; exact K.goto (by simp [hp]) (by simp) (by simp)
  case call i m =>
    cases e
    have M : Moved s (goto j (.busy i) s) := K.goto (by simp [hp]) (by simp) (by simp)
    refine ⟨M.stay, M.call, M.dead, ?_, M.outs, M.inp⟩
    intro i'
    simp only [goto, upd]
    by_cases h : i' = i
    · subst h; exact .inr ⟨j, m, hp, by simp⟩
    · exact .inl (by simp [h])
  case bcast i r => cases e; split <;> exact K.goto (by simp [hp]) (by simp) (by simp)
  case free i r es acc => cases es <;> cases e <;> exact K.goto (by simp [hp]) (by simp) (by simp)
  case susp i r b =>
    cases e
    refine Keep.goto ?_ (by simp [hp]) (by simp) (by simp)
    exact Keep.same rfl rfl rfl rfl
  case send i r es =>
    cases es with
    | nil => cases e; exact K.goto (by simp [hp]) (by simp) (by simp)
    | cons x es => cases e; exact (Keep.enqueue hn0 _ _ _).goto (by simp [hp]) (by simp) (by simp)
  case own1 i => cases e; split <;> exact K.goto (by simp [hp]) (by simp) (by simp)
  case own2 i =>
    cases e
    refine Keep.goto (Keep.cts ?_ ?_ _ _) (by simp [hp]) (by simp) (by simp)
    · exact Keep.same rfl rfl rfl rfl
    · exact hn0
  case taskDone i =>
    cases e
    unfold taskDone
    dsimp only
    split <;> split <;> refine Keep.goto ?_ (by simp [hp]) (by simp) (by simp)
    · refine Keep.new (s1 := s) (p := .pop i) K hn0 rfl ?_ ?_ ?_ ?_ <;> rfl
    · refine Keep.run ?_ (by exact hn0) i
      exact Keep.same rfl rfl rfl rfl
    · exact Keep.same rfl rfl rfl rfl
    · exact Keep.same rfl rfl rfl rfl
  case clear es =>
    cases es with
    | nil => cases e; exact K.goto (by simp [hp]) (by simp) (by simp)
    | cons x es =>
      obtain ⟨d, o⟩ := x
      dsimp only at e
      split at e <;> cases e <;>
        (refine Keep.goto ?_ (by simp [hp]) (by simp) (by simp); exact Keep.same rfl rfl rfl rfl)
  case close2 d es =>
    cases e
    refine Keep.goto ?_ (by simp [hp]) (by simp) (by simp)
    split
    · refine Keep.run ?_ (by exact hn0) d; exact Keep.same rfl rfl rfl rfl
    · exact Keep.same rfl rfl rfl rfl
  case ready2 i =>
    cases e
    refine Keep.goto ?_ (by simp [hp]) (by simp) (by simp)
    split
    · refine Keep.run ?_ (by exact hn0) i; exact Keep.same rfl rfl rfl rfl
    · exact Keep.same rfl rfl rfl rfl

theorem step_moved (hn : ∀ j, s.next ≤ j → s.pc j = .none) {a : Act} (e : step G s a = some s') : Moved s s' := by
  have hn0 := hn s.next (Nat.le_refl _)
  have K : Keep s s := Keep.same rfl rfl rfl rfl
  cases a with
  | job j => exact stepJob_moved hn e
  | ret j r =>
    simp only [step] at e
    split at e <;> cases e
    rename_i i hp
    have M : Moved s (goto j (.bcast i r) s) := K.goto (by simp [hp]) (by simp) (by simp)
    refine ⟨M.stay, M.call, M.dead, M.calls, ?_, M.inp⟩
    intro i'
    simp only [goto, upd]
    by_cases h : i' = i
    · subst h; exact .inr ⟨j, hp⟩
    · exact .inl (by simp [h])
  | send i n m =>
    simp only [step] at e
    split at e <;> cases e
    exact (Keep.enqueue hn0 _ _ _).moved
  | copySender i n n' =>
    simp only [step] at e
    split at e <;> cases e
    refine Keep.moved ?_; exact Keep.same rfl rfl rfl rfl
  | dropSender i n =>
    simp only [step] at e
    split at e
    · split at e <;> cases e
      · refine Keep.moved ?_; exact K.new (p := .close2 i []) hn0 rfl rfl rfl rfl rfl
      · refine Keep.moved ?_; exact Keep.same rfl rfl rfl rfl
    · cases e
  | copyRecv i =>
    simp only [step] at e
    split at e <;> cases e
    refine Keep.moved ?_; exact Keep.same rfl rfl rfl rfl
  | dropRecv i =>
    simp only [step] at e
    split at e
    · split at e <;> cases e
      · refine Keep.moved ?_; exact K.new (p := .ready2 i) hn0 rfl rfl rfl rfl rfl
      · refine Keep.moved ?_; exact Keep.same rfl rfl rfl rfl
    · cases e

/-- Which messages are called and which are not, in any network. -/
structure Sorted (s : St) : Prop where
  call : ∀ j i m, s.pc j = .call i m → ∀ x ∈ m, x.2 ≠ .err
  dead : ∀ j i m, s.pc j = .dead i m → ∃ x ∈ m, x.2 = .err
  calls : ∀ i, ∀ m ∈ s.calls i, ∀ x ∈ m, x.2 ≠ .err

theorem Sorted.moved (h : Sorted s) (M : Moved s s') : Sorted s' where
  call j i m hm := (M.call j i m hm).elim (h.call j i m) id
  dead j i m hm := (M.dead j i m hm).elim (h.dead j i m) id
  calls i m hm := by
    rcases M.calls i with h1 | ⟨j, m', h1, h2⟩
    · rw [h1] at hm; exact h.calls i m hm
    · rw [h2, List.mem_append, List.mem_singleton] at hm
      rcases hm with hm | rfl
      · exact h.calls i m hm
      · exact h.call j i m h1

theorem Reachable.sorted (h : Reachable G s) : Sorted s :=
  h.induct (by constructor <;> simp [init]) fun hr ih e => ih.moved (step_moved hr.once.fr e)

/-- In any network: the function is never called with an error. -/
theorem c46_no_call (h : Reachable G s) {i : Nat} {m : Args} (hm : m ∈ s.calls i) : ∀ x ∈ m, x.2 ≠ .err := h.sorted.calls i m hm

/-- When nothing is going on, the processes that have got stuck are those that have taken an error from their queues. -/
theorem c46_failed_iff (W : G.Wf) (T : G.Tight) (h : Reachable G s) (Q : Quiet s) (i : Nat) :
    Failed s i ↔ ∃ m ∈ s.pops i, ∃ x ∈ m, x.2 = .err := by
  have I := h.inv W T
  have S := h.sorted
  constructor
  · rintro ⟨j, m, hj⟩
    have hm := (I.mn i j).1 (by rw [hj]; rfl)
    refine ⟨m, ?_, S.dead j i m hj⟩
    rw [I.ca i, pcm_some hm, hj]
    simp [Pc.tocall]
  · rintro ⟨m, hm, x, hx, he⟩
    rw [I.ca i, List.mem_append] at hm
    rcases hm with hm | hm
    · exact absurd he (S.calls i m hm x hx)
    · rcases I.quiet_dead Q i with h1 | ⟨j, m', -, h1⟩
      · rw [pcm_none h1] at hm; cases hm
      · exact ⟨j, m', h1⟩

theorem Failed.exec (h : Reachable G s) {i : Nat} (hF : Failed s i) {as : List Act} (e : exec G s as = some s') :
    Reachable G s' ∧ Failed s' i := by
  induction as generalizing s with
  | nil => cases e; exact ⟨h, hF⟩
  | cons a as ih =>
    simp only [Channel.exec] at e
    cases ha : step G s a with
    | none => simp [ha] at e
    | some s1 =>
      rw [ha] at e
      obtain ⟨as', e'⟩ := id h
      obtain ⟨j, m, hj⟩ := hF
      exact ih ⟨as' ++ [a], (exec_snoc e').trans ha⟩ ⟨j, m, (step_moved h.once.fr ha).stay j i m hj⟩ e

/-- A process that was sent an error never does anything again, whatever happens: it stays marked as running, takes no
message any more, does not call its function, is not closed, nor are the processes after it, and these get neither the error
nor anything else from it. This is against C46. -/
theorem c46_wedged (W : G.Wf) (T : G.Tight) (h : Reachable G s) {i : Nat} (hF : Failed s i) {as : List Act}
    (e : exec G s as = some s') :
    s'.running i = true ∧ s'.final i = false ∧ s'.pops i = s.pops i ∧ s'.calls i = s.calls i ∧ s'.outs i = s.outs i ∧
      (∀ k, ∃ l, s'.q i k = s.q i k ++ l) ∧
      ∀ d k, (d, k) ∈ G.down i → s'.inp d k = s.inp d k ∧ s'.closeQ d = false ∧ s'.final d = false := by
  have alone : ∀ {s : St}, Reachable G s → Failed s i → ∀ j, (s.pc j).of = some i → ∃ m, s.pc j = .dead i m := by
    rintro s h ⟨j, m, hj⟩ j' hj'
    have I := h.inv W T
    have h1 := (I.mn i j).1 (by rw [hj]; rfl)
    have h2 := (I.mn i j').1 hj'
    rw [h1] at h2
    cases h2
    exact ⟨m, hj⟩
  have now : ∀ {s : St}, Reachable G s → Failed s i →
      s.running i = true ∧ s.final i = false ∧ (∃ m, s.pops i = s.calls i ++ [m]) ∧
      ∀ d k, (d, k) ∈ G.down i → s.inp d k = s.outs i ∧ s.closeQ d = false ∧ s.final d = false := by
    rintro s h ⟨j, m, hj⟩
    have I := h.inv W T
    have hm := (I.mn i j).1 (by rw [hj]; rfl)
    have hf : s.final i = false := by
      cases hf : s.final i with
      | false => rfl
      | true =>
        rcases (I.fi i hf).2.2.2 with h1 | h1
        · rw [pcm_some hm, hj] at h1; cases h1
        · rw [h1.1] at hm; cases hm
    refine ⟨?_, hf, ⟨m, by rw [I.ca i, pcm_some hm, hj]; rfl⟩, ?_⟩
    · cases hr : s.running i with
      | true => rfl
      | false => have := (I.rn i hr).1; rw [hm] at this; cases this
    · intro d k hd
      obtain ⟨hu, hk⟩ := (W.edges i d k).1 hd
      have h1 := I.fl i d k hu hk
      rw [pcm_some hm, hj] at h1
      have h2 : s.down i = G.down i := by
        rcases I.dn i with h2 | h2
        · exact h2.1
        · rw [h2.2.1] at hf; cases hf
      refine ⟨by simpa [Pc.fresh, Pc.unsent] using h1.symm, ?_⟩
      refine c45_open_while_sender W T h fun h3 => ?_
      have := (I.so i d k).2 (.inl (h2 ▸ hd))
      rw [h3] at this
      cases this
  have hco : s'.calls i = s.calls i ∧ s'.outs i = s.outs i ∧ s'.pops i = s.pops i ∧ (∀ k, ∃ l, s'.inp i k = s.inp i k ++ l) := by
    induction as generalizing s with
    | nil => cases e; exact ⟨rfl, rfl, rfl, fun k => ⟨[], by simp⟩⟩
    | cons a as ih =>
      simp only [Channel.exec] at e
      cases ha : step G s a with
      | none => simp [ha] at e
      | some s1 =>
        rw [ha] at e
        have e1 : exec G s [a] = some s1 := by simp [exec, ha]
        obtain ⟨h1, hF1⟩ := hF.exec h e1
        obtain ⟨ic, io, ip, ii⟩ := ih h1 hF1 e
        have M := step_moved h.once.fr ha
        have hc : s1.calls i = s.calls i := by
          rcases M.calls i with hc | ⟨j, m, hc, -⟩
          · exact hc
          · obtain ⟨m', hm⟩ := alone h hF j (by rw [hc]; rfl)
            rw [hc] at hm; cases hm
        have ho : s1.outs i = s.outs i := by
          rcases M.outs i with ho | ⟨j, ho⟩
          · exact ho
          · obtain ⟨m', hm⟩ := alone h hF j (by rw [ho]; rfl)
            rw [ho] at hm; cases hm
        have hp : s1.pops i = s.pops i := by
          obtain ⟨j, m, hj⟩ := hF
          have hj1 := M.stay j i m hj
          have I := h.inv W T
          have I1 := h1.inv W T
          have hm := (I.mn i j).1 (by rw [hj]; rfl)
          have hm1 := (I1.mn i j).1 (by rw [hj1]; rfl)
          rw [I.ca i, I1.ca i, pcm_some hm, pcm_some hm1, hj, hj1, hc]
        refine ⟨ic.trans hc, io.trans ho, ip.trans hp, fun k => ?_⟩
        obtain ⟨l, hl⟩ := ii k
        obtain ⟨l', hl'⟩ := M.inp i k
        exact ⟨l' ++ l, by rw [hl, hl', List.append_assoc]⟩
  obtain ⟨h', hF'⟩ := hF.exec h e
  obtain ⟨r, f, -, d⟩ := now h' hF'
  obtain ⟨-, -, -, d0⟩ := now h hF
  refine ⟨r, f, hco.2.2.1, hco.1, hco.2.1, fun k => ?_, fun x k hx => ?_⟩
  · obtain ⟨l, hl⟩ := hco.2.2.2 k
    refine ⟨l, ?_⟩
    rw [(h'.hist W).inp i k, (h.hist W).inp i k, hco.2.2.1, List.append_assoc] at hl
    exact List.append_cancel_left hl
  · exact ⟨by rw [(d x k hx).1, (d0 x k hx).1, hco.2.1], (d x k hx).2⟩

/-- The first of two messages makes the function of process 0 throw, and process 1 gets stuck. -/
example : ∃ s, Reachable (pipe 1) s ∧ Failed s 1 ∧ s.q 1 0 = [] ∧ s.q 0 0 = [.val 11] := by
  obtain ⟨s, h, hp⟩ := witness (G := pipe 1)
    (as := ready2 ++ [.send 0 0 (.val 10), .send 0 0 (.val 11)] ++ go 2 3 ++ [.ret 2 .err] ++ go 2 8 ++ go 3 4)
    (fun s => s.pc 3 = .dead 1 [(0, .err)] ∧ s.q 1 0 = [] ∧ s.q 0 0 = [.val 11]) (by decide)
  have hp := of_decide_eq_true hp
  exact ⟨s, h, ⟨3, _, hp.1⟩, hp.2⟩

end Verif.Channel
