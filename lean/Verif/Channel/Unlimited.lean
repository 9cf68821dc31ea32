import Verif.Channel.AnyProps

/-!
# C69: a buffer size of 0 is no limit
-/

namespace Verif.Channel

variable {G : Net} {s s' : St}

/-- Process `i` never waits for a downstream process. -/
structure Loose (G : Net) (i : Nat) (s : St) : Prop where
  dn : ∀ e ∈ s.down i, e ∈ G.down i
  fr : ∀ j r rest acc, s.pc j = .free i r rest acc → acc = sizeMax ∧ ∀ e ∈ rest, G.buf e.1 = 0
  sp : ∀ j r, s.pc j = .susp i r true → s.down i = []
  ow : ∀ d k, .edge d k ∉ s.owed i

theorem Loose.init {i : Nat} : Loose G i (init G) := by
  constructor <;> simp [Channel.init]

theorem upd_apply {α : Type} (f : Nat → α) (k : Nat) (x : α) (i : Nat) : upd f k x i = if i = k then x else f i := rfl

theorem freeBuffer_zero (n : Nat) : freeBuffer 0 n = sizeMax := rfl

theorem one_lt_sizeMax : ¬ sizeMax ≤ 1 := by decide

/-- A step of another kind. -/
theorem Loose.other {i : Nat} (L : Loose G i s) (hd : s'.down i = s.down i ∨ s'.down i = [])
    (ho : ∀ c ∈ s'.owed i, c ∈ s.owed i)
    (hp : ∀ j, s'.pc j = s.pc j ∨ ((∀ r rest acc, s'.pc j ≠ .free i r rest acc) ∧ ∀ r, s'.pc j ≠ .susp i r true)) :
    Loose G i s' := by
  constructor
  · intro e he
    rcases hd with h | h
    · exact L.dn e (h ▸ he)
    · rw [h] at he; cases he
  · intro j r rest acc h
    rcases hp j with h' | h'
    · exact L.fr j r rest acc (h' ▸ h)
    · exact absurd h (h'.1 _ _ _)
  · intro j r h
    rcases hp j with h' | h'
    · rcases hd with hd | hd
      · rw [hd]; exact L.sp j r (h' ▸ h)
      · exact hd
    · exact absurd h (h'.2 _)
  · intro d k h
    exact L.ow d k (ho _ h)

theorem Loose.enq {i : Nat} (L : Loose G i s) (d k : Nat) (m : Msg) : Loose G i (enqueue d k m s) := by
  simp only [enqueue]
  split
  · exact L.other (.inl rfl) (fun _ h => h) fun j => by
      simp only [run, upd_apply]; split
      · exact .inr ⟨by simp, by simp⟩
      · exact .inl rfl
  · exact L.other (.inl rfl) (fun _ h => h) fun j => .inl rfl

theorem Loose.runs {i : Nat} (L : Loose G i s) (d : Nat) : Loose G i (run d s) :=
  L.other (.inl rfl) (fun _ h => h) fun j => by
    simp only [run, upd_apply]; split
    · exact .inr ⟨by simp, by simp⟩
    · exact .inl rfl

theorem Loose.cts {i : Nat} (L : Loose G i s) (d : Nat) (c : Credit) : Loose G i (ctsCrit G d c s) := by
  have L' : Loose G i { s with susp := upd s.susp d (s.susp d - 1), owed := upd s.owed d ((s.owed d).erase c) } :=
    L.other (.inl rfl) (fun x h => by
      simp only [upd_apply] at h; split at h
      · next e => subst e; exact List.mem_of_mem_erase h
      · exact h) fun j => .inl rfl
  simp only [ctsCrit]
  split
  · split
    · exact L'.runs d
    · exact L'.other (.inl rfl) (fun _ h => h) fun j => .inl rfl
  · exact L'

/-- The thread goes on somewhere else. -/
theorem Loose.to {i j : Nat} {p : Pc} (L : Loose G i s) (h : ∀ r rest acc, p ≠ .free i r rest acc) (h' : ∀ r, p ≠ .susp i r true) :
    Loose G i (goto j p s) :=
  L.other (.inl rfl) (fun _ h => h) fun k => by
    simp only [goto, upd_apply]; split
    · exact .inr ⟨h, h'⟩
    · exact .inl rfl

theorem Loose.done {i : Nat} (L : Loose G i s) (j i' : Nat) : Loose G i (taskDone G j i' s) := by
  have key : ∀ s1 : St, Loose G i s1 → Loose G i (if s1.final i' then
      goto j (.clear ((s1.down i').map fun e => (e.1, .up i' e.2))) { s1 with down := upd s1.down i' [], clr := upd s1.clr i' (some j) }
      else goto j .none s1) := by
    intro s1 L1
    split
    · refine Loose.to (L1.other ?_ (fun _ h => h) fun _ => .inl rfl) (by simp) (by simp)
      simp only [upd_apply]
      split
      · exact .inr rfl
      · exact .inl rfl
    · exact L1.to (by simp) (by simp)
  unfold taskDone
  apply key
  have L2 : ∀ s1 : St, s1.down = s.down → s1.owed = s.owed → s1.pc = s.pc → Loose G i s1 := fun s1 h1 h2 h3 =>
    L.other (.inl (by rw [h1])) (fun _ h => by rw [h2] at h; exact h) fun _ => .inl (by rw [h3])
  split
  · refine Loose.runs ?_ _
    exact L2 _ rfl rfl rfl
  · exact L2 _ rfl rfl rfl

theorem Loose.step {i : Nat} (L : Loose G i s) (hz : ∀ e ∈ G.down i, G.buf e.1 = 0) {a : Act} (e : step G s a = some s') :
    Loose G i s' := by
  cases a with
  | job j =>
    have hf := L.fr j
    have hs := L.sp j
    have L1 : ∀ s1 : St, s1.down = s.down → s1.owed = s.owed → s1.pc = s.pc → Loose G i s1 := fun s1 h1 h2 h3 =>
      L.other (.inl (by rw [h1])) (fun _ h => by rw [h2] at h; exact h) fun _ => .inl (by rw [h3])
    simp only [Channel.step, stepJob] at e
    split at e <;> (try split at e) <;> cases e
    case h_2 => -- pop
      simp only [popCrit]
      split
      · (refine Loose.to (L1 _ rfl rfl rfl) ?_ ?_ <;> simp; done)
      · (refine Loose.to (L1 _ rfl rfl rfl) ?_ ?_ <;> simp; done)
    case h_10.isTrue i' r hp hd => -- bcast
      constructor
      · exact L.dn
      · intro j' r' rest acc h
        simp only [goto, upd_apply] at h
        split at h
        · cases h
        · exact L.fr j' r' rest acc h
      · intro j' r' h
        simp only [goto, upd_apply] at h
        split at h
        · cases h; exact hd
        · exact L.sp j' r' h
      · exact L.ow
    case h_10.isFalse i' r hp hd =>
      constructor
      · exact L.dn
      · intro j' r' rest acc h
        simp only [goto, upd_apply] at h
        split at h
        · cases h; exact ⟨rfl, fun e he => hz e (L.dn e he)⟩
        · exact L.fr j' r' rest acc h
      · intro j' r' h
        simp only [goto, upd_apply] at h
        split at h
        · cases h
        · exact L.sp j' r' h
      · exact L.ow
    case h_11 i' r acc hp => -- free, at the end
      refine L.other (.inl rfl) (fun _ h => h) fun j' => ?_
      simp only [goto, upd_apply]
      split
      · refine .inr ⟨by simp, fun r' h => ?_⟩
        simp only [Pc.susp.injEq, decide_eq_true_eq] at h
        obtain ⟨rfl, -, h⟩ := h
        rw [(hf _ _ _ hp).1] at h
        exact one_lt_sizeMax h
      · exact .inl rfl
    case h_12 i' r e es acc hp => -- free
      constructor
      · exact L.dn
      · intro j' r' rest acc' h
        simp only [goto, upd_apply] at h
        split at h
        · cases h
          obtain ⟨h1, h2⟩ := hf _ _ _ hp
          refine ⟨?_, fun e he => h2 e (.tail _ he)⟩
          rw [h1, h2 e (.head _), freeBuffer_zero, Nat.min_self]
        · exact L.fr j' r' rest acc' h
      · intro j' r' h
        simp only [goto, upd_apply] at h
        split at h
        · cases h
        · exact L.sp j' r' h
      · exact L.ow
    case h_13.isTrue i' r b hp hb => -- susp
      constructor
      · exact L.dn
      · intro j' r' rest acc' h
        simp only [goto, upd_apply] at h
        split at h
        · cases h
        · exact L.fr j' r' rest acc' h
      · intro j' r' h
        simp only [goto, upd_apply] at h
        split at h
        · cases h
        · exact L.sp j' r' h
      · intro d k h
        simp only [goto, upd_apply] at h
        split at h
        · next e =>
          subst e
          rw [hb] at hp
          simp [hs r hp] at h
        · exact L.ow d k h
    case h_13.isFalse i' r b hp hb =>
      constructor
      · exact L.dn
      · intro j' r' rest acc' h
        simp only [goto, upd_apply] at h
        split at h
        · cases h
        · exact L.fr j' r' rest acc' h
      · intro j' r' h
        simp only [goto, upd_apply] at h
        split at h
        · cases h
        · exact L.sp j' r' h
      · intro d k h
        simp only [goto, upd_apply] at h
        split at h
        · simp at h
        · exact L.ow d k h
    all_goals first
      | (refine Loose.to (L1 _ rfl rfl rfl) ?_ ?_ <;> intros <;> split <;> simp; done)
      | (refine Loose.to (L1 _ rfl rfl rfl) ?_ ?_ <;> simp; done)
      | exact (L.cts _ _).to (by simp) (by simp)
      | exact (L.enq _ _ _).to (by simp) (by simp)
      | exact ((L1 { s with main := _ } rfl rfl rfl).cts _ _).to (by simp) (by simp)
      | skip
    case h_17 => -- own2
      refine Loose.to (Loose.cts ?_ _ _) (by simp) (by simp)
      exact L1 _ rfl rfl rfl
    case h_18 i' hp => -- taskDone
      exact L.done j i'
    case h_21.isTrue => -- close2
      refine Loose.to (Loose.runs ?_ _) (by simp) (by simp)
      exact L1 _ rfl rfl rfl
    case h_22.isTrue => -- ready2
      refine Loose.to (Loose.runs ?_ _) (by simp) (by simp)
      exact L1 _ rfl rfl rfl
  | ret j r =>
    simp only [Channel.step] at e
    split at e <;> cases e
    refine Loose.to (L.other (.inl rfl) (fun _ h => h) fun _ => .inl rfl) ?_ ?_ <;> simp
  | send i' n m =>
    simp only [Channel.step] at e
    split at e <;> cases e
    exact L.enq _ _ _
  | copySender i' n n' =>
    simp only [Channel.step] at e
    split at e <;> cases e
    exact L.other (.inl rfl) (fun _ h => h) fun _ => .inl rfl
  | dropSender i' n =>
    simp only [Channel.step] at e
    split at e
    · split at e <;> cases e
      · exact L.other (.inl rfl) (fun _ h => h) fun j => by
          simp only [upd_apply]; split
          · exact .inr ⟨by simp, by simp⟩
          · exact .inl rfl
      · exact L.other (.inl rfl) (fun _ h => h) fun _ => .inl rfl
    · cases e
  | copyRecv i' =>
    simp only [Channel.step] at e
    split at e <;> cases e
    exact L.other (.inl rfl) (fun _ h => h) fun _ => .inl rfl
  | dropRecv i' =>
    simp only [Channel.step] at e
    split at e
    · split at e <;> cases e
      · exact L.other (.inl rfl) (fun _ h => h) fun j => by
          simp only [upd_apply]; split
          · exact .inr ⟨by simp, by simp⟩
          · exact .inl rfl
      · exact L.other (.inl rfl) (fun _ h => h) fun _ => .inl rfl
    · cases e

theorem Reachable.loose {i : Nat} (h : Reachable G s) (hz : ∀ e ∈ G.down i, G.buf e.1 = 0) : Loose G i s := by
  obtain ⟨as, h⟩ := h
  have L : Loose G i (Channel.init G) := .init
  generalize Channel.init G = s0 at *
  induction as generalizing s0 with
  | nil => simp only [exec, Option.some.injEq] at h; exact h ▸ L
  | cons a as ih =>
    simp only [exec] at h
    cases e : Channel.step G s0 a with
    | none => simp [e] at h
    | some s1 => simp only [e, Option.bind_some] at h; exact ih _ h (L.step hz e)

/-- If all downstream processes have buffer size 0, then a process waits for nothing but the end of its own broadcast,
whatever the downstream processes do, and also when there are errors and while the network is closed. -/
theorem c69_never_waits {i d k : Nat} (h : Reachable G s) (hz : ∀ e ∈ G.down i, G.buf e.1 = 0) : .edge d k ∉ s.owed i :=
  (h.loose hz).ow d k

/-- So if such a process has something to do, one of its own threads is going to do it; no thread of a downstream process
is needed, even if those do not take any message, are not ready, or have got an error. -/
theorem c69_not_blocked_partial (W : G.Wf) (h : Reachable G s) (o : Open s) {i : Nat} (hz : ∀ e ∈ G.down i, G.buf e.1 = 0)
    (hr : s.rcv i = 0) (hF : ¬Failed s i) (hE : isEmpty G s i = false) :
    ∃ j, ((s.pc j).of = some i ∧ (s.pc j).ended = false) ∨ (s.pc j).readies = some i := by
  have alive : ∀ {j}, (s.pc j).of = some i → (s.pc j).ended = false := by
    intro j hj
    cases hp : s.pc j <;> rw [hp] at hj <;> first | rfl | (cases hj; done) | skip
    cases hj
    exact absurd ⟨j, _, hp⟩ hF
  obtain ⟨F, -⟩ := h.flow W o
  cases e : s.running i with
  | false =>
    rcases F.wk i e hr with h' | ⟨j, hj⟩
    · rw [hE] at h'; cases h'
    · exact ⟨j, .inr hj⟩
  | true =>
    rcases F.rn i e with ⟨j, hj⟩ | h2
    · exact ⟨j, .inl ⟨hj, alive hj⟩⟩
    · cases ho : s.owed i with
      | nil => have := F.sl i; rw [ho] at this; simp at this; omega
      | cons c cs =>
        cases c with
        | own =>
          obtain ⟨j, hj, -⟩ := F.own i (ho ▸ .head _)
          exact ⟨j, .inl ⟨hj, alive hj⟩⟩
        | edge d k => exact absurd (ho ▸ .head _) (c69_never_waits h hz : .edge d k ∉ s.owed i)

/-- **Not** after an error: process 0, whose only downstream process has buffer size 0, is ready and has a message, and nothing is going to
handle it, as an error was sent before (C46). -/
theorem c69_error_counterexample : ∃ s, Reachable (pipe 0) s ∧ Quiet s ∧ s.final 0 = false ∧ s.sown 0 ≠ [] ∧ s.q 0 0 = [.val 11] ∧ s.calls 0 = [] := by
  obtain ⟨s, h, hp⟩ := witness (G := pipe 0) (as := ready2 ++ [.send 0 0 .err, .send 0 0 (.val 11)] ++ go 2 2)
    (fun s => (((List.range s.next).all fun j => (s.pc j).ended) && (List.range 2).all fun i => s.rcv i = 0) = true ∧
      s.final 0 = false ∧ s.sown 0 ≠ [] ∧ s.q 0 0 = [.val 11] ∧ s.calls 0 = []) (by decide)
  have hp := of_decide_eq_true hp
  exact ⟨s, h, h.quiet 2 (fun i hi => if_neg (by omega)) hp.1, hp.2⟩

/-- Process 1 is not ready, has buffer size 0, and process 0 handles three messages. -/
def run69 : List Act := [.dropRecv 0] ++ go 0 1 ++ [.send 0 0 (.val 10), .send 0 0 (.val 11), .send 0 0 (.val 12)] ++
  go 1 3 ++ [.ret 1 (.val 20)] ++ go 1 8 ++ go 2 3 ++ [.ret 2 (.val 21)] ++ go 2 8 ++ go 3 3 ++ [.ret 3 (.val 22)] ++ go 3 6

example : ∃ s, CleanReachable (pipe 0) s ∧ s.rcv 1 = 1 ∧ s.q 1 0 = [.val 20, .val 21, .val 22] ∧ s.q 0 0 = [] := by
  obtain ⟨s, h, hp⟩ := clean_witness (G := pipe 0) (as := run69)
    (fun s => s.rcv 1 = 1 ∧ s.q 1 0 = [.val 20, .val 21, .val 22] ∧ s.q 0 0 = []) (by decide) (by decide)
  exact ⟨s, h, by simpa using hp⟩

/-- A state between: the second message is to be handled, the network is open, and process 1 is not ready. -/
example : ∃ s, CleanReachable (pipe 0) s ∧ Open s ∧ s.rcv 0 = 0 ∧ isEmpty (pipe 0) s 0 = false ∧ s.rcv 1 = 1 := by
  have hp : (run69.take 13).all Plain = true := by decide
  cases h : exec (pipe 0) (init (pipe 0)) (run69.take 13) with
  | none =>
    have : (exec (pipe 0) (init (pipe 0)) (run69.take 13)).isSome = true := by decide
    rw [h] at this; cases this
  | some s =>
    have hs : (exec (pipe 0) (init (pipe 0)) (run69.take 13)).any (fun s => s.rcv 0 = 0 ∧ isEmpty (pipe 0) s 0 = false ∧
      s.rcv 1 = 1) = true := by decide
    rw [h] at hs
    exact ⟨s, clean_exec .init hp h, exec_open (pipe_wf 0) .init (pipe_open 0) hp (by decide) h, of_decide_eq_true hs⟩

/-- With buffer size 1 process 0 handles one message only then, and nothing goes on. -/
example : ∃ s, CleanReachable (pipe 1) s ∧ s.rcv 0 = 0 ∧ s.q 0 0 = [.val 11] ∧ ∀ j, s.pc j = .none := by
  obtain ⟨s, h, hp⟩ := clean_witness (G := pipe 1)
    (as := [.dropRecv 0] ++ go 0 1 ++ [.send 0 0 (.val 10), .send 0 0 (.val 11)] ++ go 1 3 ++ [.ret 1 (.val 20)] ++ go 1 8)
    (fun s => s.rcv 0 = 0 ∧ s.q 0 0 = [.val 11] ∧ (List.range s.next).all fun j => s.pc j = .none) (by decide) (by decide)
  have hp := of_decide_eq_true hp
  simp only [List.all_eq_true, List.mem_range, decide_eq_true_eq] at hp
  refine ⟨s, h, hp.1, hp.2.1, fun j => ?_⟩
  by_cases hj : j < s.next
  · exact hp.2.2 j hj
  · exact h.reachable.once.fr j (by omega)

end Verif.Channel
