import Verif.Channel.Once

/-!
# Two small networks, for the examples and the counterexamples
-/

namespace Verif.Channel

variable {G : Net} {s : St}

/-- `channel(f) | (g & buffer_size{b})` -/
def pipe (b : Nat) : Net where
  strat := fun _ => .dflt
  slots := fun _ => 1
  up := fun d k => if d = 1 ∧ k = 0 then some 0 else none
  down := fun i => if i = 0 then [(1, 0)] else []
  buf := fun i => if i = 1 then b else 1
  recv := fun i => if i < 2 then 1 else 0

/-- A merge (process 2) of two channels (0 and 1) and one more process, with buffer size `b`, after it. -/
def merge (st : Strat) (b : Nat) : Net where
  strat := fun i => if i = 2 then st else .dflt
  slots := fun i => if i = 2 then (if st = .dflt then 1 else 2) else 1
  up := fun d k => if d = 2 ∧ k < 2 then (if st = .dflt ∧ k = 1 then none else some k) else if d = 3 ∧ k = 0 then some 2 else none
  down := fun i => if i = 0 ∨ i = 1 ∧ st ≠ .dflt then [(2, i)] else if i = 2 then [(3, 0)] else []
  buf := fun i => if i = 3 then b else 1
  recv := fun i => if i < 4 then 1 else 0

theorem pipe_wf (b : Nat) : (pipe b).Wf := by
  constructor <;> grind [pipe]

theorem merge_wf (st : Strat) (b : Nat) : (merge st b).Wf := by
  constructor <;> grind [merge]

theorem pipe_tight : (pipe 1).Tight := by
  constructor
  · intro i h
    have : i = 0 := by grind [pipe]
    subst this
    exact ⟨(1, 0), by decide, rfl⟩
  · intro d h
    simp [pipe] at h

theorem merge_tight (st : Strat) : (merge st 1).Tight := by
  constructor
  · intro i h
    have hb : ∀ j, (merge st 1).buf j = 1 := by intro j; simp [merge]
    match hd : (merge st 1).down i, h with
    | e :: es, _ => exact ⟨e, by simp, hb _⟩
  · intro d h
    have hb : ∀ j, (merge st 1).buf j = 1 := by intro j; simp [merge]
    rw [hb]
    decide

/-- No error is sent or thrown. -/
def Plain : Act → Bool
  | .ret _ .err | .send _ _ .err => false
  | _ => true

theorem clean_exec {s s' : St} (h : CleanReachable G s) {as : List Act} (hp : as.all Plain = true) (he : exec G s as = some s') :
    CleanReachable G s' := by
  induction as generalizing s with
  | nil => cases he; exact h
  | cons a as ih =>
    simp only [List.all_cons, Bool.and_eq_true] at hp
    simp only [exec] at he
    cases hs : step G s a with
    | none => rw [hs] at he; cases he
    | some s1 =>
      rw [hs] at he
      refine ih (.step h ?_ hs) hp.2 he
      cases a with
      | ret j r => cases r <;> simp_all [Clean, Plain]
      | send i n m => cases m <;> simp_all [Clean, Plain]
      | _ => trivial

theorem exec_append (s : St) (as bs : List Act) : exec G s (as ++ bs) = (exec G s as).bind fun s' => exec G s' bs := by
  induction as generalizing s with
  | nil => rfl
  | cons a as ih =>
    simp only [List.cons_append, exec]
    cases step G s a with
    | none => rfl
    | some s1 => exact ih s1

/-- A state reached by `as` with the property `P`. -/
theorem clean_witness {as : List Act} (P : St → Bool) (hp : as.all Plain = true) (he : (exec G (init G) as).any P = true) :
    ∃ s, CleanReachable G s ∧ P s = true := by
  cases h : exec G (init G) as with
  | none => rw [h] at he; cases he
  | some s => rw [h] at he; exact ⟨s, clean_exec .init hp h, he⟩

theorem witness {as : List Act} (P : St → Bool) (he : (exec G (init G) as).any P = true) : ∃ s, Reachable G s ∧ P s = true := by
  cases h : exec G (init G) as with
  | none => rw [h] at he; cases he
  | some s => rw [h] at he; exact ⟨s, ⟨as, h⟩, he⟩

theorem run_rcv (i : Nat) (s : St) : (run i s).rcv = s.rcv := rfl
theorem goto_rcv (j : Nat) (p : Pc) (s : St) : (goto j p s).rcv = s.rcv := rfl

theorem enqueue_rcv (i k : Nat) (m : Msg) (s : St) : (enqueue i k m s).rcv = s.rcv := by
  unfold enqueue
  dsimp only
  split <;> rfl

theorem cts_rcv (i : Nat) (c : Credit) (s : St) : (ctsCrit G i c s).rcv = s.rcv := by
  unfold ctsCrit
  dsimp only
  split
  · split <;> rfl
  · rfl

theorem job_rcv {j : Nat} {s s' : St} (h : step G s (.job j) = some s') : s'.rcv = s.rcv := by
  simp only [step, stepJob] at h
  split at h
  all_goals first
    | (cases h; done)
    | (cases h; rfl)
    | (cases h; rw [goto_rcv, enqueue_rcv]; done)
    | (cases h; rw [goto_rcv, cts_rcv]; done)
    | (split at h <;> cases h <;> rfl)
    | (split at h <;> cases h <;> first | rfl | (rw [goto_rcv, cts_rcv]; done))
    | (cases h; unfold popCrit; split <;> rfl)
    | (cases h; unfold taskDone; dsimp only; split <;> split <;> rfl)
    | (cases h; rw [goto_rcv]; split <;> rfl)
    | (dsimp only at h; split at h <;> cases h <;> rfl)

/-- A receiver that is ready does not become other than ready. -/
theorem Reachable.rcv (h : Reachable G s) {i : Nat} (hi : G.recv i = 0) : s.rcv i = 0 := by
  obtain ⟨as, h⟩ := h
  have : (init G).rcv i = 0 := hi
  revert h this
  generalize init G = s0
  intro h this
  induction as generalizing s0 with
  | nil => cases h; exact this
  | cons a as ih =>
    simp only [exec] at h
    cases hs : step G s0 a with
    | none => rw [hs] at h; cases h
    | some s1 =>
      rw [hs] at h
      refine ih s1 h ?_
      cases a with
      | job j => rw [job_rcv hs]; exact this
      | ret j r => simp only [step] at hs; split at hs <;> cases hs; exact this
      | send i n m => simp only [step] at hs; split at hs <;> cases hs; rw [enqueue_rcv]; exact this
      | copySender i n n' => simp only [step] at hs; split at hs <;> cases hs; exact this
      | dropSender i n => simp only [step] at hs; split at hs; · split at hs <;> cases hs <;> exact this
                          · cases hs
      | copyRecv i' => simp only [step] at hs; split at hs <;> cases hs; simp only [upd]; split <;> simp_all
      | dropRecv i' =>
        simp only [step] at hs; split at hs
        · split at hs <;> cases hs <;> simp only [upd] <;> split <;> simp_all
        · cases hs

/-- The thread does nothing: it has not begun a step, or has ended it, also because of an error. -/
def Pc.ended : Pc → Bool
  | .none | .dead .. => true
  | _ => false

/-- Process `i` has taken an error from its queue, and the step that took it has ended. -/
def Failed (s : St) (i : Nat) : Prop := ∃ j m, s.pc j = .dead i m

/-- No thread is doing anything, and every receiver is ready. -/
structure Quiet (s : St) : Prop where
  idle : ∀ j, (s.pc j).ended = true
  ready : ∀ i, s.rcv i = 0

theorem Quiet.no_thread (Q : Quiet s) (hF : ∀ i, ¬Failed s i) (j : Nat) : s.pc j = .none := by
  have h1 := Q.idle j
  cases h : s.pc j <;> rw [h] at h1 <;> try cases h1
  · exact absurd ⟨j, _, h⟩ (hF _)

theorem Reachable.quiet (h : Reachable G s) (N : Nat) (hN : ∀ i, N ≤ i → G.recv i = 0)
    (hq : ((List.range s.next).all fun j => (s.pc j).ended) && (List.range N).all fun i => s.rcv i = 0) : Quiet s := by
  simp only [Bool.and_eq_true, List.all_eq_true, List.mem_range, decide_eq_true_eq] at hq
  constructor
  · intro j
    by_cases hj : j < s.next
    · exact hq.1 j hj
    · rw [h.once.fr j (by omega)]; rfl
  · intro i
    by_cases hi : i < N
    · exact hq.2 i hi
    · exact h.rcv (hN i (by omega))

/-- Thread `j` takes `n` steps. -/
def go (j n : Nat) : List Act := List.replicate n (.job j)

/-- All receivers of `pipe` become ready. -/
def ready2 : List Act := [.dropRecv 1] ++ go 0 1 ++ [.dropRecv 0] ++ go 1 1

/-- All receivers of `merge` become ready. -/
def ready4 : List Act := [.dropRecv 3] ++ go 0 1 ++ [.dropRecv 2] ++ go 1 1 ++ [.dropRecv 1] ++ go 2 1 ++ [.dropRecv 0] ++ go 3 1

end Verif.Channel
