import Verif.Future.Refuse

/-!
# C96: executors that do not take a continuation
-/

namespace Verif.Refuse

open Verif.Shared

/-- Whatever executors throw or destroy, the future behaves as one whose executors do not (so C30, C31, C33 and C34
hold), nothing is undefined, and a program is terminated only for a continuation that was attached, the future being
resolved, by the call that resolves it. -/
theorem c96_safe_partial {s : RSt} (h : Reachable s) :
    Shared.Reachable s.st ∧ (∀ a, step s a ≠ .ub) ∧
    ∀ a, step s a = .terminate → ∃ p k ks, a = .throwResolve p ∧ s.st.rs p = .drain (k :: ks) ∧
      .attached k ∈ s.st.trace ∧ .scheduled k ∉ s.st.trace ∧ ∃ o, .resolved o ∈ s.st.trace := by
  have I := h.inv
  refine ⟨I.sh, fun a ha => ?_, fun a ha => ?_⟩
  · cases a <;> simp only [step] at ha
    · split at ha
      · cases ha
      · split at ha
        · cases ha
        · rename_i h1; exact c30_no_undefined I.sh _ h1
        · cases ha
    · split at ha <;> cases ha
    · split at ha
      · split at ha <;> cases ha
      · cases ha
    · split at ha <;> cases ha
  · cases a <;> simp only [step] at ha
    · split at ha
      · cases ha
      · split at ha <;> cases ha
    · split at ha <;> cases ha
    · rename_i p
      split at ha
      · rename_i k ks hk
        split at ha
        · cases ha
        · rename_i hd
          have hd' : s.st.isDet k = false := by simpa using hd
          have J := I.sh.inv
          have hr := J.drn p _ hk
          have hi := hr.2.2 k (by simp)
          refine ⟨p, k, ks, rfl, hk, (J.att k).2 ⟨by simp [hi], hd'⟩, fun hs => ?_, J.out hr.1⟩
          have := ((J.sch k).1 hs).1
          rw [hi] at this; exact this
      · cases ha
    · split at ha <;> cases ha

/-- After the exception has left `recover`, or the task has been destroyed, its function is never called. -/
theorem c96_never_called {s s1 t : RSt} (h : Reachable s) {k : Nat} {a : RAct} (ha : a = .throwDirect k ∨ a = .discard k)
    (e : step s a = .ok s1) {as : List RAct} (e' : exec s1 as = some t) :
    (∀ x, .ran k x ∉ t.st.trace) ∧ ∀ f, .gave k f ∉ t.st.trace := by
  have I1 := h.inv.step e
  have hc : s1.st.canceled k = true := by
    rcases ha with ha | ha <;> subst ha <;> simp only [step] at e <;> split at e <;> cases e <;> simp [release, upd]
  have keep : ∀ {s t : St} {a : Act}, Shared.step s a = .ok t → s.canceled k = true → t.canceled k = true := by
    intro s t a e hc
    cases a <;> simp only [Shared.step, startRes] at e <;> (repeat' split at e) <;> (try (cases e)) <;> grind [upd]
  have hc' : t.st.canceled k = true := by
    clear I1 e
    induction as generalizing s1 with
    | nil => cases e'; exact hc
    | cons b bs ih =>
      simp only [exec] at e'
      split at e'
      · rename_i s2 h2
        refine ih e' ?_
        cases b <;> simp only [step] at h2
        · split at h2
          · cases h2
          · split at h2 <;> cases h2
            exact keep (by assumption) hc
        · split at h2 <;> cases h2
          simp only [release, upd]; split <;> simp_all
        · split at h2
          · split at h2 <;> cases h2
          · cases h2
        · split at h2 <;> cases h2
          simp only [release, upd]; split <;> simp_all
      · cases e'
  exact (I1.exec e').sh.inv.canr k hc'

/-- The throw, and the destruction of a task, leave the outcome, the other continuations, all future objects and all
resolving calls as they are; only the share of the future that continuation `k` had is given up. -/
theorem c96_others_kept {s s1 : RSt} {k : Nat} {a : RAct} (ha : a = .throwDirect k ∨ a = .discard k)
    (e : step s a = .ok s1) :
    s1.st.ready = s.st.ready ∧ s1.st.res = s.st.res ∧ s1.st.exc = s.st.exc ∧ s1.st.moved = s.st.moved ∧
    s1.st.thens = s.st.thens ∧ s1.st.fut = s.st.fut ∧ s1.st.handle = s.st.handle ∧ s1.st.rs = s.st.rs ∧
    s1.st.trace = s.st.trace ∧ (∀ x, x ≠ .cont k → (x ∈ s1.st.hold ↔ x ∈ s.st.hold)) ∧
    ∀ j, j ≠ k → s1.st.cpc j = s.st.cpc j ∧ s1.st.canceled j = s.st.canceled j ∧ s1.threw j = s.threw j := by
  rcases ha with ha | ha <;> subst ha <;> simp only [step] at e <;> split at e <;> cases e <;>
    refine ⟨rfl, rfl, rfl, rfl, rfl, rfl, rfl, rfl, rfl, fun x hx => ?_, fun j hj => ?_⟩ <;>
    simp [release, upd, List.mem_erase_of_ne, *]

/-- Every other continuation of a resolved future still gets to its executor: there is a step of some thread that
brings it closer. -/
theorem c96_others_run {s : RSt} (h : Reachable s) (hy : s.st.ready = true) (k : Nat) (ha : .attached k ∈ s.st.trace)
    (hs : .scheduled k ∉ s.st.trace) (ht : s.threw k = false) :
    ∃ n, Dist s.st k n ∧ ∃ a s', step s (.act a) = .ok s' ∧
      (.scheduled k ∈ s'.st.trace ∨ ∃ m, Dist s'.st k m ∧ m < n) := by
  obtain ⟨n, hn, a, t, ha', e, hp⟩ := c31_progress h.inv.sh hy k ha hs
  refine ⟨n, hn, a, { s with st := t }, ?_, hp⟩
  have : left s a = false := by
    rcases ha' with rfl | rfl | ⟨_, rfl⟩ <;> simp [left, ht]
  simp [step, this, e]

/-- A call of `then` or `recover` on an lvalue that is left by the exception has no effect: as before, but for the
continuation that never was. -/
theorem c96_lvalue_no_effect {s s' : RSt} (h : Reachable s) (hy : s.st.ready = true) {f k : Nat}
    (e : exec s [.act (.attach f k false), .act (.cLock k), .throwDirect k] = some s') :
    s'.st = { s.st with cpc := upd s.st.cpc k .direct, canceled := upd s.st.canceled k true,
                        trace := s.st.trace ++ [.attached k] } := by
  have J := h.inv.sh.inv
  simp only [exec, step, left, Shared.step] at e
  split at e
  · rename_i s1 h1
    split at h1
    · cases h1
    · split at h1 <;> cases h1
      rename_i t ht
      split at ht
      · rename_i hf hk
        have hth : s.threw k = false := by
          cases hc : s.threw k
          · rfl
          · have := (h.inv.th k hc).1; rw [hk] at this; cases this
        simp at ht; subst ht
        simp [upd, hy, hth] at e
        subst e
        simp only [release, List.erase_cons_head]
        congr 1
        · exact hy.symm
        · funext i; simp only [upd]; split <;> rfl
      · cases ht
  · cases e

/-- Called on an rvalue, it takes the future along: its value is lost. -/
theorem c96_rvalue_counterexample :
    ∃ as s s', exec {} as = some s ∧ s.st.res = some 5 ∧ s.st.fut 0 = .held ∧
      exec s [.act (.attach 0 0 true), .act (.cLock 0), .throwDirect 0] = some s' ∧ s'.st.hold = [] := by
  refine ⟨[.act (.invoke 0 1), .act (.setVal 1 5), .act (.rWrite 1), .act (.rLock 1), .act (.rEnd 1), .act (.invEnd 0)],
    _, _, rfl, rfl, rfl, rfl, rfl⟩

/-- If the executor throws when the future is resolved, the program is terminated. No other continuation that has
not been given to its executor yet is. -/
theorem c96_resolve_counterexample {s : RSt} {h k : Nat} {ks : List Nat} (hd : s.st.rs h = .drain (k :: ks))
    (hk : s.st.isDet k = false) : step s (.throwResolve h) = .terminate := by
  simp [step, hd, hk]

/-- That is so of a future with two continuations of which only the first has an executor that throws. -/
theorem c96_resolve_two_counterexample :
    ∃ as s, exec {} as = some s ∧ s.st.rs 1 = .drain [0, 1] ∧ .attached 0 ∈ s.st.trace ∧ .attached 1 ∈ s.st.trace ∧
      step s (.throwResolve 1) = .terminate := by
  refine ⟨[.act (.attach 0 0 false), .act (.cLock 0), .act (.attach 0 1 false), .act (.cLock 1), .act (.invoke 0 1),
    .act (.setVal 1 5), .act (.rWrite 1), .act (.rLock 1)], _, rfl, rfl, by decide, by decide, rfl⟩

/-- A throw, then another continuation that runs and gets the value. -/
example : ∃ s, exec {} [.act (.invoke 0 1), .act (.setVal 1 5), .act (.rWrite 1), .act (.rLock 1), .act (.rEnd 1),
    .act (.invEnd 0), .act (.attach 0 0 false), .act (.cLock 0), .throwDirect 0, .act (.attach 0 1 false),
    .act (.cLock 1), .act (.cDirect 1), .act (.run 1), .act (.cCheck 1), .act (.cRead 1)] = some s ∧
    s.st.trace = [.invoked, .resolved (.val 5), .attached 0, .attached 1, .scheduled 1, .ran 1 (.out (.val 5))] :=
  ⟨_, rfl, rfl⟩

/-- A continuation that is destroyed by its executor, while another is about to be scheduled. -/
example : ∃ s, exec {} [.act (.attach 0 0 false), .act (.cLock 0), .act (.attach 0 1 false), .act (.cLock 1),
    .act (.invoke 0 1), .act (.setVal 1 5), .act (.rWrite 1), .act (.rLock 1), .act (.rSched 1), .discard 0] = some s ∧
    .attached 1 ∈ s.st.trace ∧ .scheduled 1 ∉ s.st.trace ∧ s.threw 1 = false ∧ s.st.ready = true :=
  ⟨_, rfl, by decide, by decide, rfl, rfl⟩

/-- The hypotheses of `c96_lvalue_no_effect`. -/
example : ∃ s s', exec {} [.act (.invoke 0 1), .act (.setVal 1 5), .act (.rWrite 1), .act (.rLock 1), .act (.rEnd 1)] =
    some s ∧ s.st.ready = true ∧
    exec s [.act (.attach 0 0 false), .act (.cLock 0), .throwDirect 0] = some s' ∧ .fut 0 ∈ s'.st.hold :=
  ⟨_, _, rfl, rfl, rfl, by decide⟩

end Verif.Refuse
