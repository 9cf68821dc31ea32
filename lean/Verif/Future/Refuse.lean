import Verif.Future.SharedProps

/-!
# Executors that do not take the continuation they are given (include/stlab/concurrency/future.hpp)

The transition system of `Future/Shared` with executors that may throw, or destroy the task they are given. An
executor is called at two places: by `recover`, for a future that is ready (line 359), and by the call that resolves
the future (lines 395-397, 1646-1647). The first is an ordinary function; the second happens only within functions
that are `noexcept`: `_set_exception` (line 386), `promise::set_value` (line 589), destructors (lines 576, 657).
-/

namespace Verif.Refuse

open Verif.Shared

structure RSt where
  st : St := {}
  /-- continuations whose `recover` has been left by the exception of the executor -/
  threw : Nat → Bool := fun _ => false

inductive RAct where
  | act (a : Act)
  /-- the executor throws when `recover` gives it `k` (line 359): `pro` is destroyed, then `fut`, and with them the
  shared state of `k` and the future it owns -/
  | throwDirect (k : Nat)
  /-- the executor throws when the resolving call through `h` gives it the next continuation (lines 396, 1647) -/
  | throwResolve (h : Nat)
  /-- the executor destroys `k` instead of calling it: the destructor of `packaged_task` (lines 657-662) resolves the
  future of `k` with a broken promise and releases `_f` (lines 624-627), which owns the future `_p` -/
  | discard (k : Nat)
  deriving DecidableEq, Repr

inductive ROut where
  | no
  | ub
  /-- `std::terminate` -/
  | terminate
  | ok (s : RSt)

/-- `k` gives up the future `_p` it owns. -/
def release (s : St) (k : Nat) : St :=
  { s with hold := s.hold.erase (.cont k), canceled := upd s.canceled k true }

/-- Is `a` a step of a call of `recover` that has been left? -/
def left (s : RSt) : Act → Bool
  | .cDirect k => s.threw k
  | _ => false

def step (s : RSt) : RAct → ROut
  | .act a =>
    if left s a then .no else
    match Shared.step s.st a with
    | .no => .no
    | .ub => .ub
    | .ok t => .ok { s with st := t }
  | .throwDirect k =>
    if s.st.cpc k = .direct ∧ s.threw k = false then
      .ok { st := release s.st k, threw := upd s.threw k true }
    else .no
  | .throwResolve h =>
    match s.st.rs h with
    | .drain (k :: _) => if s.st.isDet k then .no else .terminate
    | _ => .no
  | .discard k =>
    if s.st.cpc k = .sched then .ok { s with st := { release s.st k with cpc := upd s.st.cpc k .done } } else .no

def exec (s : RSt) : List RAct → Option RSt
  | [] => some s
  | a :: as => match step s a with
    | .ok s' => exec s' as
    | _ => none

def Reachable (s : RSt) : Prop := ∃ as, exec {} as = some s

/-! ## The histories are those of `Future/Shared` -/

theorem upd_self {α : Type} (f : Nat → α) (k : Nat) (v : α) (h : f k = v) : upd f k v = f := by
  funext i; simp only [upd]; split <;> simp_all

/-- Giving up the future does what the destruction of the last future of `k` does. -/
theorem release_eq {s : St} (I : Inv s) {k : Nat} (h : s.cpc k = .direct ∨ s.cpc k = .sched) :
    s.canceled k = true ∧ release s k = s ∨ Shared.step s (.cancel k) = .ok (release s k) := by
  have hd : s.isDet k = false := by
    cases e : s.isDet k
    · rfl
    · have := I.detpc k e; rcases h with h | h <;> simp [h] at this
  cases hc : s.canceled k
  · right
    rcases h with h | h <;> simp [Shared.step, hd, hc, h, release]
  · refine .inl ⟨rfl, ?_⟩
    have : Holder.cont k ∉ s.hold := fun hm => by
      have := ((I.hcont k).1 hm).2.1; rw [hc] at this; cases this
    simp only [release, List.erase_of_not_mem this, upd_self _ _ _ hc]

theorem exec_append {s t u : St} {as bs : List Act} (e : Shared.exec s as = some t) (e' : Shared.exec t bs = some u) :
    Shared.exec s (as ++ bs) = some u := by
  induction as generalizing s with
  | nil => cases e; exact e'
  | cons a as ih =>
    simp only [List.cons_append, Shared.exec] at e ⊢
    split at e
    · exact ih e
    · cases e

theorem reach_step {s t : St} (h : Shared.Reachable s) {a : Act} (e : Shared.step s a = .ok t) : Shared.Reachable t := by
  obtain ⟨as, h⟩ := h
  exact ⟨as ++ [a], exec_append h (by simp [Shared.exec, e])⟩

theorem reach_release {s : St} (h : Shared.Reachable s) {k : Nat} (hk : s.cpc k = .direct ∨ s.cpc k = .sched) :
    Shared.Reachable (release s k) := by
  rcases release_eq h.inv hk with e | e
  · rw [e.2]; exact h
  · exact reach_step h e

structure RInv (s : RSt) : Prop where
  sh : Shared.Reachable s.st
  th : ∀ k, s.threw k = true → s.st.cpc k = .direct ∧ s.st.canceled k = true

theorem direct_step {s t : St} (I : Inv s) {a : Act} {k : Nat} (h : s.cpc k = .direct) (hc : s.canceled k = true)
    (ha : a ≠ .cDirect k) (e : Shared.step s a = .ok t) : t.cpc k = .direct ∧ t.canceled k = true := by
  have hn : k ∉ s.thens := fun hm => by rw [(I.thn k).1 hm] at h; cases h
  have hd : ∀ h j js, s.rs h = .drain (j :: js) → j ≠ k := fun h' j js hr hj => by
    have := (I.drn h' _ hr).2.2 j (by simp); rw [hj, h] at this; cases this
  cases a <;> simp only [Shared.step, startRes] at e <;>
    (repeat' split at e) <;> (try (cases e)) <;> grind [upd]

theorem RInv.step {s t : RSt} (I : RInv s) {a : RAct} (e : step s a = .ok t) : RInv t := by
  cases a with
  | act a =>
    simp only [Refuse.step] at e
    split at e
    · cases e
    · rename_i hb
      split at e
      · cases e
      · cases e
      rename_i s1 h1
      cases e
      refine ⟨reach_step I.sh h1, fun k hk => ?_⟩
      obtain ⟨h2, h3⟩ := I.th k hk
      refine direct_step I.sh.inv h2 h3 (fun ha => ?_) h1
      subst ha; exact hb (by simpa [left] using hk)
  | throwDirect k =>
    simp only [Refuse.step] at e
    split at e <;> cases e
    rename_i hk
    refine ⟨reach_release I.sh (.inl hk.1), fun j hj => ?_⟩
    by_cases hjk : j = k
    · subst hjk; exact ⟨hk.1, by simp [release, upd]⟩
    · have := I.th j (by simpa [upd, hjk] using hj)
      exact ⟨this.1, by simpa [release, upd, hjk] using this.2⟩
  | throwResolve h => simp only [Refuse.step] at e; split at e <;> (try split at e) <;> cases e
  | discard k =>
    simp only [Refuse.step] at e
    split at e <;> cases e
    rename_i hk
    refine ⟨?_, fun j hj => ?_⟩
    · refine reach_step (reach_release I.sh (.inr hk)) (a := .run k) ?_
      simp [Shared.step, release, hk, upd]
    · have := I.th j hj
      have hjk : j ≠ k := fun h => by subst h; rw [hk] at this; cases this.1
      exact ⟨by simpa [release, upd, hjk] using this.1, by simpa [release, upd, hjk] using this.2⟩

theorem RInv.exec {s t : RSt} (I : RInv s) {as : List RAct} (e : exec s as = some t) : RInv t := by
  induction as generalizing s with
  | nil => cases e; exact I
  | cons a as ih =>
    simp only [Refuse.exec] at e
    split at e
    · rename_i s1 h1; exact ih (I.step h1) e
    · cases e

theorem Reachable.inv {s : RSt} (h : Reachable s) : RInv s := by
  obtain ⟨as, e⟩ := h
  exact RInv.exec ⟨⟨[], rfl⟩, fun k hk => by cases hk⟩ e

end Verif.Refuse
