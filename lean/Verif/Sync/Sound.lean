import Mathlib.Logic.Relation
import Verif.Sync.Clock

/-!
# Clocks are happens-before

The models of `Verif.Sync` record what a thread knows in clocks. Here is why this is the happens-before of the memory model
([intro.races]): over any execution, an event of thread `t` is in the clock of thread `u` exactly if there is a path from the event to an operation
of `u`, whose edges are the order of the operations of one thread, and a release of an object (unlock, giving a function to
an executor) before an acquire of it (lock, the executor calling the function).
-/

namespace Verif.Sync

inductive Op where
  /-- an event of thread `t` -/
  | work (t : Nat)
  /-- thread `t` acquires object `o` -/
  | acq (t o : Nat)
  /-- thread `t` releases object `o` -/
  | rel (t o : Nat)
  deriving DecidableEq, Repr

def Op.thread : Op → Nat
  | .work t => t
  | .acq t _ => t
  | .rel t _ => t

theorem Op.thread_work (t : Nat) : (Op.work t).thread = t := rfl
theorem Op.thread_acq (t o : Nat) : (Op.acq t o).thread = t := rfl
theorem Op.thread_rel (t o : Nat) : (Op.rel t o).thread = t := rfl

/-- One edge of happens-before in an execution: of the same thread, or release before acquire. -/
def Edge (ops : Nat → Op) (i j : Nat) : Prop :=
  i < j ∧ ((ops i).thread = (ops j).thread ∨ ∃ t u o, ops i = .rel t o ∧ ops j = .acq u o)

/-- The clocks of the threads and of the objects before operation `k`. -/
def clocks (ops : Nat → Op) : Nat → (Nat → Clock) × (Nat → Clock)
  | 0 => (fun _ _ => 0, fun _ _ => 0)
  | k + 1 =>
    let (vc, oc) := clocks ops k
    match ops k with
    | .work t => (tick vc t, oc)
    | .acq t o => (acquire vc t (oc o), oc)
    | .rel t o => (vc, upd oc o (join (oc o) (vc t)))

/-- The number of events of thread `t` before operation `k`. -/
def events (ops : Nat → Op) (t : Nat) : Nat → Nat
  | 0 => 0
  | k + 1 => events ops t k + if ops k = .work t then 1 else 0

variable {ops : Nat → Op}

theorem events_mono {t : Nat} {i k : Nat} (h : i ≤ k) : events ops t i ≤ events ops t k := by
  induction h with
  | refl => exact Nat.le_refl _
  | step _ ih => exact Nat.le_trans ih (Nat.le_add_right _ _)

/-- A thread knows all of its own events, and no thread or object knows more. -/
theorem clocks_events (k t : Nat) : (clocks ops k).1 t t = events ops t k ∧ (∀ u, (clocks ops k).1 u t ≤ events ops t k) ∧
    ∀ o, (clocks ops k).2 o t ≤ events ops t k := by
  induction k with
  | zero => simp [clocks, events]
  | succ k ih =>
    obtain ⟨h1, h2, h3⟩ := ih
    simp only [clocks, events]
    cases hk : ops k with
    | work v =>
      by_cases e : v = t
      · subst e
        refine ⟨by simp [tick, upd, h1], fun u => ?_, fun o => by simp; have := h3 o; omega⟩
        have := h2 u
        by_cases e' : u = v
        · subst e'; simp [tick, upd]; omega
        · simp [tick, upd, e']; omega
      · have e2 : t ≠ v := fun h => e h.symm
        refine ⟨by simp [tick, upd, e, e2, h1], fun u => ?_, fun o => by simp [e]; have := h3 o; omega⟩
        have := h2 u
        by_cases e' : u = v
        · subst e'; simp [tick, upd, e, e2]; omega
        · simp [tick, upd, e, e']; omega
    | acq v o =>
      have ho := h3 o
      refine ⟨?_, fun u => ?_, fun o => by simpa using h3 o⟩
      · by_cases e' : t = v
        · subst e'; simp [acquire, upd, join, h1]; omega
        · simp [acquire, upd, e', h1]
      · have := h2 u
        by_cases e' : u = v
        · subst e'; simp [acquire, upd, join]; omega
        · simp [acquire, upd, e']; omega
    | rel v o =>
      refine ⟨by simp [h1], fun u => by simpa using h2 u, fun o' => ?_⟩
      have := h3 o'; have := h2 v
      by_cases e' : o' = o
      · subst e'; simp [upd, join]; omega
      · simp [upd, e']; omega

open Relation in
theorem edge_le {i j : Nat} (h : ReflTransGen (Edge ops) i j) : i ≤ j := by
  induction h with
  | refl => exact Nat.le_refl _
  | tail _ h ih => exact Nat.le_trans ih (Nat.le_of_lt h.1)

open Relation in
/-- **The clocks are happens-before**: `i` being an event of thread `t`, thread `u` has it in its clock before operation `k` exactly if the
event happens before (or is) an operation of `u` before `k`; and object `o` exactly if it happens before a release of `o`. -/
theorem clocks_iff {i t : Nat} (hi : ops i = .work t) (k : Nat) :
    (∀ u, events ops t (i + 1) ≤ (clocks ops k).1 u t ↔ ∃ j < k, (ops j).thread = u ∧ ReflTransGen (Edge ops) i j) ∧
    (∀ o, events ops t (i + 1) ≤ (clocks ops k).2 o t ↔ ∃ j < k, (∃ v, ops j = .rel v o) ∧ ReflTransGen (Edge ops) i j) := by
  have hpos : events ops t (i + 1) = events ops t i + 1 := by simp [events, hi]
  induction k with
  | zero => simp [clocks]; omega
  | succ k ih =>
    obtain ⟨h1, h2⟩ := ih
    -- to reach `k` from `i` is to reach its thread, or an object it acquires
    have reach : ReflTransGen (Edge ops) i k ↔ i = k ∨ (∃ j < k, (ops j).thread = (ops k).thread ∧ ReflTransGen (Edge ops) i j) ∨
        ∃ u o, ops k = .acq u o ∧ ∃ j < k, (∃ v, ops j = .rel v o) ∧ ReflTransGen (Edge ops) i j := by
      constructor
      · intro h
        rcases ReflTransGen.cases_tail h with h | ⟨j, h, hlt, e⟩
        · exact .inl h.symm
        · rcases e with e | ⟨v, u, o, e1, e2⟩
          · exact .inr (.inl ⟨j, hlt, e, h⟩)
          · exact .inr (.inr ⟨u, o, e2, j, hlt, ⟨v, e1⟩, h⟩)
      · rintro (rfl | ⟨j, hlt, e, h⟩ | ⟨u, o, e2, j, hlt, ⟨v, e1⟩, h⟩)
        · exact .refl
        · exact h.tail ⟨hlt, .inl e⟩
        · exact h.tail ⟨hlt, .inr ⟨v, u, o, e1, e2⟩⟩
    have last : ∀ P : Nat → Prop, (∃ j < k + 1, P j ∧ ReflTransGen (Edge ops) i j) ↔
        (∃ j < k, P j ∧ ReflTransGen (Edge ops) i j) ∨ (P k ∧ ReflTransGen (Edge ops) i k) := by
      intro P
      constructor
      · rintro ⟨j, hj, h⟩
        rcases Nat.lt_succ_iff_lt_or_eq.1 hj with hj | rfl
        · exact .inl ⟨j, hj, h⟩
        · exact .inr h
      · rintro (⟨j, hj, h⟩ | h)
        · exact ⟨j, by omega, h⟩
        · exact ⟨k, by omega, h⟩
    simp only [clocks]
    cases hk : ops k with
    | work v =>
      refine ⟨fun u => ?_, fun o => ?_⟩
      · rw [last (fun j => (ops j).thread = u), ← h1]
        simp only [hk, reduceCtorEq, false_and, exists_false, or_false] at reach
        by_cases e : u = v
        · subst e
          by_cases et : u = t
          · subst et
            simp only [tick, upd, if_true]
            have hev := (clocks_events (ops := ops) k u).1
            have hsucc : events ops u (k + 1) = events ops u k + 1 := by simp [events, hk]
            rw [hev]
            constructor
            · intro h
              right
              refine ⟨by simp [hk, Op.thread_work, Op.thread_acq, Op.thread_rel], reach.2 ?_⟩
              by_cases e : i = k
              · exact .inl e
              · have hik : i < k := by
                  rcases Nat.lt_or_ge i k with h' | h'
                  · exact h'
                  · have := events_mono (ops := ops) (t := u) (show k + 1 ≤ i by omega); omega
                exact .inr ⟨i, hik, by simp [hi, Op.thread_work, Op.thread_acq, Op.thread_rel], .refl⟩
            · rintro (h | ⟨_, h⟩)
              · omega
              · have := edge_le h
                have := events_mono (ops := ops) (t := u) (show i + 1 ≤ k + 1 by omega)
                omega
          · have et' : t ≠ u := fun h => et h.symm
            simp only [tick, upd, if_true, if_neg et']
            constructor
            · exact .inl
            · rintro (h | ⟨_, h⟩)
              · exact h
              · rcases reach.1 h with rfl | h
                · rw [hi] at hk; cases hk; exact absurd rfl et
                · exact (h1 u).2 (by simpa [Op.thread_work, Op.thread_acq, Op.thread_rel] using h)
        · simp [tick, upd, e, hk, Op.thread_work, Op.thread_acq, Op.thread_rel, fun h => e (Eq.symm h)]
          intro h; exact absurd h.symm e
      · rw [last (fun j => ∃ v, ops j = .rel v o), ← h2]
        simp [hk]
    | acq v o =>
      refine ⟨fun u => ?_, fun o' => ?_⟩
      · rw [last (fun j => (ops j).thread = u), ← h1]
        by_cases e : u = v
        · subst e
          have hik : i ≠ k := by rintro rfl; rw [hi] at hk; cases hk
          rw [reach]
          simp only [hk, Op.thread_work, Op.thread_acq, Op.thread_rel, hik, false_or, Op.acq.injEq, true_and]
          simp only [acquire, upd, if_true, join]
          have hex : (∃ u' o', (u = u' ∧ o = o') ∧ ∃ j < k, (∃ v, ops j = .rel v o') ∧ ReflTransGen (Edge ops) i j) ↔
              ∃ j < k, (∃ v, ops j = .rel v o) ∧ ReflTransGen (Edge ops) i j := by
            constructor
            · rintro ⟨_, _, ⟨rfl, rfl⟩, h⟩; exact h
            · intro h; exact ⟨_, _, ⟨rfl, rfl⟩, h⟩
          rw [hex, ← h1, ← h2]
          omega
        · simp [acquire, upd, e, hk, Op.thread_work, Op.thread_acq, Op.thread_rel]
          intro h; exact absurd h.symm e
      · rw [last (fun j => ∃ v, ops j = .rel v o'), ← h2]
        simp [hk]
    | rel v o =>
      have hik : i ≠ k := by rintro rfl; rw [hi] at hk; cases hk
      simp only [hk, Op.thread_work, Op.thread_acq, Op.thread_rel, hik, false_or, reduceCtorEq, false_and, exists_false, or_false] at reach
      refine ⟨fun u => ?_, fun o' => ?_⟩
      · rw [last (fun j => (ops j).thread = u), ← h1]
        constructor
        · exact .inl
        · rintro (h | ⟨rfl, h⟩)
          · exact h
          · rw [hk]; exact (h1 v).2 (by simpa [Op.thread_work, Op.thread_acq, Op.thread_rel] using reach.1 h)
      · rw [last (fun j => ∃ v, ops j = .rel v o'), ← h2]
        by_cases e : o' = o
        · subst e
          rw [reach, ← h1]
          simp [upd, join, hk]
          omega
        · simp [upd, e, hk]
          intro h; exact absurd h.symm e

/-- Thread 0 does something and gives a function to an executor (object 7), thread 1 calls it. -/
def trace : Nat → Op
  | 0 => .work 0
  | 1 => .rel 0 7
  | 2 => .acq 1 7
  | _ => .work 1

/-- Before it calls it, thread 1 does not know the event, after it does. -/
example : ¬ events trace 0 1 ≤ (clocks trace 2).1 1 0 ∧ events trace 0 1 ≤ (clocks trace 3).1 1 0 := by decide

end Verif.Sync
