import Verif.Channel.Source

/-!
# Sources that do not delay their results: invariants for all buffer sizes
-/

namespace Verif.Source

open Verif.Channel (Msg sumTo sumTo_congr sumTo_le sumTo_change sumTo_change_le upd freeBuffer usub sizeMax)
open Verif.Process (sumTo_zero sumTo_one sumTo_eq_zero)

variable {σ : Type} {P : Src σ} {n : Nat} {buf : Nat → Nat} {s s' : St σ}

/-- The source never asks for a delay. -/
def Prompt (P : Src σ) : Prop := ∀ x, P.state x ≠ .later

/-- The thread has locked `_timeout_function_control`. -/
def Pc.holds : Pc → Bool
  | .decide | .inYield false | .free false .. | .send false .. | .own1 false | .own2 false _ | .unlock => true
  | _ => false

/-- The thread is in the task of a timer. -/
def Pc.timed : Pc → Bool
  | .later | .inYield true | .free true .. | .send true .. | .own1 true | .own2 true _ => true
  | _ => false

/-- The result that receiver `k` is going to get. -/
def Pc.pend (k : Nat) : Pc → List Msg
  | .free _ r _ _ => [r]
  | .send _ r k' => if k' ≤ k then [r] else []
  | _ => []

/-- Receiver `k` is going to get a result that has been counted. -/
def Pc.due (k : Nat) : Pc → Bool
  | .send _ _ k' => k' ≤ k
  | _ => false

/-- The own call of `clear_to_send` is still to come. -/
def Pc.own : Pc → Nat
  | .send .. | .own1 _ | .own2 .. => 1
  | _ => 0

/-- The thread goes on with the source. -/
def Pc.tok : Pc → Bool
  | .none | .unlock => false
  | _ => true

/-- Receivers have nothing to do. -/
structure Still (s : St σ) : Prop where
  rn : s.running = false
  su : s.susp = 0
  dq : ∀ k, s.dq k = []
  cr : ∀ k, s.cr k = 0
  cy : ∀ k, s.cy k = 0
  ca : ∀ k, s.ca k = 0

/-- What holds for all sources and all buffer sizes. -/
structure Base (s : St σ) : Prop where
  fr : ∀ j, s.next ≤ j → s.pc j = .none
  lk : ∀ j, (s.pc j).holds = true ↔ s.lock = some j
  q0 : s.ready = false → ∀ j, s.pc j = .none
  q1 : ∀ i j, s.pc i = .ready2 → s.pc j ≠ .none → i = j
  q2 : s.ready = false → Still s
  q3 : ∀ j, s.pc j = .ready2 → Still s

theorem upd_apply {α : Type} (f : Nat → α) (k : Nat) (x : α) (i : Nat) : upd f k x i = if i = k then x else f i := rfl

theorem init_base (P : Src σ) : Base (init P) := by
  constructor <;> simp [init, Pc.holds]
  constructor <;> simp [init]

structure Quick (P : Src σ) (n : Nat) (s : St σ) : Prop where
  b : Base s
  nt : ∀ j, (s.pc j).timed = false
  iy : ∀ j, s.pc j = .inYield false → (P.state s.x).isYield = true
  oa : ∀ j, s.pc j = .own2 false false → (P.state s.x).isYield = false
  ca : ∀ k, s.ca k ≠ 0 → (P.state s.x).isYield = false
  r1 : ∀ j k, k < n → (s.pc j).holds = true → s.sent k ++ (s.pc j).pend k = s.outs
  r2 : s.lock = none → ∀ k, k < n → s.sent k = s.outs
  bz : s.ready = true → (P.state s.x).isYield = true → (∃ j, (s.pc j).tok = true) ∨ 0 < s.susp

theorem init_quick (P : Src σ) (n : Nat) : Quick P n (init P) :=
  ⟨init_base P, by simp [init, Pc.timed], by simp [init], by simp [init], by simp [init], by simp [init, Pc.holds], by simp [init], by simp [init]⟩

attribute [local grind] Pc.holds Pc.timed Pc.pend Pc.tok SState.isYield
attribute [local grind =] upd_apply
attribute [local grind →] Still.rn Still.su
attribute [local grind =>] Still.dq Still.cr Still.cy Still.ca

set_option hygiene false in
macro "base" : tactic => `(tactic| (
  obtain ⟨fr, lk, q0, q1, q2, q3⟩ := h
  refine ⟨?_, ?_, ?_, ?_, ?_, ?_⟩ <;> (try simp only [goto, spawn, back, crit]) <;> first
    | grind
    | (intro h; exact ⟨by grind, by grind, by grind, by grind, by grind, by grind⟩)
    | (intro i h; exact ⟨by grind, by grind, by grind, by grind, by grind, by grind⟩)))

theorem Base.job (h : Base s) {j : Nat} (hs : stepJob P n buf j s = some s') : Base s' := by
  have hj : s.pc j ≠ .none → j < s.next := fun h1 => Nat.lt_of_not_le fun h2 => h1 (h.fr j h2)
  unfold stepJob at hs
  split at hs
  case h_1 => cases hs
  case h_2 hp => cases hs; split <;> base
  case h_3 hp =>
    split at hs <;> cases hs
    base
  case h_4 hp => split at hs <;> cases hs <;> base
  case h_5 hp => cases hs; base
  case h_6 t hp => cases hs; cases t <;> base
  case h_7 t _ _ _ hp => split at hs <;> cases hs <;> cases t <;> base
  case h_8 t _ _ hp => split at hs <;> cases hs <;> cases t <;> base
  case h_9 t hp => cases hs; cases t <;> base
  case h_10 t ps hp =>
    cases hs
    simp only [crit]
    cases t <;> split <;> (try split) <;> base
  case h_11 hp => cases hs; base

theorem Base.fail (h : Base s) {j : Nat} (hs : step P n buf s (.fail j) = some s') : Base s' := by
  have hj : s.pc j ≠ .none → j < s.next := fun h1 => Nat.lt_of_not_le fun h2 => h1 (h.fr j h2)
  unfold step at hs
  simp only at hs
  split at hs <;> cases hs
  base

theorem Base.step (h : Base s) {a : Act} (hs : Source.step P n buf s a = some s') : Base s' := by
  cases a with
  | job j => exact h.job hs
  | fail j => exact h.fail hs
  | ready =>
    simp only [Source.step] at hs
    split at hs <;> cases hs
    base
  | pop k =>
    simp only [Source.step] at hs
    split at hs <;> cases hs
    base
  | ask k =>
    simp only [Source.step] at hs
    split at hs
    · cases hs
    · split at hs <;> cases hs <;> base
  | cts k ps =>
    simp only [Source.step] at hs
    repeat' split at hs
    all_goals cases hs
    all_goals (simp only [crit]; split <;> (try split) <;> base)

set_option hygiene false in
macro "quick" : tactic => `(tactic| (
  have hb' := h.b.step hs0
  obtain ⟨⟨fr, lk, q0, q1, q2, q3⟩, nt, iy, oa, ca, r1, r2, bz⟩ := h
  refine ⟨hb', ?_, ?_, ?_, ?_, ?_, ?_, ?_⟩ <;> (try simp only [goto, spawn, back, crit]) <;> first
    | grind
    | exact fun h1 h2 => .inl ⟨j, by grind⟩
    | exact fun h1 h2 => .inl ⟨s.next, by grind⟩
    | (intro h1 h2; rcases bz (by grind) (by grind) with ⟨w, hw⟩ | hz
       · exact .inl ⟨w, by grind⟩
       · exact .inr (by grind))))

theorem Quick.job (hP : Prompt P) (h : Quick P n s) {j : Nat} (hs0 : Source.step P n buf s (.job j) = some s') :
    Quick P n s' := by
  have hj : s.pc j ≠ .none → j < s.next := fun h1 => Nat.lt_of_not_le fun h2 => h1 (h.b.fr j h2)
  have hs := hs0
  simp only [Source.step] at hs
  unfold stepJob at hs
  split at hs
  case h_1 => cases hs
  case h_2 hp => dsimp only at hs; split at hs <;> cases hs <;> quick
  case h_3 hp => split at hs <;> cases hs; quick
  case h_4 hp =>
    have hl := hP s.x
    split at hs <;> cases hs
    · quick
    · quick
    · contradiction
  case h_5 hp => cases hs; quick
  case h_6 t hp => cases hs; cases t <;> quick
  case h_7 t _ _ _ hp => split at hs <;> cases hs <;> cases t <;> quick
  case h_8 t _ _ hp => split at hs <;> cases hs <;> cases t <;> quick
  case h_9 t hp => cases hs; cases t <;> quick
  case h_10 t ps hp =>
    simp only [crit] at hs
    cases t <;> split at hs <;> (try split at hs) <;> cases hs <;> quick
  case h_11 hp => cases hs; quick

theorem Quick.step (hP : Prompt P) (h : Quick P n s) {a : Act} (hs0 : Source.step P n buf s a = some s') :
    Quick P n s' := by
  have hs := hs0
  cases a with
  | job j => exact h.job hP hs
  | fail j =>
    have hj : s.pc j ≠ .none → j < s.next := fun h1 => Nat.lt_of_not_le fun h2 => h1 (h.b.fr j h2)
    simp only [Source.step] at hs
    split at hs <;> cases hs
    quick
  | ready =>
    have j : Nat := 0
    simp only [Source.step] at hs
    split at hs <;> cases hs
    quick
  | pop k =>
    have j : Nat := 0
    simp only [Source.step] at hs
    split at hs <;> cases hs
    quick
  | ask k =>
    have j : Nat := 0
    simp only [Source.step] at hs
    split at hs
    · cases hs
    · split at hs <;> cases hs <;> quick
  | cts k ps =>
    have j : Nat := 0
    simp only [Source.step, crit] at hs
    repeat' split at hs
    all_goals cases hs
    all_goals quick

theorem Quick.of_reachable (hP : Prompt P) (h : Reachable P n buf s) : Quick P n s := by
  induction h with
  | init => exact init_quick P n
  | step _ hs ih => exact ih.step hP hs

end Verif.Source
