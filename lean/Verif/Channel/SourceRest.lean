import Verif.Channel.SourceInv

/-!
# Sources that do not delay their results: the suspend count
-/

namespace Verif.Source

open Verif.Channel (Msg sumTo sumTo_congr sumTo_le sumTo_change sumTo_change_le upd freeBuffer usub sizeMax)
open Verif.Process (sumTo_zero sumTo_one sumTo_eq_zero)

variable {σ : Type} {P : Src σ} {n : Nat} {buf : Nat → Nat} {s s' : St σ}

/-- What thread holds `_timeout_function_control`. -/
def hold (s : St σ) : Pc := match s.lock with
  | none => .none
  | some j => s.pc j

/-- Calls of `clear_to_send` to come from receiver `k`. -/
def owed (s : St σ) (p : Pc) (k : Nat) : Nat :=
  (if s.dq k ≠ [] ∨ p.due k = true then 1 else 0) + s.cr k + s.cy k + s.ca k

/-- The count does not exceed the number of calls of `clear_to_send` to come. -/
def Paid (n : Nat) (s : St σ) : Prop := s.susp ≤ (hold s).own + sumTo n (owed s (hold s))

theorem Paid.keep (h : Paid n s) (h1 : s'.susp ≤ s.susp) (h2 : (hold s).own ≤ (hold s').own)
    (h3 : ∀ k, k < n → owed s (hold s) k ≤ owed s' (hold s') k) : Paid n s' := by
  have := sumTo_le h3
  unfold Paid at *
  omega

theorem Paid.own (h : Paid n s) (h1 : s'.susp ≤ s.susp - 1) (h2 : (hold s).own = 1)
    (h3 : ∀ k, k < n → owed s (hold s) k ≤ owed s' (hold s') k) : Paid n s' := by
  have := sumTo_le h3
  unfold Paid at *
  omega

theorem Paid.cts (h : Paid n s) {k : Nat} (h1 : s'.susp ≤ s.susp - 1) (h2 : (hold s).own ≤ (hold s').own)
    (h3 : ∀ i, i ≠ k → owed s (hold s) i = owed s' (hold s') i) (h4 : owed s (hold s) k = owed s' (hold s') k + 1) : Paid n s' := by
  have := sumTo_change_le (n := n) (c := 1) h3 (by omega)
  unfold Paid at *
  omega

theorem Paid.fresh (h1 : s'.susp ≤ n + 1) (h2 : 1 ≤ (hold s').own) (h3 : ∀ k, k < n → 1 ≤ owed s' (hold s') k) : Paid n s' := by
  have := sumTo_le h3
  rw [sumTo_one] at this
  unfold Paid at *
  omega

theorem hold_eq (hb : Base s) {j : Nat} (h : (s.pc j).holds = true) : hold s = s.pc j := by
  have := (hb.lk j).mp h
  simp [hold, this]

theorem hold_other (hb : Base s) {j : Nat} (h : (s.pc j).holds = false) (h1 : s'.lock = s.lock)
    (h2 : ∀ i, i ≠ j → i < s.next → s'.pc i = s.pc i) : hold s' = hold s := by
  simp only [hold, h1]
  cases hl : s.lock with
  | none => rfl
  | some i =>
    have hi := (hb.lk i).mpr hl
    have hne : i ≠ j := by rintro rfl; simp [h] at hi
    have hlt : i < s.next := Nat.lt_of_not_le fun h3 => by simp [hb.fr i h3, Pc.holds] at hi
    exact h2 i hne hlt

section
variable (ps : Bool) (s : St σ)
theorem crit_x : (crit ps s).x = s.x := by simp only [crit, spawn]; repeat' (first | rfl | split)
theorem crit_ready : (crit ps s).ready = s.ready := by simp only [crit, spawn]; repeat' (first | rfl | split)
theorem crit_lock : (crit ps s).lock = s.lock := by simp only [crit, spawn]; repeat' (first | rfl | split)
theorem crit_dq : (crit ps s).dq = s.dq := by simp only [crit, spawn]; repeat' (first | rfl | split)
theorem crit_cr : (crit ps s).cr = s.cr := by simp only [crit, spawn]; repeat' (first | rfl | split)
theorem crit_cy : (crit ps s).cy = s.cy := by simp only [crit, spawn]; repeat' (first | rfl | split)
theorem crit_ca : (crit ps s).ca = s.ca := by simp only [crit, spawn]; repeat' (first | rfl | split)
theorem crit_outs : (crit ps s).outs = s.outs := by simp only [crit, spawn]; repeat' (first | rfl | split)
theorem crit_sent : (crit ps s).sent = s.sent := by simp only [crit, spawn]; repeat' (first | rfl | split)
theorem crit_susp : (crit ps s).susp = s.susp - 1 := by simp only [crit, spawn]; repeat' (first | rfl | split)
theorem crit_pc {i : Nat} (h : i < s.next) : (crit ps s).pc i = s.pc i := by
  simp only [crit, spawn]
  split <;> (try split) <;> simp only [upd] <;> (try rw [if_neg (by omega)])
end

attribute [local grind] Pc.holds Pc.due Pc.own owed
attribute [local grind =] upd_apply

theorem Paid.job (hP : Prompt P) (h : Paid n s) (q : Quick P n s) {j : Nat} (hs : Source.step P n buf s (.job j) = some s') :
    Paid n s' := by
  have hb' := q.b.step hs
  have hb := q.b
  have hj : s.pc j ≠ .none → j < s.next := fun h1 => Nat.lt_of_not_le fun h2 => h1 (hb.fr j h2)
  have hnt := q.nt j
  simp only [Source.step] at hs
  unfold stepJob at hs
  split at hs
  case h_1 => cases hs
  case h_2 hp =>
    dsimp only at hs
    have hh : hold s' = hold s := by
      split at hs <;> cases hs <;>
        exact hold_other hb (j := j) (by simp [hp, Pc.holds]) rfl (by intro i h1 h2; simp only [goto, spawn]; grind)
    split at hs <;> cases hs <;> exact h.keep (Nat.le_refl _) (by rw [hh]; exact Nat.le_refl _) (by rw [hh]; intro k _; exact Nat.le_refl _)
  case h_3 hp =>
    split at hs <;> cases hs
    rename_i hl
    have h1 : hold s = .none := by simp [hold, hl]
    have h2 : hold (goto j .decide { s with lock := some j }) = .decide := by simp [hold, goto, upd]
    exact h.keep (Nat.le_refl _) (by rw [h1, h2]; decide) (by rw [h1, h2]; intro k _; exact Nat.le_refl _)
  case h_4 hp =>
    have h1 := hold_eq hb (j := j) (by simp [hp, Pc.holds])
    have hl := hP s.x
    have hlk := (hb.lk j).mp (by simp [hp, Pc.holds])
    split at hs <;> cases hs
    · have h2 : hold (goto j .unlock s) = .unlock := by simp [hold, goto, upd, hlk]
      exact h.keep (Nat.le_refl _) (by rw [h1, h2, hp]; decide) (by rw [h1, h2, hp]; intro k _; exact Nat.le_refl _)
    · have h2 : hold (goto j (.inYield false) s) = .inYield false := by simp [hold, goto, upd, hlk]
      exact h.keep (Nat.le_refl _) (by rw [h1, h2, hp]; decide) (by rw [h1, h2, hp]; intro k _; exact Nat.le_refl _)
    · contradiction
  case h_5 hp => simp [hp, Pc.timed] at hnt
  case h_6 t hp =>
    cases hs
    cases t with
    | true => simp [hp, Pc.timed] at hnt
    | false =>
      have h1 := hold_eq hb (j := j) (by simp [hp, Pc.holds])
      have hlk := (hb.lk j).mp (by simp [hp, Pc.holds])
      refine h.keep (Nat.le_refl _) (by rw [h1, hp]; simp [Pc.own]) ?_
      rw [h1, hp]
      intro k _
      simp only [hold, goto, hlk, owed, upd, Pc.due, if_true]
      exact Nat.le_refl _
  case h_7 t r k acc hp =>
    cases t with
    | true => simp [hp, Pc.timed] at hnt
    | false =>
      have h1 := hold_eq hb (j := j) (by simp [hp, Pc.holds])
      have hlk := (hb.lk j).mp (by simp [hp, Pc.holds])
      split at hs <;> cases hs
      · refine h.keep (Nat.le_refl _) (by rw [h1, hp]; simp [Pc.own]) ?_
        rw [h1, hp]
        intro k _
        simp only [hold, goto, hlk, owed, upd, Pc.due, if_true]
        exact Nat.le_refl _
      · refine Paid.fresh (by simp only [goto]; split <;> omega) (by simp [hold, goto, hlk, upd, Pc.own]) ?_
        intro k _
        simp only [hold, goto, hlk, owed, upd, Pc.due, if_true]
        simp only [Nat.zero_le, decide_true, or_true, if_true]
        omega
  case h_8 t r k hp =>
    cases t with
    | true => simp [hp, Pc.timed] at hnt
    | false =>
      have h1 := hold_eq hb (j := j) (by simp [hp, Pc.holds])
      have hlk := (hb.lk j).mp (by simp [hp, Pc.holds])
      split at hs <;> cases hs
      · refine h.keep (Nat.le_refl _) (by rw [h1, hp]; simp [hold, goto, hlk, upd, Pc.own]) ?_
        rw [h1, hp]
        intro i _
        simp only [hold, goto, hlk, owed, upd, Pc.due, if_true]
        by_cases hi : i = k
        · subst hi; simp
        · simp only [if_neg hi]; grind
      · refine h.keep (Nat.le_refl _) (by rw [h1, hp]; simp [hold, goto, hlk, upd, Pc.own]) ?_
        rw [h1, hp]
        intro i _
        simp only [hold, goto, hlk, owed, upd, Pc.due, if_true]
        grind
  case h_9 t hp =>
    cases t with
    | true => simp [hp, Pc.timed] at hnt
    | false =>
      have h1 := hold_eq hb (j := j) (by simp [hp, Pc.holds])
      have hlk := (hb.lk j).mp (by simp [hp, Pc.holds])
      cases hs
      refine h.keep (Nat.le_refl _) (by rw [h1, hp]; simp [hold, goto, hlk, upd, Pc.own]) ?_
      rw [h1, hp]
      intro i _
      simp only [hold, goto, hlk, owed, upd, Pc.due, if_true]
      exact Nat.le_refl _
  case h_10 t ps hp =>
    cases t with
    | true => simp [hp, Pc.timed] at hnt
    | false =>
      have h1 := hold_eq hb (j := j) (by simp [hp, Pc.holds])
      have hlk := (hb.lk j).mp (by simp [hp, Pc.holds])
      have hjn := hj (by simp [hp])
      cases hs
      refine h.own (by simp only [back, goto, crit_susp]; exact Nat.le_refl _) (by rw [h1, hp]; rfl) ?_
      rw [h1, hp]
      intro i _
      have h2 : hold (back j false (crit ps s)) = .unlock := by
        simp [hold, back, goto, crit_lock, hlk, upd]
      rw [h2]
      simp only [owed, back, goto, crit_dq, crit_cr, crit_cy, crit_ca]
      exact Nat.le_refl _
  case h_11 hp =>
    have h1 := hold_eq hb (j := j) (by simp [hp, Pc.holds])
    cases hs
    exact h.keep (Nat.le_refl _) (by rw [h1, hp]; simp [Pc.own]) (by rw [h1, hp]; intro k _; exact Nat.le_refl _)

theorem Paid.step (hP : Prompt P) (h : Paid n s) (q : Quick P n s) {a : Act} (hs : Source.step P n buf s a = some s') :
    Paid n s' := by
  have hb := q.b
  cases a with
  | job j => exact h.job hP q hs
  | fail j =>
    simp only [Source.step] at hs
    split at hs <;> cases hs
    rename_i hp
    have hj : j < s.next := Nat.lt_of_not_le fun h2 => by simp [hb.fr j h2] at hp
    have hh : hold (spawn .start (goto j .none s)) = hold s :=
      hold_other hb (j := j) (by simp [hp, Pc.holds]) rfl (by intro i h1 h2; simp only [goto, spawn]; grind)
    exact h.keep (Nat.le_refl _) (by rw [hh]; exact Nat.le_refl _) (by rw [hh]; intro k _; exact Nat.le_refl _)
  | ready =>
    simp only [Source.step] at hs
    split at hs <;> cases hs
    have hh : hold (spawn .ready2 { s with ready := true }) = hold s :=
      hold_other hb (j := s.next) (by simp [hb.fr s.next (Nat.le_refl _), Pc.holds]) rfl (by intro i h1 h2; simp only [spawn]; grind)
    exact h.keep (Nat.le_refl _) (by rw [hh]; exact Nat.le_refl _) (by rw [hh]; intro k _; exact Nat.le_refl _)
  | pop k =>
    simp only [Source.step] at hs
    split at hs <;> cases hs
    rename_i m l hd
    refine h.keep (Nat.le_refl _) (Nat.le_refl _) ?_
    intro i _
    simp only [hold, owed, upd]
    by_cases hi : i = k
    · subst hi
      simp only [hd, if_true]
      cases l with
      | nil => simp; omega
      | cons a l => simp only [ne_eq, reduceCtorEq, not_false_eq_true, true_or, if_true]; omega
    · simp only [hi, if_false]; exact Nat.le_refl _
  | ask k =>
    simp only [Source.step] at hs
    split at hs
    · cases hs
    · split at hs <;> cases hs <;>
      · refine h.keep (Nat.le_refl _) (Nat.le_refl _) ?_
        intro i _
        simp only [hold, owed, upd]
        grind
  | cts k ps =>
    simp only [Source.step] at hs
    have hh : hold s' = hold s := by
      have hn := hb.fr s.next (Nat.le_refl _)
      repeat' split at hs
      all_goals cases hs
      all_goals
        refine hold_other hb (j := s.next) (by simp [hn, Pc.holds]) ?_ ?_
        · simp only [crit_lock]
        · intro i h1 h2; rw [crit_pc]; exact h2
    repeat' split at hs
    all_goals cases hs
    all_goals
      refine h.cts (k := k) ?_ (by rw [hh]; exact Nat.le_refl _) ?_ ?_
      · simp only [crit_susp]; exact Nat.le_refl _
      · intro i hi
        rw [hh]
        simp only [owed, crit_dq, crit_cr, crit_cy, crit_ca, upd, hi, if_false]
      · rw [hh]
        simp only [owed, crit_dq, crit_cr, crit_cy, crit_ca, upd, if_true]
        omega

theorem Paid.of_reachable (hP : Prompt P) (h : Reachable P n buf s) : Paid n s := by
  induction h with
  | init => simp [Paid, init]
  | step h hs ih => exact ih.step hP (Quick.of_reachable hP h) hs

end Verif.Source
