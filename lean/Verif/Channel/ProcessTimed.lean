import Verif.Channel.ProcessProps

/-!
# What holds for all processes, also those that await with a time-out

The invariants hold for every process object. With a time-out there may be several steps at a time, which lock
`_timeout_function_control` in turn, and the process may be marked as not running during a step.
-/

namespace Verif.Process

open Verif.Channel (Msg sumTo upd)

variable {σ : Type} {P : Proc σ} {n : Nat} {s s' : St σ}

/-- The last sender is gone, and a step has been told so. -/
def Over (s : St σ) : Prop := s.snd = 0 ∧ s.closeQ = false ∧ ∀ j, s.pc j ≠ .close2

/-- Where the owner of the lock is. -/
def hold (s : St σ) : Pc := match s.lock with
  | some j => s.pc j
  | none => .none

/-- Threads, locks and messages. `p` is where the owner of the lock is. -/
structure WideP (s : St σ) (p : Pc) : Prop where
  fr : ∀ j, s.next ≤ j → s.pc j = .none
  lk : ∀ j, (s.pc j).holds = true ↔ s.lock = some j
  hi : s.inp = s.took ++ p.pend ++ s.q
  sn : s.snd ≠ 0 → s.closeQ = false ∧ s.final = false ∧ ∀ j, s.pc j ≠ .close2
  c1 : ∀ j, s.pc j = .close2 → s.closeQ = false ∧ s.final = false ∧ s.snd = 0
  c2 : ∀ j j', s.pc j = .close2 → s.pc j' = .close2 → j = j'
  cq : s.closeQ = true → s.snd = 0 ∧ ∀ j, s.pc j ≠ .close2
  dr : Over s → s.q = []
  fi : s.final = true → Over s
  cl : ∀ j, s.pc j = .clear → Over s
  pr : s.proc = none → Over s
  nq : s.running = false → s.ready = true → (∃ j, s.pc j = .ready2) ∨ (s.q = [] ∧ s.closeQ = false)

def Wide (s : St σ) : Prop := WideP s (hold s)

theorem init_wide (P : Proc σ) : Wide (init P) := by
  rw [Wide]
  constructor <;> simp [init, hold, Pc.holds, Pc.pend, Over]

theorem Wide.owner (h : Wide s) {j : Nat} {p : Pc} (hp : s.pc j = p) (hm : p.holds = true) :
    s.lock = some j ∧ hold s = p := by
  have h1 := (h.lk j).1 (by rw [hp]; exact hm)
  exact ⟨h1, by simp [hold, h1, hp]⟩

set_option hygiene false in
macro "wide" : tactic => `(tactic| (
  obtain ⟨fr, lk, hi, sn, c1, c2, cq, dr, fi, cl, pr, nq⟩ := h
  constructor
  all_goals try ((try simp only [goto, spawn, run, back, upd_apply, Over, hold]) <;> grind [PState.isYield, Pc.holds, Pc.pend, Over, hold])))

/-- A step in which the thread keeps the lock, or does not have it before or after. -/
theorem Wide.move (h : Wide s) {s1 : St σ} {j : Nat} {p p' : Pc} (hp : s.pc j = p) (hh : p'.holds = p.holds)
    (h1 : p ≠ .none ∧ p ≠ .close2 ∧ p ≠ .ready2) (h2 : p' ≠ .close2 ∧ (p' = .clear → s.final = true))
    (e : s1.pc = s.pc ∧ s1.next = s.next ∧ s1.lock = s.lock ∧ s1.snd = s.snd ∧ s1.closeQ = s.closeQ ∧ s1.final = s.final ∧
      s1.running = s.running ∧ s1.ready = s.ready)
    (hx : s1.proc = none → s.proc = none)
    (hq : s1.took ++ p'.pend ++ s1.q = s.took ++ p.pend ++ s.q ∧ s1.inp = s.inp ∧ (s.q = [] → s1.q = []))
    (hh2 : p.holds = false → p'.pend = p.pend ∧ s1.took = s.took ∧ s1.q = s.q) :
    Wide (goto j p' s1) := by
  obtain ⟨e1, e2, e3, e4, e5, e6, e7, e8⟩ := e
  have hj : j < s.next := Nat.lt_of_not_le fun h2 => h1.1 (by rw [← hp]; exact h.fr j h2)
  have hi' : s1.inp = s1.took ++ (hold (goto j p' s1)).pend ++ s1.q := by
    have hi := h.hi
    rw [hq.2.1, hi]
    have hl := h.lk j
    rw [hp] at hl
    by_cases hj : s.lock = some j
    · simp [hold, goto, e3, hj, upd, hp, ← hq.1]
    · have h3 : p.holds = false := by simpa [hj] using hl
      have h4 := hh2 h3
      rw [h4.2.1, h4.2.2]
      have h5 : hold (goto j p' s1) = hold s := by
        rcases hl0 : s.lock with _ | i
        · simp [hold, goto, e3, hl0]
        · have hij : i ≠ j := fun h => hj (by rw [hl0, h])
          simp [hold, goto, e3, hl0, upd, e1, hij]
      rw [h5]
  rw [Wide] at h ⊢
  cases s1
  dsimp only at e1 e2 e3 e4 e5 e6 e7 e8 hx hq hi'
  subst e1 e2 e3 e4 e5 e6 e7 e8
  wide

theorem Wide.start (h : Wide s) {j : Nat} (hp : s.pc j = .start) (hl : s.lock = none) {p : Pc} (hp' : p = .loop) :
    Wide (goto j p { s with lock := some j, active := false }) := by
  subst hp'; rw [Wide] at h ⊢; wide

theorem Wide.timeout (h : Wide s) {j : Nat} (hp : s.pc j = .timeout) (hl : s.lock = none) :
    Wide (goto j .timeout2 { s with lock := some j }) := by
  rw [Wide] at h ⊢; wide

theorem Wide.unlock (h : Wide s) {j : Nat} (hp : s.pc j = .unlock) : Wide (goto j .none { s with lock := none }) := by
  rw [Wide] at h ⊢; wide

theorem Wide.clear (h : Wide s) {j : Nat} (hp : s.pc j = .clear) : Wide (goto j .unlock { s with down := false, proc := (none : Option σ) }) := by
  rw [Wide] at h ⊢; wide

theorem Wide.pop0 (h : Wide s) {j c e : Nat} (hp : s.pc j = .pop) (hl : s.q = []) :
    Wide (goto j (.inClose false) { s with closeQ := false, final := s.closeQ, closes := c, early := e }) := by
  rw [Wide] at h ⊢; wide

theorem Wide.fork (h : Wide s) {s1 : St σ} {p : Pc} (hp : p.holds = false) (h2 : p ≠ .close2 ∧ p ≠ .clear)
    (e : s1.pc = s.pc ∧ s1.next = s.next ∧ s1.lock = s.lock ∧ s1.snd = s.snd ∧ s1.closeQ = s.closeQ ∧ s1.final = s.final ∧
      s1.q = s.q ∧ s1.proc = s.proc ∧ s1.inp = s.inp ∧ s1.took = s.took)
    (hr : s1.running = true ∨ s1.running = s.running ∧ s1.ready = s.ready ∨ p = .ready2 ∨ (s.q = [] ∧ s.closeQ = false)) : Wide (spawn p s1) := by
  obtain ⟨e1, e2, e3, e4, e5, e6, e7, e8, e9, e10⟩ := e
  cases s1
  dsimp only at e1 e2 e3 e4 e5 e6 e7 e8 e9 e10 hr
  subst e1 e2 e3 e4 e5 e6 e7 e8 e9 e10
  rw [Wide] at h ⊢; wide
  intro h3 h4
  rcases hr with hr | hr | hr | hr
  · exact absurd h3 (by simp [Process.spawn, hr])
  · rcases nq (hr.1 ▸ h3) (hr.2 ▸ h4) with ⟨j, h5⟩ | h5
    · refine .inl ⟨j, ?_⟩
      have : j ≠ s.next := by rintro rfl; rw [fr _ (Nat.le_refl _)] at h5; cases h5
      simp [Process.spawn, upd, this, h5]
    · exact .inr h5
  · exact .inl ⟨s.next, by simp [Process.spawn, upd, hr]⟩
  · exact .inr hr

/-- Something changes that has no part in this. -/
theorem Wide.same (h : Wide s) {s1 : St σ}
    (e : s1.pc = s.pc ∧ s1.next = s.next ∧ s1.lock = s.lock ∧ s1.snd = s.snd ∧ s1.closeQ = s.closeQ ∧ s1.final = s.final ∧
      s1.q = s.q ∧ s1.proc = s.proc ∧ s1.inp = s.inp ∧ s1.took = s.took ∧ s1.ready = s.ready)
    (hr : s1.running = true ∨ s1.running = s.running ∨ (s.q = [] ∧ s.closeQ = false)) : Wide s1 := by
  obtain ⟨e1, e2, e3, e4, e5, e6, e7, e8, e9, e10, e11⟩ := e
  cases s1
  dsimp only at e1 e2 e3 e4 e5 e6 e7 e8 e9 e10 e11 hr
  subst e1 e2 e3 e4 e5 e6 e7 e8 e9 e10 e11
  rw [Wide] at h ⊢; wide

theorem Wide.lt (h : Wide s) {j : Nat} {p : Pc} (hp : s.pc j = p) (h1 : p ≠ .none) : j < s.next :=
  Nat.lt_of_not_le fun h2 => h1 (by rw [← hp]; exact h.fr j h2)

theorem spawn_pc_of_lt {s1 : St σ} {j : Nat} {p p' : Pc} (hp : s1.pc j = p) (h : j < s1.next) : (spawn p' s1).pc j = p := by
  have : j ≠ s1.next := by omega
  simp [spawn, upd, this, hp]

theorem Wide.crit (h : Wide s) {x : σ} : Wide (ctsCrit P x s) := by
  simp only [ctsCrit]
  split
  · split
    · have h1 : Wide { s with susp := s.susp - 1 } := h.same (by simp) (by simp)
      exact Wide.same (h1.fork (p := .start) (s1 := { s with susp := s.susp - 1 }) rfl (by simp) (by simp) (by simp)) (by simp [run]) (by simp [run])
    · rename_i hn
      refine h.same (by simp) (.inr (.inr ?_))
      simp only [not_or, Decidable.not_not, Bool.not_eq_true] at hn
      exact hn.2
  · exact h.same (by simp) (by simp)

theorem ctsCrit_pc {x : σ} {j : Nat} {p : Pc} (hp : s.pc j = p) (h : j < s.next) : (ctsCrit P x s).pc j = p := by
  simp only [ctsCrit]
  split
  · split
    · exact spawn_pc_of_lt (s1 := { s with susp := s.susp - 1 }) hp h
    · exact hp
  · exact hp

theorem Wide.close2 (h : Wide s) {j : Nat} (hp : s.pc j = .close2) {r : Bool} (hr : r = (s.ready = true ∧ s.running = false : Bool)) :
    Wide (goto j .none { s with closeQ := true, running := s.running || r }) := by
  have hj := h.lt hp (by simp)
  rw [Wide] at h ⊢; wide

theorem Wide.ready2 (h : Wide s) {j : Nat} (hp : s.pc j = .ready2) {r : Bool} (hr : r = ((s.q ≠ [] ∨ s.closeQ = true) ∧ s.running = false : Bool)) :
    Wide (goto j .none { s with running := s.running || r }) := by
  have hj := h.lt hp (by simp)
  rw [Wide] at h ⊢; wide

theorem Wide.runs (h : Wide s) (hr : s.running = true) : Wide (run s) :=
  Wide.same (h.fork (p := .start) (s1 := s) rfl (by simp) (by simp) (.inl hr)) (by simp [run]) (by simp [run])

theorem Wide.job (h : Wide s) {j : Nat} (hs : stepJob P n j s = .ok s') : Wide s' := by
  unfold stepJob at hs
  split at hs
  case h_1 => cases hs
  case h_2 hp => split at hs <;> cases hs; exact h.start hp ‹_› rfl
  case h_4 hp =>
    split at hs <;> cases hs
    · exact h.pop0 hp ‹_›
    · exact h.move hp rfl (by simp) (by simp) (by simp) (by simp) (by simp [Pc.pend, *]) (by simp [Pc.holds])
  case h_9 hp =>
    have hj := h.lt hp (by simp)
    split at hs
    · cases hs
    · split at hs <;> cases hs
      case h_3 =>
        refine Wide.move (p := .decide) (s := { spawn .later s with main := some s.next }) ?_ (spawn_pc_of_lt hp hj) rfl (by simp) (by simp) (by simp) (by simp) (by simp [Pc.pend]) (by simp [Pc.pend])
        exact (h.fork (p := .later) (s1 := s) rfl (by simp) (by simp) (by simp)).same (by simp) (by simp)
      case h_5 =>
        refine Wide.move (p := .decide) (s := spawn .timeout { s with active := true, main := none }) ?_ (spawn_pc_of_lt hp hj) rfl (by simp) (by simp) (by simp) (by simp) (by simp [Pc.pend]) (by simp [Pc.pend])
        exact h.fork rfl (by simp) (by simp) (by simp)
      all_goals exact h.move hp rfl (by simp) (by simp) (by simp) (by simp) (by simp [Pc.pend]) (by simp [Pc.pend])
  case h_12 b r k hp =>
    split at hs <;> cases hs
    all_goals exact h.move hp rfl (by simp) (by simp) (by simp) (by simp) (by simp [Pc.pend]) (by simp [Pc.pend])
  case h_13 b hp =>
    split at hs <;> cases hs
    · cases b
      all_goals exact h.move hp rfl (by simp) (by simp) (by simp) (by simp) (by simp [Pc.pend]) (by simp [Pc.pend])
    · exact h.move hp rfl (by simp) (by simp) (by simp) (by simp) (by simp [Pc.pend]) (by simp [Pc.pend])
  case h_14 b hp =>
    have hj := h.lt hp (by simp)
    split at hs <;> cases hs
    rename_i x hx
    have h1 : Wide { s with main := none } := h.same (by simp) (by simp)
    have h2 : Wide (ctsCrit P x { s with main := none }) := h1.crit
    have h3 : (ctsCrit P x { s with main := none }).pc j = _ := ctsCrit_pc (s := { s with main := none }) hp hj
    cases b
    all_goals exact h2.move h3 rfl (by simp) (by simp) (by simp) (by simp) (by simp [Pc.pend]) (by simp [Pc.pend])
  case h_16 hp =>
    cases hs
    have hj := h.lt hp (by simp)
    by_cases hc : s.q ≠ [] ∨ s.closeQ = true
    · have h1 : Wide { s with running := true, main := none } := h.same (by simp) (by simp)
      have h2 := h1.runs rfl
      have h3 : (run { s with running := true, main := none }).pc j = _ := spawn_pc_of_lt (s1 := { s with running := true, main := none }) hp hj
      simp only [hc, decide_true, if_true]
      refine h2.move h3 ?_ (by simp) ?_ (by simp) (by simp) ?_ (by simp [Pc.pend, Pc.holds])
      · split <;> rfl
      · split <;> simp [*]
      · split <;> simp [Pc.pend]
    · have hc1 : s.q = [] ∧ s.closeQ = false := by simpa using hc
      simp only [hc, decide_false, Bool.false_eq_true, if_false]
      have h1 : Wide { s with running := false, main := none } := h.same (by simp) (.inr (.inr hc1))
      refine h1.move (s1 := { s with running := false, main := none }) hp ?_ (by simp) ?_ (by simp) (by simp) ?_ (by simp [Pc.pend, Pc.holds])
      · split <;> rfl
      · split <;> simp [*]
      · split <;> simp [Pc.pend]
  case h_17 hp => cases hs; exact h.clear hp
  case h_18 hp => cases hs; exact h.unlock hp
  case h_20 hp => split at hs <;> cases hs; exact h.timeout hp ‹_›
  case h_22 hp =>
    cases hs
    have h1 := h.close2 hp rfl
    split
    · exact h1.runs (by simp [goto, *])
    · exact h1
  case h_23 hp =>
    cases hs
    have h1 := h.ready2 hp rfl
    split
    · exact h1.runs (by simp [goto, *])
    · exact h1
  all_goals
    rename_i hp
    repeat' split at hs
    all_goals try cases hs
  all_goals
    exact h.move hp (by simp [Pc.holds] <;> (try split) <;> rfl) (by simp) (by simp <;> (try split) <;> simp) (by simp) (by simp [*]) (by simp [Pc.pend] <;> (try split) <;> rfl) (by simp [Pc.pend, Pc.holds])

theorem Wide.send (h : Wide s) {m : Msg} (hs : s.snd ≠ 0) {r : Bool} (hr : r = true ∨ s.ready = false ∨ s.running = true) :
    Wide { s with q := s.q ++ [m], inp := s.inp ++ [m], running := s.running || r } := by
  rw [Wide] at h ⊢
  have : hold { s with q := s.q ++ [m], inp := s.inp ++ [m], running := s.running || r } = hold s := rfl
  rw [this]
  wide

theorem Wide.snd (h : Wide s) {m : Nat} (hs : s.snd ≠ 0) (hm : m ≠ 0) : Wide { s with snd := m } := by
  rw [Wide] at h ⊢
  have : hold { s with snd := m } = hold s := rfl
  rw [this]
  wide

theorem Wide.drop (h : Wide s) (hs : s.snd ≠ 0) : Wide (spawn .close2 { s with snd := 0 }) := by
  have hn : ¬ Over (spawn .close2 { s with snd := 0 }) := fun h => h.2.2 s.next (by simp [spawn, upd])
  rw [Wide] at h ⊢; wide
  exact fun h => absurd h hn

theorem Wide.step (h : Wide s) {a : Act} (hs : step P n s a = .ok s') : Wide s' := by
  cases a with
  | job j => exact h.job hs
  | fail j =>
    simp only [Process.step] at hs
    split at hs <;> cases hs
    rename_i hp
    have h1 : Wide (goto j .none s) := h.move hp rfl (by simp) (by simp) (by simp) (by simp) (by simp [Pc.pend]) (by simp [Pc.pend])
    exact Wide.same (h1.fork (p := .start) (s1 := goto j .none s) rfl (by simp) (by simp) (.inr (.inl (by simp)))) (by simp [run]) (by simp [run])
  | send m =>
    simp only [Process.step] at hs
    split at hs <;> cases hs
    rename_i hn
    simp only [enqueue]
    split
    · rename_i hr
      have h1 : Wide { s with q := s.q ++ [m], inp := s.inp ++ [m], running := s.running || true } := h.send hn (.inl rfl)
      simp only [Bool.or_true] at h1
      exact h1.runs rfl
    · rename_i hr
      have h1 : Wide { s with q := s.q ++ [m], inp := s.inp ++ [m], running := s.running || false } := h.send hn (by grind)
      simpa using h1
  | copySender =>
    simp only [Process.step] at hs
    split at hs <;> cases hs
    exact h.snd ‹_› (by omega)
  | dropSender =>
    simp only [Process.step] at hs
    repeat' split at hs
    all_goals cases hs
    · exact h.drop ‹_›
    · exact h.snd ‹_› (by omega)
  | ready =>
    simp only [Process.step] at hs
    split at hs <;> cases hs
    exact h.fork rfl (by simp) (by simp) (by simp)
  | pop k =>
    simp only [Process.step] at hs
    repeat' split at hs
    all_goals cases hs
    all_goals exact h.same (by simp) (by simp)
  | cts k =>
    simp only [Process.step] at hs
    repeat' split at hs
    all_goals cases hs
    · exact h.same (by simp) (by simp)
    · exact h.same (by simp) (by simp)
    · rename_i x hx
      have h1 : Wide { s with cts := upd s.cts k .none } := h.same (by simp) (by simp)
      exact h1.crit

theorem wide (h : Reachable P n s) : Wide s := by
  induction h with
  | init => exact init_wide P
  | step _ hs ih => exact ih.step hs

end Verif.Process
