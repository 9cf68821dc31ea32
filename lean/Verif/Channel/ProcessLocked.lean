import Verif.Channel.ProcessRest

/-!
# Processes that do not delay a `yield`

Everything is done by the owner of `_timeout_function_control`, also if the process awaits with a time-out.
-/

namespace Verif.Process

open Verif.Channel (Msg sumTo upd)

variable {σ : Type} {P : Proc σ} {n : Nat} {s s' : St σ}

/-- The process object never delays a `yield`. -/
def Undelayed (P : Proc σ) : Prop := ∀ x, P.state x ≠ .later

/-- The thread has to do with a delayed `yield`. -/
def Pc.isLater : Pc → Bool
  | .later | .inYield .later | .bcast .later _ | .send .later _ _ | .own1 .later | .own2 .later => true
  | _ => false

/-- Where the owner of the lock may be after the process object has been destroyed. -/
def Pc.gone : Pc → Bool
  | .none | .loop | .timeout2 | .unlock | .inactive => true
  | _ => false

/-- `p` is where the owner of the lock is. -/
structure LockedP (P : Proc σ) (n : Nat) (s : St σ) (p : Pc) : Prop where
  nl : ∀ j, (s.pc j).isLater = false
  ou : ∀ k, k < n → s.outs = s.sent k ++ p.unsent k
  px : s.proc = none → p.gone = true
  dw : s.down = false → s.proc = none
  ys : p = .inYield .step → ∃ x, s.proc = some x ∧ (P.state x = .now ∨ P.state x = .expired)
  yt : p = .inYield .timeout → ∃ x, s.proc = some x ∧ (P.state x).isYield = false
  ay : p.waits = true → ∃ x, s.proc = some x ∧ (P.state x).isYield = false

def Locked (P : Proc σ) (n : Nat) (s : St σ) : Prop := LockedP P n s (hold s)

theorem init_locked (P : Proc σ) (n : Nat) : Locked P n (init P) := by
  rw [Locked]
  constructor <;> simp [init, hold, Pc.isLater, Pc.unsent, Pc.waits]

theorem hold_goto {s1 : St σ} {j : Nat} {p : Pc} (h : s1.lock = some j) : hold (goto j p s1) = p := by
  simp [hold, goto, h, upd]

theorem hold_other {s1 : St σ} (h1 : s1.lock = s.lock) (h2 : ∀ i, s.lock = some i → s1.pc i = s.pc i) : hold s1 = hold s := by
  simp only [hold, h1]
  rcases h : s.lock with _ | i
  · rfl
  · exact h2 i h

/-- A step of a thread that is not the owner of the lock, before or after. -/
theorem Locked.other (h : Locked P n s) {s1 : St σ} (h1 : s1.lock = s.lock) (h2 : ∀ i, s.lock = some i → s1.pc i = s.pc i)
    (h3 : ∀ j, (s1.pc j).isLater = false) (h4 : s1.outs = s.outs ∧ s1.sent = s.sent ∧ s1.proc = s.proc ∧ s1.down = s.down) :
    Locked P n s1 := by
  rw [Locked, hold_other h1 h2]
  obtain ⟨e1, e2, e3, e4⟩ := h4
  exact ⟨h3, by rw [e1, e2]; exact h.ou, by rw [e3]; exact h.px, by rw [e3, e4]; exact h.dw, by rw [e3]; exact h.ys,
    by rw [e3]; exact h.yt, by rw [e3]; exact h.ay⟩

theorem isLater_goto {s1 : St σ} {j : Nat} {p : Pc} (h : ∀ i, (s1.pc i).isLater = false) (hp : p.isLater = false) (i : Nat) :
    ((goto j p s1).pc i).isLater = false := by
  simp only [goto, upd_apply]; split
  · exact hp
  · exact h i

theorem isLater_spawn {s1 : St σ} {p : Pc} (h : ∀ i, (s1.pc i).isLater = false) (hp : p.isLater = false) (i : Nat) :
    ((spawn p s1).pc i).isLater = false := by
  simp only [spawn, upd_apply]; split
  · exact hp
  · exact h i

/-- A step of the owner of the lock. -/
theorem Locked.owner (h : Locked P n s) {s1 : St σ} {j : Nat} {p' : Pc} (hl : s1.lock = some j)
    (h3 : ∀ i, (s1.pc i).isLater = false) (hp' : p'.isLater = false)
    (h4 : ∀ k, k < n → s1.outs = s1.sent k ++ p'.unsent k) (h5 : s1.proc = none → p'.gone = true) (h6 : s1.down = false → s1.proc = none)
    (h7 : p' = .inYield .step → ∃ x, s1.proc = some x ∧ (P.state x = .now ∨ P.state x = .expired))
    (h8 : p' = .inYield .timeout → ∃ x, s1.proc = some x ∧ (P.state x).isYield = false)
    (h9 : p'.waits = true → ∃ x, s1.proc = some x ∧ (P.state x).isYield = false) :
    Locked P n (goto j p' s1) := by
  rw [Locked, hold_goto hl]
  exact ⟨isLater_goto h3 hp', h4, h5, h6, h7, h8, h9⟩

theorem crit_more {x : σ} {s1 : St σ} : (ctsCrit P x s1).lock = s1.lock ∧ (ctsCrit P x s1).outs = s1.outs ∧ (ctsCrit P x s1).sent = s1.sent ∧
    (ctsCrit P x s1).down = s1.down := by
  refine ⟨?_, ?_, ?_, ?_⟩
  all_goals
    simp only [ctsCrit]
    split
    · split <;> rfl
    · rfl

theorem crit_isLater {x : σ} {s1 : St σ} (h : ∀ i, (s1.pc i).isLater = false) (i : Nat) : ((ctsCrit P x s1).pc i).isLater = false := by
  simp only [ctsCrit]
  split
  · split
    · exact isLater_spawn h rfl i
    · exact h i
  · exact h i

theorem Locked.job (hP : Undelayed P) (h : Locked P n s) (hw : Wide s) {j : Nat} (hs : stepJob P n j s = .ok s') : Locked P n s' := by
  have hne : ∀ {i}, s.pc i ≠ .none → i ≠ s.next := fun h1 h2 => h1 (hw.fr _ (by omega))
  have hlk : ∀ {i}, s.lock = some i → s.pc i ≠ .none := fun hi hn => by have := (hw.lk _).2 hi; rw [hn] at this; cases this
  have nl := h.nl
  have ou := h.ou
  have px := h.px
  have dw := h.dw
  have ys := h.ys
  have yt := h.yt
  have ay := h.ay
  unfold stepJob at hs
  split at hs
  case h_1 => cases hs
  case h_2 hp =>
    split at hs <;> cases hs
    rename_i hl
    have hh : hold s = .none := by simp [hold, hl]
    rw [hh] at ou
    exact h.owner rfl nl rfl ou (fun _ => rfl) dw (by simp) (by simp) (by simp [Pc.waits])
  case h_20 hp =>
    split at hs <;> cases hs
    rename_i hl
    have hh : hold s = .none := by simp [hold, hl]
    rw [hh] at ou
    exact h.owner rfl nl rfl ou (fun _ => rfl) dw (by simp) (by simp) (by simp [Pc.waits])
  case h_18 hp =>
    cases hs
    obtain ⟨hl, hh⟩ := hw.owner hp rfl
    rw [hh] at ou
    rw [Locked]
    have : hold (goto j .none { s with lock := none }) = .none := by simp [hold, goto]
    rw [this]
    exact ⟨isLater_goto nl rfl, ou, fun _ => rfl, dw, by simp, by simp, by simp [Pc.waits]⟩
  case h_19 hp => have := nl j; rw [hp] at this; cases this
  case h_22 hp =>
    have hj : s.lock ≠ some j := fun hl => by have := (hw.lk j).2 hl; rw [hp] at this; cases this
    cases hs
    split
    · exact h.other rfl (fun i hi => by have : i ≠ j := fun e => hj (e ▸ hi); simp [run, spawn, goto, upd, this, hne (hlk hi)]) (isLater_spawn (isLater_goto nl rfl) rfl) ⟨rfl, rfl, rfl, rfl⟩
    · exact h.other rfl (fun i hi => by have : i ≠ j := fun e => hj (e ▸ hi); simp [goto, upd, this]) (isLater_goto nl rfl) ⟨rfl, rfl, rfl, rfl⟩
  case h_23 hp =>
    have hj : s.lock ≠ some j := fun hl => by have := (hw.lk j).2 hl; rw [hp] at this; cases this
    cases hs
    split
    · exact h.other rfl (fun i hi => by have : i ≠ j := fun e => hj (e ▸ hi); simp [run, spawn, goto, upd, this, hne (hlk hi)]) (isLater_spawn (isLater_goto nl rfl) rfl) ⟨rfl, rfl, rfl, rfl⟩
    · exact h.other rfl (fun i hi => by have : i ≠ j := fun e => hj (e ▸ hi); simp [goto, upd, this]) (isLater_goto nl rfl) ⟨rfl, rfl, rfl, rfl⟩
  case h_14 b hp =>
    have hb : b ≠ .later := by rintro rfl; have := nl j; rw [hp] at this; cases this
    obtain ⟨hl, hh⟩ := hw.owner hp (by cases b <;> simp_all [Pc.holds])
    rw [hh] at ou
    split at hs <;> cases hs
    rename_i x hx
    have hc := crit_same (P := P) (x := x) (s1 := { s with main := none })
    have hc' := crit_more (P := P) (x := x) (s1 := { s with main := none })
    have h1 : ∀ p, p.isLater = false → p.gone = true → p.waits = false → (∀ b, p ≠ .inYield b) → (∀ k, p.unsent k = []) → Locked P n (goto j p (ctsCrit P x { s with main := none })) := by
      intro p h1 h2 h3 h4 h5
      refine h.owner (by rw [hc'.1]; exact hl) (crit_isLater nl) h1 ?_ (fun _ => h2) ?_ (fun h => absurd h (h4 _)) (fun h => absurd h (h4 _)) (by simp [h3])
      · intro k hk; rw [hc'.2.1, hc'.2.2.1, h5]; exact ou k hk
      · rw [hc'.2.2.2, hc.2.2.2.1]; exact dw
    cases b
    · exact h1 _ rfl rfl rfl (by simp) (fun _ => rfl)
    · exact absurd rfl hb
    · exact h1 _ rfl rfl rfl (by simp) (fun _ => rfl)
  case h_13 b hp =>
    have hb : b ≠ .later := by rintro rfl; have := nl j; rw [hp] at this; cases this
    obtain ⟨hl, hh⟩ := hw.owner hp (by cases b <;> simp_all [Pc.holds])
    rw [hh] at ou px
    split at hs <;> cases hs
    · cases b
      · exact h.owner hl nl rfl ou (fun _ => rfl) dw (by simp) (by simp) (by simp [Pc.waits])
      · exact absurd rfl hb
      · exact h.owner hl nl rfl ou (fun _ => rfl) dw (by simp) (by simp) (by simp [Pc.waits])
    · refine h.owner hl nl (by cases b <;> simp_all [Pc.isLater]) ou (fun hn => ?_) dw (by simp) (by simp) (by simp [Pc.waits])
      have := px hn; cases this
  case h_3 hp =>
    obtain ⟨hl, hh⟩ := hw.owner hp rfl
    rw [hh] at ou
    split at hs <;> cases hs
    rename_i x hx
    by_cases hy : (P.state x).isYield = true
    · simp only [hy, if_true]
      exact h.owner hl nl rfl ou (by simp [hx]) dw (by simp) (by simp) (by simp [Pc.waits])
    · simp only [hy, if_false]
      exact h.owner hl nl rfl ou (by simp [hx]) dw (by simp) (by simp) (fun _ => ⟨x, hx, by simpa using hy⟩)
  case h_4 hp =>
    obtain ⟨hl, hh⟩ := hw.owner hp rfl
    rw [hh] at ou px ay
    obtain ⟨x, hx, hy⟩ := ay rfl
    split at hs <;> cases hs
    all_goals exact h.owner hl nl rfl ou (by simp [hx]) dw (by simp) (by simp) (fun _ => ⟨x, hx, hy⟩)
  case h_5 m hp =>
    obtain ⟨hl, hh⟩ := hw.owner hp rfl
    rw [hh] at ou px ay
    obtain ⟨x, hx, hy⟩ := ay rfl
    split at hs
    · cases hs
    · split at hs <;> cases hs
      all_goals exact h.owner hl nl rfl ou (by simp [hx]) dw (by simp) (by simp) (fun _ => ⟨x, hx, hy⟩)
  case h_6 hp =>
    obtain ⟨hl, hh⟩ := hw.owner hp rfl
    rw [hh] at ou
    split at hs
    · rename_i x f hx hf
      have hd : s.down = false → False := fun hd => by have := dw hd; simp [hx] at this
      split at hs <;> cases hs
      · exact h.owner hl nl rfl ou (by simp) (fun h => (hd h).elim) (by simp) (by simp) (by simp [Pc.waits])
      · exact h.owner hl nl rfl (fun k hk => by have := ou k hk; simp_all [Pc.unsent]) (by simp) (fun h => (hd h).elim) (by simp) (by simp) (by simp [Pc.waits])
    · cases hs
  case h_7 hp =>
    obtain ⟨hl, hh⟩ := hw.owner hp rfl
    rw [hh] at ou
    split at hs
    · rename_i x hx
      have hd : s.down = false → False := fun hd => by have := dw hd; simp [hx] at this
      split at hs <;> cases hs
      · exact h.owner hl nl rfl ou (by simp) (fun h => (hd h).elim) (by simp) (by simp) (by simp [Pc.waits])
      · exact h.owner hl nl rfl (fun k hk => by have := ou k hk; simp_all [Pc.unsent]) (by simp) (fun h => (hd h).elim) (by simp) (by simp) (by simp [Pc.waits])
    · cases hs
  case h_8 m hp =>
    obtain ⟨hl, hh⟩ := hw.owner hp rfl
    rw [hh] at ou ay
    obtain ⟨x, hx, -⟩ := ay rfl
    split at hs
    · simp_all
    · have hd : s.down = false → False := fun hd => by have := dw hd; simp [hx] at this
      split at hs <;> cases hs
      · cases m
        all_goals exact h.owner hl nl rfl ou (by simp) (fun h => (hd h).elim) (by simp) (by simp) (by simp [Pc.waits])
      · exact h.owner hl nl rfl (fun k hk => by have := ou k hk; simp_all [Pc.unsent]) (by simp) (fun h => (hd h).elim) (by simp) (by simp) (by simp [Pc.waits])
  case h_9 hp =>
    obtain ⟨hl, hh⟩ := hw.owner hp rfl
    rw [hh] at ou
    split at hs
    · cases hs
    · rename_i x hx
      split at hs <;> cases hs
      · exact h.owner hl nl rfl ou (by simp [hx]) dw (fun _ => ⟨x, hx, .inl ‹_›⟩) (by simp) (by simp [Pc.waits])
      · exact h.owner hl nl rfl ou (by simp [hx]) dw (fun _ => ⟨x, hx, .inr ‹_›⟩) (by simp) (by simp [Pc.waits])
      · exact absurd ‹_› (hP x)
      · exact h.owner hl nl rfl ou (by simp [hx]) dw (by simp) (by simp) (by simp [Pc.waits])
      · exact h.owner hl (isLater_spawn nl rfl) rfl ou (by simp [spawn, hx]) dw (by simp) (by simp) (by simp [Pc.waits])
  case h_10 b hp =>
    have hb : b ≠ .later := by rintro rfl; have := nl j; rw [hp] at this; cases this
    obtain ⟨hl, hh⟩ := hw.owner hp (by cases b <;> simp_all [Pc.holds])
    rw [hh] at ou
    split at hs <;> cases hs
    rename_i x hx
    have hd : s.down = false → False := fun hd => by have := dw hd; simp [hx] at this
    exact h.owner hl nl (by cases b <;> simp_all [Pc.isLater]) (fun k hk => by have := ou k hk; simp_all [Pc.unsent]) (by simp) (fun h => (hd h).elim) (by simp) (by simp) (by simp [Pc.waits])
  case h_11 b r hp =>
    have hb : b ≠ .later := by rintro rfl; have := nl j; rw [hp] at this; cases this
    obtain ⟨hl, hh⟩ := hw.owner hp (by cases b <;> simp_all [Pc.holds])
    rw [hh] at ou px
    cases hs
    exact h.owner hl nl (by cases b <;> simp_all [Pc.isLater]) (fun k hk => by have := ou k hk; simp_all [Pc.unsent]) (fun h => absurd (px h) (by simp [Pc.gone])) dw (by simp) (by simp) (by simp [Pc.waits])
  case h_12 b r k hp =>
    have hb : b ≠ .later := by rintro rfl; have := nl j; rw [hp] at this; cases this
    obtain ⟨hl, hh⟩ := hw.owner hp (by cases b <;> simp_all [Pc.holds])
    rw [hh] at ou px
    have hd : s.down = false → False := fun hd => by have := px (dw hd); cases this
    split at hs <;> cases hs
    · refine h.owner hl nl (by cases b <;> simp_all [Pc.isLater]) (fun i hi => ?_) (fun h => absurd (px h) (by simp [Pc.gone])) (fun h => (hd h).elim) (by simp) (by simp) (by simp [Pc.waits])
      have := ou i hi
      simp only [Pc.unsent, upd_apply] at this ⊢
      by_cases hik : i = k
      · subst hik
        have h1 : ¬ i + 1 ≤ i := by omega
        simpa [h1] using this
      · have h1 : k ≤ i ↔ k + 1 ≤ i := by omega
        simpa [hik, h1] using this
    · refine h.owner hl nl (by cases b <;> simp_all [Pc.isLater]) (fun i hi => ?_) (fun h => absurd (px h) (by simp [Pc.gone])) dw (by simp) (by simp) (by simp [Pc.waits])
      have := ou i hi
      have hk : n ≤ k := by
        rcases hd0 : s.down with _ | _
        · exact (hd hd0).elim
        · simp_all
      have h1 : ¬ k ≤ i := by omega
      simpa [Pc.unsent, h1] using this
  case h_15 hp =>
    obtain ⟨hl, hh⟩ := hw.owner hp rfl
    rw [hh] at ou
    cases hs
    exact h.owner hl nl rfl ou (fun _ => rfl) dw (by simp) (by simp) (by simp [Pc.waits])
  case h_16 hp =>
    obtain ⟨hl, hh⟩ := hw.owner hp rfl
    rw [hh] at ou px
    cases hs
    have hx : s.proc ≠ none := fun h => by have := px h; cases this
    by_cases hc : s.q ≠ [] ∨ s.closeQ = true
    · simp only [hc, decide_true, if_true]
      refine h.owner hl (isLater_spawn nl rfl) (by split <;> rfl) (fun k hk => ?_) (fun h => absurd h hx) dw (by split <;> simp) (by split <;> simp) (by split <;> simp [Pc.waits])
      split <;> exact ou k hk
    · simp only [hc, decide_false, Bool.false_eq_true, if_false]
      refine h.owner hl nl (by split <;> rfl) (fun k hk => ?_) (fun h => absurd h hx) dw (by split <;> simp) (by split <;> simp) (by split <;> simp [Pc.waits])
      split <;> exact ou k hk
  case h_17 hp =>
    obtain ⟨hl, hh⟩ := hw.owner hp rfl
    rw [hh] at ou
    cases hs
    exact h.owner hl nl rfl ou (fun _ => rfl) (fun _ => rfl) (by simp) (by simp) (by simp [Pc.waits])
  case h_21 hp =>
    obtain ⟨hl, hh⟩ := hw.owner hp rfl
    rw [hh] at ou
    split at hs <;> cases hs
    rename_i x hx
    by_cases hy : (P.state x).isYield = true
    · simp only [hy, if_true]
      exact h.owner hl nl rfl ou (fun _ => rfl) dw (by simp) (by simp) (by simp [Pc.waits])
    · simp only [hy, if_false]
      exact h.owner hl nl rfl ou (by simp [hx]) dw (by simp) (fun _ => ⟨x, hx, by simpa using hy⟩) (by simp [Pc.waits])

theorem Locked.step (hP : Undelayed P) (h : Locked P n s) (hw : Wide s) {a : Act} (hs : Process.step P n s a = .ok s') : Locked P n s' := by
  have hne : ∀ {i}, s.pc i ≠ .none → i ≠ s.next := fun h1 h2 => h1 (hw.fr _ (by omega))
  have hlk : ∀ {i}, s.lock = some i → s.pc i ≠ .none := fun hi hn => by have := (hw.lk _).2 hi; rw [hn] at this; cases this
  have nl := h.nl
  cases a with
  | job j => exact h.job hP hw hs
  | fail j =>
    simp only [Process.step] at hs
    split at hs <;> cases hs
    rename_i hp
    have hj : s.lock ≠ some j := fun hl => by have := (hw.lk j).2 hl; rw [hp] at this; cases this
    exact h.other rfl (fun i hi => by have : i ≠ j := fun e => hj (e ▸ hi); simp [run, spawn, goto, upd, this, hne (hlk hi)]) (isLater_spawn (isLater_goto nl rfl) rfl) ⟨rfl, rfl, rfl, rfl⟩
  | send m =>
    simp only [Process.step] at hs
    split at hs <;> cases hs
    simp only [enqueue]
    split
    · exact h.other rfl (fun i hi => by simp [run, spawn, upd, hne (hlk hi)]) (isLater_spawn nl rfl) ⟨rfl, rfl, rfl, rfl⟩
    · exact h.other rfl (fun _ _ => rfl) nl ⟨rfl, rfl, rfl, rfl⟩
  | cts k =>
    simp only [Process.step] at hs
    repeat' split at hs
    all_goals try cases hs
    · exact h.other rfl (fun _ _ => rfl) nl ⟨rfl, rfl, rfl, rfl⟩
    · exact h.other rfl (fun _ _ => rfl) nl ⟨rfl, rfl, rfl, rfl⟩
    · rename_i x hx
      have hc := crit_same (P := P) (x := x) (s1 := { s with cts := upd s.cts k .none })
      have hc' := crit_more (P := P) (x := x) (s1 := { s with cts := upd s.cts k .none })
      exact h.other hc'.1 (fun i hi => hc.2.2.2.2 i (hw.lt rfl (hlk hi))) (crit_isLater nl) ⟨hc'.2.1, hc'.2.2.1, hc.2.2.2.1, hc'.2.2.2⟩
  | dropSender =>
    simp only [Process.step] at hs
    repeat' split at hs
    all_goals try cases hs
    · exact h.other rfl (fun i hi => by simp [spawn, upd, hne (hlk hi)]) (isLater_spawn nl rfl) ⟨rfl, rfl, rfl, rfl⟩
    · exact h.other rfl (fun _ _ => rfl) nl ⟨rfl, rfl, rfl, rfl⟩
  | ready =>
    simp only [Process.step] at hs
    split at hs <;> cases hs
    exact h.other rfl (fun i hi => by simp [spawn, upd, hne (hlk hi)]) (isLater_spawn nl rfl) ⟨rfl, rfl, rfl, rfl⟩
  | _ =>
    simp only [Process.step] at hs
    repeat' split at hs
    all_goals try cases hs
    all_goals exact h.other rfl (fun _ _ => rfl) nl ⟨rfl, rfl, rfl, rfl⟩

theorem locked (hP : Undelayed P) (h : Reachable P n s) : Locked P n s := by
  induction h with
  | init => exact init_locked P n
  | step h hs ih => exact ih.step hP (wide h) hs

end Verif.Process
