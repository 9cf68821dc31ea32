import Verif.Channel.ProcessInv

/-!
# Invariant of processes that do not await with a time-out: the ends of steps, and other threads
-/

namespace Verif.Process

open Verif.Channel (Msg sumTo upd)

variable {σ : Type} {P : Proc σ} {n : Nat} {s s' : St σ}

theorem pcm_goto {s1 : St σ} {j : Nat} {p : Pc} (hm : s.main ≠ some j) (h1 : s1.pc = s.pc) (h2 : s1.main = s.main) :
    pcm (goto j p s1) = pcm s := by
  simp only [pcm, goto, h1, h2]
  rcases hm' : s.main with _ | i
  · rfl
  · simp only [upd_apply]
    rw [if_neg]
    rintro rfl; exact hm hm'

theorem Inv.noTimeout (h : Inv P n s) {j : Nat} {p : Pc} (hp : s.pc j = p) (ht : p.isTimeout = true) : False := by
  have := h.nt j; rw [hp, ht] at this; cases this

theorem Inv.own1F (h : Inv P n s) {j : Nat} {b : By} (hp : s.pc j = .own1 b) (hf : s.final = true) :
    Inv P n (back j b { s with main := none }) := by
  obtain ⟨hm, hq, hr, hj, ⟨x, hx⟩, hdn⟩ := h.main hp rfl
  have hq' : pcm (back j b { s with main := none }) = .none := by cases b <;> simp [pcm, goto, back]
  have hD : due (back j b { s with main := none }) = due s := by
    funext k; simp only [due, hq', hq]; cases b <;> simp [goto, back, Pc.toSend]
  rw [Inv, hq] at h
  rw [Inv, hq', hD]
  cases b
  all_goals
    fin

theorem Inv.own2F (h : Inv P n s) {j : Nat} {b : By} (hp : s.pc j = .own2 b) : s.final = false ∧ s.susp = 1 + sumTo n (due s) := by
  obtain ⟨hm, hq, hr, hj, ⟨x, hx⟩, hdn⟩ := h.main hp rfl
  have hf : s.final = false := by
    rcases hf : s.final with _ | _
    · rfl
    · have := (h.fi hf).2.2.2.1
      simp [hq, Pc.closing] at this
  exact ⟨hf, by rw [h.sp hf, hq]; rfl⟩

theorem Inv.own2R (h : Inv P n s) {j : Nat} {b : By} {y : σ} (hp : s.pc j = .own2 b) (hy : s.proc = some y)
    (h0 : s.susp = 1) (hc : (P.state y).isYield ∨ s.q ≠ [] ∨ s.closeQ = true) :
    Inv P n (back j b (run { s with main := none, susp := 0 })) := by
  obtain ⟨hm, hq, hr, hj, ⟨x, hx⟩, hdn⟩ := h.main hp rfl
  obtain ⟨hf, hs⟩ := h.own2F hp
  have h1 : sumTo n (due s) = 0 := by omega
  have hq' : pcm (back j b (run { s with main := none, susp := 0 })) = .start := by
    cases b <;> simp [pcm, goto, back, run, spawn, upd] <;> omega
  have hD : due (back j b (run { s with main := none, susp := 0 })) = due s := by
    funext k; simp only [due, hq', hq]; cases b <;> simp [goto, back, Pc.toSend, run, spawn]
  have hz : ∀ k, due s k = 0 := by
    intro k
    by_cases hk : k < n
    · exact sumTo_eq_zero h1 k hk
    · have := h.dn k (by omega)
      simp [due, hq, this, Pc.toSend, Cts.busy]
  rcases b with _ | _ | _
  rotate_left 2
  · exact (h.noTimeout hp rfl).elim
  all_goals
    rw [Inv, hq] at h
    rw [Inv, hq', hD]
    fin

theorem Inv.own2I (h : Inv P n s) {j : Nat} {b : By} {y : σ} (hp : s.pc j = .own2 b) (hy : s.proc = some y)
    (h0 : s.susp = 1) (hc : ¬ ((P.state y).isYield ∨ s.q ≠ [] ∨ s.closeQ = true)) :
    Inv P n (back j b { s with main := none, susp := 0, running := false }) := by
  obtain ⟨hm, hq, hr, hj, ⟨x, hx⟩, hdn⟩ := h.main hp rfl
  obtain ⟨hf, hs⟩ := h.own2F hp
  have h1 : sumTo n (due s) = 0 := by omega
  have hq' : pcm (back j b { s with main := none, susp := 0, running := false }) = .none := by
    cases b <;> simp [pcm, goto, back]
  have hD : due (back j b { s with main := none, susp := 0, running := false }) = due s := by
    funext k; simp only [due, hq', hq]; cases b <;> simp [goto, back, Pc.toSend]
  rcases b with _ | _ | _
  rotate_left 2
  · exact (h.noTimeout hp rfl).elim
  all_goals
    rw [Inv, hq] at h
    rw [Inv, hq', hD]
    fin

theorem Inv.own2W (h : Inv P n s) {j : Nat} {b : By} (hp : s.pc j = .own2 b) (h0 : s.susp ≠ 1) :
    Inv P n (back j b { s with main := none, susp := s.susp - 1 }) := by
  obtain ⟨hm, hq, hr, hj, ⟨x, hx⟩, hdn⟩ := h.main hp rfl
  obtain ⟨hf, hs⟩ := h.own2F hp
  have hq' : pcm (back j b { s with main := none, susp := s.susp - 1 }) = .none := by
    cases b <;> simp [pcm, goto, back]
  have hD : due (back j b { s with main := none, susp := s.susp - 1 }) = due s := by
    funext k; simp only [due, hq', hq]; cases b <;> simp [goto, back, Pc.toSend]
  rcases b with _ | _ | _
  rotate_left 2
  · exact (h.noTimeout hp rfl).elim
  all_goals
    rw [Inv, hq] at h
    rw [Inv, hq', hD]
    fin

theorem Inv.own2 (h : Inv P n s) {j : Nat} {b : By} {y : σ} (hp : s.pc j = .own2 b) (hy : s.proc = some y) :
    Inv P n (back j b (ctsCrit P y { s with main := none })) := by
  have hs := (h.own2F hp).2
  by_cases h0 : s.susp = 1
  · by_cases hc : (P.state y).isYield ∨ s.q ≠ [] ∨ s.closeQ = true
    · have := h.own2R hp hy h0 hc
      simpa [ctsCrit, h0, hc] using this
    · have := h.own2I hp hy h0 hc
      simpa [ctsCrit, h0, hc] using this
  · have h0' : ¬ s.susp - 1 = 0 := by omega
    simpa [ctsCrit, h0'] using h.own2W hp h0

theorem Inv.taskDone (h : Inv P n s) {j : Nat} (hp : s.pc j = .taskDone) (hc : s.q ≠ [] ∨ s.closeQ = true) :
    Inv P n (goto j .unlock (run { s with running := true, main := none })) := by
  obtain ⟨hm, hq, hr, hj, ⟨x, hx⟩, hdn⟩ := h.main hp rfl
  have hq' : pcm (goto j .unlock (run { s with running := true, main := none })) = .start := by
    simp [pcm, goto, run, spawn, upd]; omega
  have hD : due (goto j .unlock (run { s with running := true, main := none })) = due s := by
    funext k; simp only [due, hq', hq]; simp [goto, run, spawn, Pc.toSend]
  rw [Inv, hq] at h
  rw [Inv, hq', hD]
  fin

theorem Inv.taskDone0 (h : Inv P n s) {j : Nat} (hp : s.pc j = .taskDone) (hc : s.q = []) (hc2 : s.closeQ = false) :
    Inv P n (goto j (if s.final then .clear else .unlock) { s with running := false, main := none }) := by
  obtain ⟨hm, hq, hr, hj, ⟨x, hx⟩, hdn⟩ := h.main hp rfl
  have hq' : pcm (goto j (if s.final then .clear else .unlock) { s with running := false, main := none }) = .none := by
    simp [pcm, goto]
  have hD : due (goto j (if s.final then .clear else .unlock) { s with running := false, main := none }) = due s := by
    funext k; simp only [due, hq', hq]; simp [goto, Pc.toSend]
  have hz : sumTo n (due s) = 0 := by
    rw [show due s = fun _ => 0 from funext (h.ze (by simp [hm]) (by simp [hq, Pc.own]))]; exact sumTo_zero n
  rw [Inv, hq] at h
  rw [Inv, hq', hD]
  rcases hf : s.final with _ | _ <;> simp only [if_true, Bool.false_eq_true, if_false]
  all_goals
    fin

/-- A step of another thread that has no part in the data flow. -/
theorem Inv.clear (h : Inv P n s) {j : Nat} (hp : s.pc j = .clear) : Inv P n (goto j .unlock { s with down := false, proc := none }) := by
  have hm := (h.cl j hp).2
  have hq : pcm s = .none := by simp [pcm, hm]
  have hq' : pcm (goto j .unlock { s with down := false, proc := none } : St σ) = .none := by simp [pcm, goto, hm]
  have hD : due (goto j .unlock { s with down := false, proc := none } : St σ) = due s := by
    funext k; simp only [due, hq', hq]; simp [goto]
  rw [Inv, hq] at h
  rw [Inv, hq', hD]
  fin

theorem Inv.unlock (h : Inv P n s) {j : Nat} (hp : s.pc j = .unlock) : Inv P n (goto j .none { s with lock := none }) := by
  have hm : s.main ≠ some j := fun hm => by have := (h.mn j).2 hm; simp [hp, Pc.isMain] at this
  have hq' : pcm (goto j .none { s with lock := none }) = pcm s := pcm_goto hm rfl rfl
  have hD : due (goto j .none { s with lock := none }) = due s := by
    funext k; simp only [due, hq']; simp [goto]
  rw [Inv] at h
  rw [Inv, hq', hD]
  generalize hq : pcm s = p at *
  fin


end Verif.Process
