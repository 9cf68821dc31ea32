import Verif.Channel.ProcessInv2

/-!
# Invariant of processes that do not await with a time-out: senders and receivers
-/

namespace Verif.Process

open Verif.Channel (Msg sumTo upd)

variable {σ : Type} {P : Proc σ} {n : Nat} {s s' : St σ}

theorem Inv.idle (h : Inv P n s) (hr : s.running = false) (hf : s.final = false) :
    s.main = none ∧ pcm s = .none ∧ ∀ k, due s k = 0 := by
  have hm : s.main = none := by
    rcases hm : s.main with _ | i
    · rfl
    · have := h.rn (by simp [hm]); simp [hr] at this
  have hq : pcm s = .none := by simp [pcm, hm]
  refine ⟨hm, hq, fun k => ?_⟩
  have hs : s.susp = 0 := by
    rcases h.id hr with h | h
    · exact h
    · simp [hf] at h
  have h1 : sumTo n (due s) = 0 := by have := h.sp hf; omega
  by_cases hk : k < n
  · exact sumTo_eq_zero h1 k hk
  · have := h.dn k (by omega)
    simp [due, hq, this, Pc.toSend, Cts.busy]

/-- `close2` and `ready2` start a new step. -/
theorem Inv.wake (h : Inv P n s) {j : Nat} {c : Bool} (hr : s.running = false) (hf : s.final = false)
    (hp : s.pc j = .close2 ∧ c = true ∨ s.pc j = .ready2 ∧ c = s.closeQ) :
    Inv P n (run (goto j .none { s with closeQ := c, running := true })) := by
  obtain ⟨hm, hq, hz⟩ := h.idle hr hf
  have hj : j < s.next := by
    refine Nat.lt_of_not_le fun hl => ?_
    rw [h.fr j hl] at hp; simp at hp
  have hq' : pcm (run (goto j .none { s with closeQ := c, running := true })) = .start := by simp [pcm, run, spawn, upd, goto]
  have hD : due (run (goto j .none { s with closeQ := c, running := true })) = due s := by
    funext k; simp only [due, hq', hq]; simp [run, spawn, goto, Pc.toSend]
  rw [Inv, hq] at h
  rw [Inv, hq', hD]
  fin

theorem Inv.close2 (h : Inv P n s) {j : Nat} (hp : s.pc j = .close2) (hr : ¬ (s.ready = true ∧ s.running = false)) :
    Inv P n (goto j .none { s with closeQ := true }) := by
  have hm : s.main ≠ some j := fun hm => by have := (h.mn j).2 hm; simp [hp, Pc.isMain] at this
  have hq' : pcm (goto j .none { s with closeQ := true }) = pcm s := pcm_goto hm rfl rfl
  have hD : due (goto j .none { s with closeQ := true }) = due s := by
    funext k; simp only [due, hq']; simp [goto]
  rw [Inv] at h
  rw [Inv, hq', hD]
  generalize hq : pcm s = p at *
  fin

theorem Inv.ready2 (h : Inv P n s) {j : Nat} (hp : s.pc j = .ready2) (hr : ¬ ((s.q ≠ [] ∨ s.closeQ = true) ∧ s.running = false)) :
    Inv P n (goto j .none s) := by
  have hm : s.main ≠ some j := fun hm => by have := (h.mn j).2 hm; simp [hp, Pc.isMain] at this
  have hq' : pcm (goto j .none s) = pcm s := pcm_goto hm rfl rfl
  have hD : due (goto j .none s) = due s := by
    funext k; simp only [due, hq']; simp [goto]
  rw [Inv] at h
  rw [Inv, hq', hD]
  generalize hq : pcm s = p at *
  fin

theorem Inv.fail (h : Inv P n s) {j : Nat} (hp : s.pc j = .start) : Inv P n (run (goto j .none s)) := by
  obtain ⟨hm, hq, hr, hj, ⟨x, hx⟩, hdn⟩ := h.main hp rfl
  have hq' : pcm (run (goto j .none s)) = .start := by simp [pcm, run, spawn, upd, goto]
  have hD : due (run (goto j .none s)) = due s := by
    funext k; simp only [due, hq', hq]; simp [run, spawn, goto]
  rw [Inv, hq] at h
  rw [Inv, hq', hD]
  fin

theorem Inv.sendRun (h : Inv P n s) {m : Msg} (hs : s.snd ≠ 0) (hr : s.running = false) :
    Inv P n (run { s with q := s.q ++ [m], inp := s.inp ++ [m], running := true }) := by
  have hf : s.final = false := by
    rcases hf : s.final with _ | _
    · rfl
    · exact absurd (h.so.2 (.inr (.inl hf))) hs
  obtain ⟨hm, hq, hz⟩ := h.idle hr hf
  have hq' : pcm (run { s with q := s.q ++ [m], inp := s.inp ++ [m], running := true }) = .start := by simp [pcm, run, spawn, upd]
  have hD : due (run { s with q := s.q ++ [m], inp := s.inp ++ [m], running := true }) = due s := by
    funext k; simp only [due, hq', hq]; simp [run, spawn, Pc.toSend]
  rw [Inv, hq] at h
  rw [Inv, hq', hD]
  fin

theorem Inv.sendNo (h : Inv P n s) {m : Msg} (hs : s.snd ≠ 0) (hr : ¬ (s.ready = true ∧ s.running = false)) :
    Inv P n { s with q := s.q ++ [m], inp := s.inp ++ [m] } := by
  have hq' : pcm { s with q := s.q ++ [m], inp := s.inp ++ [m] } = pcm s := rfl
  have hD : due { s with q := s.q ++ [m], inp := s.inp ++ [m] } = due s := rfl
  rw [Inv] at h
  rw [Inv, hq', hD]
  generalize hq : pcm s = p at *
  fin

theorem Inv.snd (h : Inv P n s) {m : Nat} (hs : s.snd ≠ 0) (hm : m ≠ 0) : Inv P n { s with snd := m } := by
  have hq' : pcm { s with snd := m } = pcm s := rfl
  have hD : due { s with snd := m } = due s := rfl
  rw [Inv] at h
  rw [Inv, hq', hD]
  generalize hq : pcm s = p at *
  fin

theorem pcm_spawn (h : Inv P n s) {s1 : St σ} {p : Pc} (h1 : s1.pc = s.pc) (h2 : s1.main = s.main) (h3 : s1.next = s.next) :
    pcm (spawn p s1) = pcm s := by
  simp only [pcm, spawn, h1, h2, h3]
  rcases hm : s.main with _ | i
  · rfl
  · simp only [upd_apply]
    rw [if_neg]
    rintro rfl
    have := (h.mn s.next).2 hm
    rw [h.fr _ (Nat.le_refl _)] at this; cases this

theorem Inv.drop (h : Inv P n s) (hs : s.snd ≠ 0) : Inv P n (spawn .close2 { s with snd := 0 }) := by
  have hq' : pcm (spawn .close2 { s with snd := 0 }) = pcm s := pcm_spawn h rfl rfl rfl
  have hD : due (spawn .close2 { s with snd := 0 }) = due s := by funext k; simp only [due, hq']; rfl
  rw [Inv] at h
  rw [Inv, hq', hD]
  generalize hq : pcm s = p at *
  fin
  exact iff_of_true rfl (.inr (.inr ⟨s.next, by simp [spawn, upd]⟩))

theorem Inv.ready (h : Inv P n s) : Inv P n (spawn .ready2 { s with ready := true }) := by
  have hq' : pcm (spawn .ready2 { s with ready := true }) = pcm s := pcm_spawn h rfl rfl rfl
  have hD : due (spawn .ready2 { s with ready := true }) = due s := by funext k; simp only [due, hq']; rfl
  rw [Inv] at h
  rw [Inv, hq', hD]
  generalize hq : pcm s = p at *
  fin
  exact fun _ _ => .inl ⟨s.next, by simp [spawn, upd]⟩

/-- A process downstream has no more than one message. -/
theorem Inv.dq1 (h : Inv P n s) (k : Nat) : (s.dq k).length + (s.cts k).busy ≤ 1 := by
  have := h.d1 k; simp only [due] at this; omega

theorem Inv.pop (h : Inv P n s) {k : Nat} {m : Msg} (hd : s.dq k = [m]) (hc : s.cts k = .none) :
    Inv P n { s with dq := upd s.dq k [], cts := upd s.cts k .first } := by
  have hq' : pcm { s with dq := upd s.dq k [], cts := upd s.cts k .first } = pcm s := rfl
  have hD : due { s with dq := upd s.dq k [], cts := upd s.cts k .first } = due s := by
    funext i; simp only [due, hq', upd_apply]
    by_cases hi : i = k
    · subst hi; simp [hd, hc, Cts.busy]
    · simp [hi]
  rw [Inv] at h
  rw [Inv, hq', hD]
  generalize hq : pcm s = p at *
  fin

theorem Inv.cts1 (h : Inv P n s) {k : Nat} (hc : s.cts k = .first) (hf : s.final = false) :
    Inv P n { s with cts := upd s.cts k .second } := by
  have hq' : pcm { s with cts := upd s.cts k .second } = pcm s := rfl
  have hD : due { s with cts := upd s.cts k .second } = due s := by
    funext i; simp only [due, hq', upd_apply]
    by_cases hi : i = k
    · subst hi; simp [hc, Cts.busy]
    · simp [hi]
  rw [Inv] at h
  rw [Inv, hq', hD]
  generalize hq : pcm s = p at *
  fin

theorem due_cts {k : Nat} {s1 : St σ} (hq : pcm s1 = pcm s) (h1 : s1.dq = s.dq) (h2 : s1.cts = upd s.cts k .none)
    (hc : s.cts k ≠ .none) (i : Nat) : due s1 i + (if i = k then 1 else 0) = due s i := by
  simp only [due, hq, h1, h2, upd_apply]
  by_cases hi : i = k
  · subst hi
    rcases hcc : s.cts i <;> simp_all [Cts.busy] <;> omega
  · simp [hi]

theorem Inv.ctsF (h : Inv P n s) {k : Nat} (hc : s.cts k ≠ .none) (hf : s.final = true) :
    Inv P n { s with cts := upd s.cts k .none } := by
  have hq' : pcm { s with cts := upd s.cts k .none } = pcm s := rfl
  have hd := due_cts (s := s) (s1 := { s with cts := upd s.cts k .none }) rfl rfl rfl hc
  rw [Inv] at h
  rw [Inv, hq']
  generalize due { s with cts := upd s.cts k .none } = D' at *
  have hD := hq'
  generalize hq : pcm s = p at *
  fin

/-- The main thread is not between `broadcast` and `clear_to_send` if the count comes down to 0. -/
theorem Inv.cts2 (h : Inv P n s) {k : Nat} (hc : s.cts k = .second) :
    k < n ∧ s.final = false ∧ s.running = true ∧ s.susp = (pcm s).own + sumTo n (due s) ∧ due s k = 1 ∧
    (s.main ≠ none → (pcm s).own = 1) ∧ (s.main = none → pcm s = .none) ∧ ∃ x, s.proc = some x := by
  have hk : k < n := Nat.lt_of_not_le fun hl => by have := (h.dn k hl).2; simp [hc] at this
  have hf : s.final = false := by
    rcases hf : s.final with _ | _
    · rfl
    · exact absurd hc ((h.fi hf).2.2.1 k)
  have h1 : due s k = 1 := by
    have h1 := h.d1 k
    have h2 : (s.cts k).busy = 1 := by rw [hc]; rfl
    have : (s.cts k).busy ≤ due s k := by simp only [due]; omega
    omega
  refine ⟨hk, hf, ?_, h.sp hf, h1, ?_, ?_, ?_⟩
  · rcases hr : s.running with _ | _
    · have := (h.idle hr hf).2.2 k; omega
    · rfl
  · intro hm
    have h2 := h.ze hm
    have : (pcm s).own ≤ 1 := by rcases pcm s <;> simp [Pc.own]
    rcases h3 : (pcm s).own with _ | _ | _
    · have := h2 h3 k; omega
    · rfl
    · omega
  · intro hm; simp [pcm, hm]
  · rcases hx : s.proc with _ | x
    · have := (h.pr hx).1; simp [hf] at this
    · exact ⟨x, rfl⟩

theorem sumTo_dec {f g : Nat → Nat} {k : Nat} (hk : k < n) (h : ∀ i, f i + (if i = k then 1 else 0) = g i) :
    sumTo n f + 1 = sumTo n g := by
  have h1 := Verif.Channel.sumTo_change (f := f) (g := g) hk (fun i hi => by have := h i; simpa [hi] using this)
  have h2 := h k
  simp only [if_true] at h2
  omega

theorem Inv.cts2W (h : Inv P n s) {k : Nat} (hc : s.cts k = .second) (h0 : s.susp ≠ 1) :
    Inv P n { s with cts := upd s.cts k .none, susp := s.susp - 1 } := by
  obtain ⟨hk, hf, hr, hs, hdk, h1, h2, x, hx⟩ := h.cts2 hc
  have hq' : pcm { s with cts := upd s.cts k .none, susp := s.susp - 1 } = pcm s := rfl
  have hd := due_cts (s := s) (s1 := { s with cts := upd s.cts k .none, susp := s.susp - 1 }) rfl rfl rfl (k := k) (by simp [hc])
  have hS := sumTo_dec hk hd
  rw [Inv] at h
  rw [Inv, hq']
  generalize due { s with cts := upd s.cts k .none, susp := s.susp - 1 } = D' at *
  have hD := hq'
  generalize hq : pcm s = p at *
  fin

theorem Inv.cts2Z (h : Inv P n s) {k : Nat} (hc : s.cts k = .second) (h0 : s.susp = 1) :
    s.main = none ∧ pcm s = .none ∧ ∀ i, due s i = if i = k then 1 else 0 := by
  obtain ⟨hk, hf, hr, hs, hdk, h1, h2, x, hx⟩ := h.cts2 hc
  have hd := due_cts (s := s) (s1 := { s with cts := upd s.cts k .none, susp := s.susp - 1 }) rfl rfl rfl (k := k) (by simp [hc])
  have hS := sumTo_dec hk hd
  have hm : s.main = none := by
    rcases hm : s.main with _ | i
    · rfl
    · have := h1 (by simp [hm]); omega
  refine ⟨hm, h2 hm, fun i => ?_⟩
  have h3 : sumTo n (due { s with cts := upd s.cts k .none, susp := s.susp - 1 }) = 0 := by omega
  by_cases hi : i < n
  · have := sumTo_eq_zero h3 i hi
    have := hd i
    omega
  · have := h.dn i (by omega)
    have hik : i ≠ k := by omega
    simp [due, h2 hm, this, Pc.toSend, Cts.busy, hik]

theorem Inv.cts2R (h : Inv P n s) {k : Nat} {y : σ} (hc : s.cts k = .second) (h0 : s.susp = 1) (hy : s.proc = some y)
    (hn : (P.state y).isYield ∨ s.q ≠ [] ∨ s.closeQ = true) :
    Inv P n (run { s with cts := upd s.cts k .none, susp := 0 }) := by
  obtain ⟨hk, hf, hr, hs, hdk, h1, h2, x, hx⟩ := h.cts2 hc
  obtain ⟨hm, hq, hz⟩ := h.cts2Z hc h0
  have hq' : pcm (run { s with cts := upd s.cts k .none, susp := 0 }) = .start := by simp [pcm, run, spawn, upd]
  have hd := due_cts (s := s) (s1 := { s with cts := upd s.cts k .none, susp := 0 }) rfl rfl rfl (k := k) (by simp [hc])
  have hD : due (run { s with cts := upd s.cts k .none, susp := 0 }) = fun _ => 0 := by
    funext i
    have h4 : due (run { s with cts := upd s.cts k .none, susp := 0 }) i = due { s with cts := upd s.cts k .none, susp := 0 } i := by
      have h5 : pcm { s with cts := upd s.cts k .none, susp := 0 } = .none := hq
      simp only [due, hq', h5]; simp [run, spawn, Pc.toSend]
    have := hd i; have := hz i; omega
  have h6 := sumTo_zero n
  rw [Inv, hq] at h
  rw [Inv, hq', hD]
  fin

theorem Inv.cts2I (h : Inv P n s) {k : Nat} {y : σ} (hc : s.cts k = .second) (h0 : s.susp = 1) (hy : s.proc = some y)
    (hn : ¬ ((P.state y).isYield ∨ s.q ≠ [] ∨ s.closeQ = true)) :
    Inv P n { s with cts := upd s.cts k .none, susp := 0, running := false } := by
  obtain ⟨hk, hf, hr, hs, hdk, h1, h2, x, hx⟩ := h.cts2 hc
  obtain ⟨hm, hq, hz⟩ := h.cts2Z hc h0
  have hq' : pcm { s with cts := upd s.cts k .none, susp := 0, running := false } = .none := hq
  have hd := due_cts (s := s) (s1 := { s with cts := upd s.cts k .none, susp := 0, running := false }) rfl rfl rfl (k := k) (by simp [hc])
  have hD : due { s with cts := upd s.cts k .none, susp := 0, running := false } = fun _ => 0 := by
    funext i
    have := hd i; have := hz i; omega
  have h6 := sumTo_zero n
  rw [Inv, hq] at h
  rw [Inv, hq', hD]
  fin

theorem Inv.cts2C (h : Inv P n s) {k : Nat} {y : σ} (hc : s.cts k = .second) (hy : s.proc = some y) :
    Inv P n (ctsCrit P y { s with cts := upd s.cts k .none }) := by
  obtain ⟨hk, hf, hr, hs, hdk, h1, h2, x, hx⟩ := h.cts2 hc
  have hd := due_cts (s := s) (s1 := { s with cts := upd s.cts k .none }) rfl rfl rfl (k := k) (by simp [hc])
  have hS := sumTo_dec hk hd
  by_cases h0 : s.susp = 1
  · by_cases hn : (P.state y).isYield ∨ s.q ≠ [] ∨ s.closeQ = true
    · have := h.cts2R hc h0 hy hn
      simpa [ctsCrit, h0, hn] using this
    · have := h.cts2I hc h0 hy hn
      simpa [ctsCrit, h0, hn] using this
  · have h0' : ¬ s.susp - 1 = 0 := by omega
    simpa [ctsCrit, h0'] using h.cts2W hc h0

theorem Inv.job (hP : Untimed P) (h : Inv P n s) {j : Nat} (hs : stepJob P n j s = .ok s') : Inv P n s' := by
  have hpr : ∀ {p : Pc}, s.pc j = p → p.isMain = true → ∃ x, s.proc = some x := fun hp hm => (h.main hp hm).2.2.2.2.1
  unfold stepJob at hs
  split at hs
  case h_1 => cases hs
  case h_2 hp => split at hs <;> cases hs; exact h.start hp ‹_›
  case h_3 hp => split at hs <;> cases hs; exact h.loop hp ‹_› rfl
  case h_4 hp =>
    split at hs <;> cases hs
    · exact h.pop0 hp ‹_›
    · exact h.pop1 hp ‹_›
  case h_5 m hp =>
    split at hs
    · cases hs
    · split at hs <;> cases hs
      · exact h.handleE hp (by simp [*])
      · exact h.handleC hp
      · exact h.handleV hp
  case h_6 hp =>
    split at hs
    · split at hs <;> cases hs
      · exact h.mem hp (.inl rfl) rfl
      · exact h.throw hp (.inl rfl)
    · cases hs
  case h_7 hp =>
    split at hs
    · split at hs <;> cases hs
      · exact h.mem hp (.inr (.inl ⟨_, rfl⟩)) rfl
      · exact h.throw hp (.inr (.inl ⟨_, rfl⟩))
    · cases hs
  case h_8 m hp =>
    split at hs
    · obtain ⟨x, hx⟩ := hpr hp rfl
      simp_all
    · split at hs <;> cases hs
      · cases m
        · exact h.mem2 hp
        · exact h.mem hp (.inr (.inr rfl)) rfl
      · exact h.throw hp (.inr (.inr ⟨_, rfl⟩))
  case h_9 hp =>
    split at hs
    · cases hs
    · split at hs <;> cases hs
      · exact h.decideY hp ‹_› (.inl ‹_›)
      · exact h.decideY hp ‹_› (.inr ‹_›)
      · exact h.decideL hp ‹_› ‹_›
      · exact h.decideF hp ‹_› ‹_›
      · exact absurd ‹_› (hP _)
  case h_10 b hp =>
    split at hs <;> cases hs
    exact h.yield hp
  case h_11 b r hp =>
    cases hs
    obtain ⟨hm, hq, hr, hj, ⟨x, hx⟩, hdn⟩ := h.main hp rfl
    have hz := h.due0 (by simp [hm]) (by simp [hq, Pc.own])
    have : suspend n s = true := by
      rcases n with _ | n
      · simp [suspend]
      · simp [suspend]; exact ⟨0, by omega, by simp [hz]⟩
    rw [show (if suspend n s = true then (if s.down = true then n else 0) + 1 else 1) = n + 1 by simp [this, hdn]]
    exact h.bcast hp
  case h_12 b r k hp =>
    obtain ⟨hm, hq, hr, hj, ⟨x, hx⟩, hdn⟩ := h.main hp rfl
    split at hs <;> cases hs
    · exact h.send hp (by omega)
    · exact h.sent hp (by simp_all)
  case h_13 b hp =>
    split at hs <;> cases hs
    · exact h.own1F hp ‹_›
    · exact h.own12 hp (by simpa using ‹¬ s.final = true›)
  case h_14 b hp =>
    split at hs <;> cases hs
    exact h.own2 hp ‹_›
  case h_15 hp => exact (h.noTimeout hp rfl).elim
  case h_16 hp =>
    cases hs
    by_cases hc : s.q ≠ [] ∨ s.closeQ = true
    · have hf : s.final = false := by
        rcases hf : s.final with _ | _
        · rfl
        · have := h.fi hf; simp_all
      have := h.taskDone hp hc
      simpa [hc, hf, run, spawn] using this
    · have hc1 : s.q = [] := by simpa using fun h => hc (.inl h)
      have hc2 : s.closeQ = false := by simpa using fun h => hc (.inr h)
      have := h.taskDone0 hp hc1 hc2
      simpa [hc1, hc2] using this
  case h_17 hp => cases hs; exact h.clear hp
  case h_18 hp => cases hs; exact h.unlock hp
  case h_19 hp =>
    split at hs
    · obtain ⟨x, hx⟩ := hpr hp rfl
      simp_all
    · cases hs; exact h.later hp
  case h_20 hp => exact (h.noTimeout hp rfl).elim
  case h_21 hp => exact (h.noTimeout hp rfl).elim
  case h_22 hp =>
    cases hs
    by_cases hr : s.ready = true ∧ s.running = false
    · have := h.wake hr.2 (h.c1 j hp).2 (.inl ⟨hp, rfl⟩)
      simpa [hr] using this
    · have := h.close2 hp hr
      simpa [hr] using this
  case h_23 hp =>
    cases hs
    by_cases hr : (s.q ≠ [] ∨ s.closeQ = true) ∧ s.running = false
    · have hf : s.final = false := by
        rcases hf : s.final with _ | _
        · rfl
        · have := h.fi hf; simp_all
      have := h.wake hr.2 hf (.inr ⟨hp, rfl⟩)
      simpa [hr] using this
    · have := h.ready2 hp hr
      simpa [hr] using this

theorem Inv.step (hP : Untimed P) (h : Inv P n s) {a : Act} (hs : step P n s a = .ok s') : Inv P n s' := by
  cases a with
  | job j => exact h.job hP hs
  | fail j =>
    simp only [Process.step] at hs
    split at hs <;> cases hs
    exact h.fail ‹_›
  | send m =>
    simp only [Process.step] at hs
    split at hs <;> cases hs
    by_cases hr : s.ready = true ∧ s.running = false
    · have := h.sendRun (m := m) ‹_› hr.2
      simpa [enqueue, hr] using this
    · have := h.sendNo (m := m) ‹_› hr
      have hac := h.ac
      simp only [enqueue]
      rw [if_neg (by simpa [hac] using hr)]
      exact this
  | copySender =>
    simp only [Process.step] at hs
    split at hs <;> cases hs
    exact h.snd ‹_› (by omega)
  | dropSender =>
    simp only [Process.step] at hs
    split at hs
    · cases hs
    · split at hs <;> cases hs
      · exact h.drop ‹_›
      · exact h.snd ‹_› (by omega)
  | ready =>
    simp only [Process.step] at hs
    split at hs <;> cases hs
    exact h.ready
  | pop k =>
    simp only [Process.step] at hs
    split at hs
    · split at hs <;> cases hs
      rename_i m q hd hc
      have := h.dq1 k
      have hq : q = [] := by
        rcases q with _ | ⟨_, _⟩
        · rfl
        · rw [hd] at this; simp at this; omega
      subst hq
      simpa using h.pop hd hc
    · cases hs
  | cts k =>
    simp only [Process.step] at hs
    split at hs
    · cases hs
    · cases hs
      rename_i hc
      by_cases hf : s.final = true
      · rw [if_pos hf]; exact h.ctsF (by simp [hc]) hf
      · rw [if_neg hf]; exact h.cts1 hc (by simpa using hf)
    · split at hs <;> cases hs
      exact h.cts2C ‹_› ‹_›

theorem inv (hP : Untimed P) (h : Reachable P n s) : Inv P n s := by
  induction h with
  | init => exact init_inv P n
  | step _ hs ih => exact ih.step hP hs

end Verif.Process
