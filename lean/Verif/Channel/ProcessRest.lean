import Verif.Channel.ProcessTimed

/-!
# Nothing is forgotten, also by processes that await with a time-out
-/

namespace Verif.Process

open Verif.Channel (Msg sumTo upd)

variable {σ : Type} {P : Proc σ} {n : Nat} {s s' : St σ}

theorem Over.move {s1 : St σ} {j : Nat} {p : Pc} (h : Over s1) (hp : p ≠ .close2) : Over (goto j p s1) :=
  ⟨h.1, h.2.1, fun i => by simp only [goto, upd_apply]; split; exact hp; exact h.2.2 i⟩

theorem Over.fork {s1 : St σ} {p : Pc} (h : Over s1) (hp : p ≠ .close2) : Over (spawn p s1) :=
  ⟨h.1, h.2.1, fun i => by simp only [spawn, upd_apply]; split; exact hp; exact h.2.2 i⟩

theorem Over.runs {s1 : St σ} (h : Over s1) : Over (run s1) := h.fork (p := .start) (by simp)

theorem Over.crit {s1 : St σ} {x : σ} (h : Over s1) : Over (ctsCrit P x s1) := by
  simp only [ctsCrit]
  split
  · split
    · exact Over.runs h
    · exact h
  · exact h

theorem Over.back {s1 : St σ} {j : Nat} {b : By} (h : Over s1) : Over (back j b s1) := by
  cases b <;> exact h.move (by simp)

theorem Over.step (h : Over s) {a : Act} (hs : Process.step P n s a = .ok s') : Over s' := by
  cases a with
  | job j =>
    simp only [Process.step] at hs
    unfold stepJob at hs
    split at hs
    case h_3 => split at hs <;> cases hs; exact Over.move h (by split <;> simp)
    case h_4 => split at hs <;> cases hs <;> exact Over.move (by exact ⟨h.1, by first | rfl | exact h.2.1, h.2.2⟩) (by simp)
    case h_8 => repeat' split at hs
                all_goals cases hs
                all_goals exact Over.move h (by first | simp; done | (split <;> simp))
    case h_9 =>
      split at hs
      · cases hs
      · split at hs <;> cases hs
        case h_3 => exact Over.move (Over.fork h (by simp)) (by simp)
        case h_5 => exact Over.move (Over.fork h (by simp)) (by simp)
        all_goals exact Over.move h (by simp)
    case h_13 b hp =>
      split at hs <;> cases hs
      · exact Over.back h
      · exact Over.move h (by simp)
    case h_14 b hp =>
      split at hs <;> cases hs
      exact Over.back (Over.crit h)
    case h_16 =>
      cases hs
      refine Over.move ?_ (by (repeat' split) <;> simp)
      split
      · exact Over.runs h
      · exact h
    case h_21 => split at hs <;> cases hs; exact Over.move h (by split <;> simp)
    case h_22 hp => exact absurd hp (h.2.2 j)
    case h_23 =>
      cases hs
      split
      · exact Over.runs (Over.move h (by simp))
      · exact Over.move h (by simp)
    all_goals
      repeat' split at hs
      all_goals try cases hs
    all_goals exact Over.move h (by simp)
  | fail j =>
    simp only [Process.step] at hs
    split at hs <;> cases hs
    exact Over.runs (Over.move h (by simp))
  | send m => simp [Process.step, h.1] at hs
  | copySender => simp [Process.step, h.1] at hs
  | dropSender => simp [Process.step, h.1] at hs
  | ready =>
    simp only [Process.step] at hs
    split at hs <;> cases hs
    exact Over.fork h (by simp)
  | pop k =>
    simp only [Process.step] at hs
    repeat' split at hs
    all_goals cases hs
    all_goals exact h
  | cts k =>
    simp only [Process.step] at hs
    repeat' split at hs
    all_goals cases hs
    · exact h
    · exact h
    · exact Over.crit h

/-- The number of calls of `clear_to_send` that are to come is at least `_process_suspend_count`. -/
def Sp (n : Nat) (s : St σ) : Prop := Over s ∨ ∃ (a : Nat) (b : Nat → Nat), s.susp ≤ a + sumTo n b ∧ a ≤ 1 ∧
  (a ≠ 0 → ∃ j, (s.pc j).own = 1) ∧
  ∀ k, b k ≤ 1 ∧ (b k ≠ 0 → s.dq k ≠ [] ∨ s.cts k ≠ .none ∨ ∃ j, (s.pc j).toSend k = 1)

/-- A result is on its way to receiver `k`, or `clear_to_send` by it. -/
def OnWay (s : St σ) (k : Nat) : Prop := s.dq k ≠ [] ∨ s.cts k ≠ .none ∨ ∃ j, (s.pc j).toSend k = 1

theorem Sp.mono (h : Sp n s) (ho : Over s → Over s') (h1 : s'.susp ≤ s.susp) (h2 : ∀ j, (s.pc j).own = 1 → (s'.pc j).own = 1)
    (h3 : ∀ k, OnWay s k → OnWay s' k) : Sp n s' := by
  rcases h with h | ⟨a, b, e1, e2, e3, e4⟩
  · exact .inl (ho h)
  · refine .inr ⟨a, b, by omega, e2, fun h0 => ?_, fun k => ⟨(e4 k).1, fun h0 => h3 k ((e4 k).2 h0)⟩⟩
    obtain ⟨j, hj⟩ := e3 h0
    exact ⟨j, h2 j hj⟩

theorem Pc.own_of_toSend {p : Pc} {k : Nat} (h : p.toSend k = 1) : p.own = 1 := by
  revert h; cases p <;> simp [Pc.toSend, Pc.own]

/-- Thread `j` moves, and others may be started. -/
theorem Sp.move (h : Sp n s) {s1 : St σ} {j : Nat} {p : Pc} (hp : s.pc j = p) (ho : Over s → Over s1)
    (h1 : s1.susp ≤ s.susp) (h2 : ∀ i, i ≠ j → s.pc i ≠ .none → s1.pc i = s.pc i)
    (h3 : s1.dq = s.dq ∧ s1.cts = s.cts) (h4 : p.own = 1 → (s1.pc j).own = 1 ∧ ∀ k, p.toSend k = 1 → (s1.pc j).toSend k = 1) :
    Sp n s1 := by
  refine h.mono ho h1 (fun i hi => ?_) (fun k hk => ?_)
  · by_cases hij : i = j
    · subst hij; rw [hp] at hi; exact (h4 hi).1
    · rw [h2 i hij (by intro h; rw [h] at hi; cases hi)]; exact hi
  · rcases hk with hk | hk | ⟨i, hk⟩
    · exact .inl (by rw [h3.1]; exact hk)
    · exact .inr (.inl (by rw [h3.2]; exact hk))
    · refine .inr (.inr ⟨i, ?_⟩)
      by_cases hij : i = j
      · subst hij; rw [hp] at hk; exact (h4 (Pc.own_of_toSend hk)).2 k hk
      · rw [h2 i hij (by intro h; rw [h] at hk; cases hk)]; exact hk

/-- Nothing happens to the threads, except that others may be started. -/
theorem Sp.same (h : Sp n s) {s1 : St σ} (ho : Over s → Over s1)
    (h1 : s1.susp ≤ s.susp) (h2 : ∀ i, s.pc i ≠ .none → s1.pc i = s.pc i)
    (h3 : s1.dq = s.dq ∧ s1.cts = s.cts) : Sp n s1 := by
  refine h.mono ho h1 (fun i hi => ?_) (fun k hk => ?_)
  · rw [h2 i (by intro h; rw [h] at hi; cases hi)]; exact hi
  · rcases hk with hk | hk | ⟨i, hk⟩
    · exact .inl (by rw [h3.1]; exact hk)
    · exact .inr (.inl (by rw [h3.2]; exact hk))
    · exact .inr (.inr ⟨i, by rw [h2 i (by intro h; rw [h] at hk; cases hk)]; exact hk⟩)

theorem crit_same {x : σ} {s1 : St σ} : (ctsCrit P x s1).susp = s1.susp - 1 ∧ (ctsCrit P x s1).dq = s1.dq ∧ (ctsCrit P x s1).cts = s1.cts ∧
    (ctsCrit P x s1).proc = s1.proc ∧ ∀ i, i < s1.next → (ctsCrit P x s1).pc i = s1.pc i := by
  refine ⟨?_, ?_, ?_, ?_, fun i hi => ctsCrit_pc rfl hi⟩
  all_goals
    simp only [ctsCrit]
    split
    · split <;> rfl
    · rfl

theorem sumTo_upd_le {b : Nat → Nat} {k : Nat} (hk : b k ≤ 1) : ∀ n, sumTo n b ≤ sumTo n (upd b k 0) + 1
  | 0 => by simp [sumTo]
  | n + 1 => by
    simp only [sumTo]
    by_cases hn : n = k
    · subst hn
      have : sumTo n (upd b n 0) = sumTo n b := by
        clear hk
        have : ∀ m, m ≤ n → sumTo m (upd b n 0) = sumTo m b := by
          intro m hm
          induction m with
          | zero => rfl
          | succ m ih =>
            simp only [sumTo]
            rw [ih (by omega)]
            have : m ≠ n := by omega
            simp [upd, this]
        exact this n (Nat.le_refl n)
      rw [this]; omega
    · have := sumTo_upd_le hk n
      have h2 : upd b k 0 n = b n := by simp [upd, hn]
      rw [h2]; omega

theorem Sp.own2 (h : Sp n s) {s1 : St σ} {j : Nat} {b : By} (hp : s.pc j = .own2 b) (ho : Over s → Over s1)
    (h1 : s1.susp = s.susp - 1) (h2 : ∀ i, i ≠ j → s.pc i ≠ .none → s1.pc i = s.pc i)
    (h3 : s1.dq = s.dq ∧ s1.cts = s.cts) : Sp n s1 := by
  rcases h with h | ⟨a, b, e1, e2, e3, e4⟩
  · exact .inl (ho h)
  · refine .inr ⟨0, b, by omega, by omega, by simp, fun k => ⟨(e4 k).1, fun h0 => ?_⟩⟩
    rcases (e4 k).2 h0 with hk | hk | ⟨i, hk⟩
    · exact .inl (by rw [h3.1]; exact hk)
    · exact .inr (.inl (by rw [h3.2]; exact hk))
    · refine .inr (.inr ⟨i, ?_⟩)
      have hij : i ≠ j := by rintro rfl; rw [hp] at hk; cases hk
      rw [h2 i hij (by intro h; rw [h] at hk; cases hk)]; exact hk

theorem Sp.bcast {s1 : St σ} {j : Nat} {b : By} {r : Msg} (hp : s1.pc j = .send b r 0) (h1 : s1.susp ≤ n + 1) : Sp n s1 :=
  .inr ⟨1, fun _ => 1, by rw [sumTo_one]; omega, by omega, fun _ => ⟨j, by rw [hp]; rfl⟩,
    fun k => ⟨Nat.le_refl _, fun _ => .inr (.inr ⟨j, by rw [hp]; simp [Pc.toSend]⟩)⟩⟩

theorem Sp.cts (h : Sp n s) {s1 : St σ} {k : Nat} (ho : Over s → Over s1)
    (h1 : s1.susp = s.susp - 1) (h2 : ∀ i, s.pc i ≠ .none → s1.pc i = s.pc i)
    (h3 : s1.dq = s.dq ∧ s1.cts = upd s.cts k .none) : Sp n s1 := by
  rcases h with h | ⟨a, b, e1, e2, e3, e4⟩
  · exact .inl (ho h)
  · have := sumTo_upd_le (e4 k).1 n
    refine .inr ⟨a, upd b k 0, by omega, e2, fun h0 => ?_, fun i => ⟨?_, fun h0 => ?_⟩⟩
    · obtain ⟨j, hj⟩ := e3 h0
      exact ⟨j, by rw [h2 j (by intro h; rw [h] at hj; cases hj)]; exact hj⟩
    · simp only [upd_apply]; split; omega; exact (e4 i).1
    · simp only [upd_apply] at h0
      split at h0
      · exact absurd rfl h0
      · rename_i hik
        rcases (e4 i).2 h0 with hk | hk | ⟨j, hk⟩
        · exact .inl (by rw [h3.1]; exact hk)
        · exact .inr (.inl (by rw [h3.2]; simpa [upd, hik] using hk))
        · exact .inr (.inr ⟨j, by rw [h2 j (by intro h; rw [h] at hk; cases hk)]; exact hk⟩)

/-- The connection to the receivers is only given up when all senders are gone. -/
theorem down_step (hw : Wide s) (h : s.down = false → Over s) {a : Act} (hs : Process.step P n s a = .ok s') : s'.down = false → Over s' := by
  have key : s'.down = s.down ∨ ∃ j, s.pc j = .clear := by
    cases a with
    | job j =>
      simp only [Process.step] at hs
      unfold stepJob at hs
      split at hs
      case h_17 hp => exact .inr ⟨j, hp⟩
      case h_14 b hp =>
        split at hs <;> cases hs
        left; simp only [ctsCrit]; cases b <;> (simp only [back, goto]; repeat' split) <;> rfl
      case h_13 b hp =>
        split at hs <;> cases hs
        · left; cases b <;> rfl
        · left; rfl
      case h_16 => cases hs; left; simp only [goto]; split <;> rfl
      case h_22 => cases hs; left; split <;> rfl
      case h_23 => cases hs; left; split <;> rfl
      all_goals
        repeat' split at hs
        all_goals try cases hs
      all_goals exact .inl rfl
    | send m => 
      simp only [Process.step] at hs
      split at hs <;> cases hs
      left; simp only [enqueue]; split <;> rfl
    | cts k =>
      simp only [Process.step] at hs
      repeat' split at hs
      all_goals try cases hs
      · exact .inl rfl
      · exact .inl rfl
      · left; simp only [ctsCrit]; (repeat' split) <;> rfl
    | _ =>
      simp only [Process.step] at hs
      repeat' split at hs
      all_goals try cases hs
      all_goals exact .inl rfl
  intro hd
  rcases key with h1 | ⟨j, hj⟩
  · exact (h (by rw [← h1]; exact hd)).step hs
  · exact (hw.cl j hj).step hs

theorem Sp.job (h : Sp n s) (hw : Wide s) (hd0 : s.down = false → Over s) {j : Nat} (hs : stepJob P n j s = .ok s') : Sp n s' := by
  have ho : Over s → Over s' := fun h => h.step (a := .job j) hs
  have hne : ∀ {i}, s.pc i ≠ .none → i ≠ s.next := fun h1 h2 => h1 (hw.fr _ (by omega))
  unfold stepJob at hs
  split at hs
  case h_1 => cases hs
  case h_9 hp =>
    split at hs
    · cases hs
    · split at hs <;> cases hs
      all_goals exact h.move hp ho (Nat.le_refl _) (fun i hij hn => by simp [goto, spawn, upd, hij, hne hn]) ⟨rfl, rfl⟩ (by simp [Pc.own])
  case h_11 b r hp =>
    cases hs
    refine Sp.bcast (j := j) (b := b) (r := r) (by simp [goto, upd]) ?_
    simp only [goto]
    repeat' split
    all_goals omega
  case h_12 b r k hp =>
    split at hs <;> cases hs
    · refine h.mono ho (Nat.le_refl _) (fun i hi => ?_) (fun i hi => ?_)
      · simp only [goto, upd_apply]; split
        · rfl
        · exact hi
      · rcases hi with hi | hi | ⟨i', hi⟩
        · refine .inl ?_
          simp only [goto, upd_apply]; split
          · simp
          · exact hi
        · exact .inr (.inl hi)
        · by_cases hij : i' = j
          · subst hij
            rw [hp] at hi
            simp only [Pc.toSend] at hi
            by_cases hik : i = k
            · subst hik; exact .inl (by simp [goto, upd])
            · refine .inr (.inr ⟨i', ?_⟩)
              simp [goto, upd, Pc.toSend]
              split at hi <;> omega
          · exact .inr (.inr ⟨i', by simp [goto, upd, hij]; exact hi⟩)
    · rename_i hc
      by_cases hd : s.down = true
      · have hk : n ≤ k := by simp_all
        refine h.elim (fun h => .inl (ho h)) fun ⟨a, b', e1, e2, e3, e4⟩ => .inr ⟨a, fun i => if i < n then b' i else 0, ?_, e2, ?_, ?_⟩
        · have : sumTo n b' = sumTo n (fun i => if i < n then b' i else 0) := Channel.sumTo_congr fun i hi => by simp [hi]
          simp only [goto]; omega
        · intro _; exact ⟨j, by simp [goto, upd, Pc.own]⟩
        · intro i
          refine ⟨?_, fun h0 => ?_⟩
          · dsimp only; split; exact (e4 i).1; omega
          · have hi : i < n := Nat.lt_of_not_le fun hl => h0 (by simp [Nat.not_lt.2 hl])
            rcases (e4 i).2 (by simpa [hi] using h0) with hx | hx | ⟨i', hx⟩
            · exact .inl hx
            · exact .inr (.inl hx)
            · refine .inr (.inr ⟨i', ?_⟩)
              have hij : i' ≠ j := by
                rintro rfl
                rw [hp] at hx
                simp only [Pc.toSend] at hx
                split at hx <;> omega
              simp [goto, upd, hij]; exact hx
      · exact .inl (ho (hd0 (by simpa using hd)))
  case h_13 b hp =>
    split at hs <;> cases hs
    · exact .inl (ho (hw.fi ‹_›))
    · exact h.move hp ho (Nat.le_refl _) (fun i hij hn => by simp [goto, upd, hij]) ⟨rfl, rfl⟩ (by simp [Pc.own, goto, upd, Pc.toSend])
  case h_14 b hp =>
    split at hs <;> cases hs
    rename_i x hx
    have hc := crit_same (P := P) (x := x) (s1 := { s with main := none })
    have hl : ∀ i, i ≠ j → (back j b (ctsCrit P x { s with main := none })).pc i = (ctsCrit P x { s with main := none }).pc i := by
      intro i hij; cases b <;> simp [back, goto, upd, hij]
    refine h.own2 hp ho ?_ (fun i hij hn => ?_) ?_
    · cases b <;> exact hc.1
    · rw [hl i hij]; exact hc.2.2.2.2 i (hw.lt rfl hn)
    · cases b <;> exact ⟨hc.2.1, hc.2.2.1⟩
  case h_16 hp =>
    cases hs
    refine h.move hp ho ?_ (fun i hij hn => ?_) ?_ (by simp [Pc.own])
    · simp only [goto]; split <;> exact Nat.le_refl _
    · simp only [goto, upd, hij, if_false]
      split
      · simp [run, spawn, upd, hne hn]
      · rfl
    · constructor <;> (simp only [goto]; split <;> rfl)
  case h_22 hp =>
    cases hs
    refine h.move hp ho ?_ (fun i hij hn => ?_) ?_ (by simp [Pc.own])
    · split <;> exact Nat.le_refl _
    · split
      · simp [goto, run, spawn, upd, hne hn, hij]
      · simp [goto, upd, hij]
    · split <;> exact ⟨rfl, rfl⟩
  case h_23 hp =>
    cases hs
    refine h.move hp ho ?_ (fun i hij hn => ?_) ?_ (by simp [Pc.own])
    · split <;> exact Nat.le_refl _
    · split
      · simp [goto, run, spawn, upd, hne hn, hij]
      · simp [goto, upd, hij]
    · split <;> exact ⟨rfl, rfl⟩
  all_goals
    rename_i hp
    repeat' split at hs
    all_goals try cases hs
  all_goals exact h.move hp ho (Nat.le_refl _) (fun i hij hn => by simp [goto, upd, hij]) ⟨rfl, rfl⟩ (by simp [Pc.own])

theorem Sp.step (h : Sp n s) (hw : Wide s) (hd0 : s.down = false → Over s) {a : Act} (hs : Process.step P n s a = .ok s') : Sp n s' := by
  have ho : Over s → Over s' := fun h => h.step hs
  have hne : ∀ {i}, s.pc i ≠ .none → i ≠ s.next := fun h1 h2 => h1 (hw.fr _ (by omega))
  cases a with
  | job j => exact h.job hw hd0 hs
  | fail j =>
    simp only [Process.step] at hs
    split at hs <;> cases hs
    rename_i hp
    exact h.move hp ho (Nat.le_refl _) (fun i hij hn => by simp [goto, run, spawn, upd, hij, hne hn]) ⟨rfl, rfl⟩ (by simp [Pc.own])
  | send m =>
    simp only [Process.step] at hs
    split at hs <;> cases hs
    refine h.same ho ?_ (fun i hn => ?_) ?_
    · simp only [enqueue]; split <;> exact Nat.le_refl _
    · simp only [enqueue]; split
      · simp [run, spawn, upd, hne hn]
      · rfl
    · simp only [enqueue]; split <;> exact ⟨rfl, rfl⟩
  | pop k =>
    simp only [Process.step] at hs
    split at hs
    · split at hs <;> cases hs
      rename_i m q hd hc
      refine h.mono ho (Nat.le_refl _) (fun i hi => hi) (fun i hi => ?_)
      by_cases hik : i = k
      · subst hik
        by_cases hq : q = []
        · exact .inr (.inl (by simp [upd, hq]))
        · exact .inl (by simp [upd, hq])
      · rcases hi with hi | hi | hi
        · exact .inl (by simpa [upd, hik] using hi)
        · exact .inr (.inl (by simpa [upd, hik] using hi))
        · exact .inr (.inr hi)
    · cases hs
  | cts k =>
    simp only [Process.step] at hs
    split at hs
    · cases hs
    · cases hs
      rename_i hc
      rcases hf : s.final with _ | _
      · refine h.mono (fun h => h) (Nat.le_refl _) (fun i hi => hi) (fun i hi => ?_)
        rcases hi with hi | hi | hi
        · exact .inl hi
        · refine .inr (.inl ?_)
          by_cases hik : i = k <;> simp [upd, hik]
          exact hi
        · exact .inr (.inr hi)
      · exact .inl (hw.fi hf)
    · split at hs <;> cases hs
      rename_i x hx
      have hc := crit_same (P := P) (x := x) (s1 := { s with cts := upd s.cts k .none })
      exact h.cts (k := k) ho hc.1 (fun i hn => hc.2.2.2.2 i (hw.lt rfl hn)) ⟨hc.2.1, hc.2.2.1⟩
  | _ =>
    simp only [Process.step] at hs
    repeat' split at hs
    all_goals try cases hs
    all_goals exact h.same ho (Nat.le_refl _) (fun i hn => by simp [spawn, upd, hne hn]) ⟨rfl, rfl⟩

theorem down_over (h : Reachable P n s) : s.down = false → Over s := by
  induction h with
  | init => intro h; cases h
  | step h hs ih => exact down_step (wide h) ih hs

theorem sp (h : Reachable P n s) : Sp n s := by
  induction h with
  | init => exact .inr ⟨0, fun _ => 0, by simp [init], by omega, by simp, fun k => by simp⟩
  | step h hs ih => exact ih.step (wide h) (down_over h) hs

/-! ## Who goes on -/

/-- The senders are gone, or `clear_to_send` is going to be called, or a thread other than `e` is going to call it or
`task_done`. -/
def Live (e : Option Nat) (s : St σ) : Prop := Over s ∨ 0 < s.susp ∨ ∃ i, some i ≠ e ∧ (s.pc i).isMain = true

/-- The process object is not in a `yield` state. -/
def Still (P : Proc σ) (s : St σ) : Prop := ∀ x, s.proc = some x → (P.state x).isYield = false

/-- A time-out has been set. -/
def Tm (s : St σ) : Prop := ∃ j, s.pc j = .timeout ∨ s.pc j = .timeout2

structure Busy (P : Proc σ) (s : St σ) : Prop where
  w : s.running = true → Live none s ∨ (Tm s ∧ s.active = true)
  y : s.running = true ∨ Tm s → Still P s ∨ Live none s
  a : s.running = false → (∀ x, s.proc = some x → (P.state x).isYield = false ∨ x = P.start) ∨ Live none s
  td : ∀ j, s.pc j = .taskDone → Still P s ∨ Live (some j) s
  ia : ∀ j, s.pc j = .inactive → s.running = true → Live none s

theorem Busy.of_live (h : ∀ e, Live e s) : Busy P s :=
  ⟨fun _ => .inl (h _), fun _ => .inr (h _), fun _ => .inr (h _), fun _ _ => .inr (h _), fun _ _ _ => h _⟩

theorem Busy.of_over (h : Over s) : Busy P s := .of_live fun _ => .inl h

theorem Busy.of_susp (h : 0 < s.susp) : Busy P s := .of_live fun _ => .inr (.inl h)

theorem Busy.of_main {j : Nat} (hj : (s.pc j).isMain = true) (ht : s.pc j = .taskDone → Still P s) : Busy P s := by
  have hl : Live none s := .inr (.inr ⟨j, by simp, hj⟩)
  refine ⟨fun _ => .inl hl, fun _ => .inr hl, fun _ => .inr hl, fun i hi => ?_, fun _ _ _ => hl⟩
  by_cases hij : i = j
  · subst hij; exact .inl (ht hi)
  · exact .inr (.inr (.inr ⟨j, by simpa using fun h : j = i => hij h.symm, hj⟩))

theorem Busy.of_run {s1 : St σ} : Busy P (run s1) :=
  .of_main (j := s1.next) (by simp [run, spawn, upd, Pc.isMain]) (by simp [run, spawn, upd])

theorem Live.mono {e : Option Nat} (h : Live e s) (ho : Over s → Over s') (h1 : s'.susp = s.susp)
    (h2 : ∀ i, (s.pc i).isMain = true → s'.pc i = s.pc i) : Live e s' := by
  rcases h with h | h | ⟨i, h, hi⟩
  · exact .inl (ho h)
  · exact .inr (.inl (by rw [h1]; exact h))
  · exact .inr (.inr ⟨i, h, by rw [h2 i hi]; exact hi⟩)

/-- A step that does not concern the process. -/
theorem Busy.frame (h : Busy P s) (ho : Over s → Over s') (h1 : s'.susp = s.susp)
    (h2 : ∀ i, (s.pc i).isMain = true → s'.pc i = s.pc i) (h3 : s'.proc = s.proc) (h4 : s'.running = s.running)
    (h5 : Tm s ↔ Tm s') (h6 : ∀ i, s'.pc i = .taskDone → s.pc i = .taskDone) (h7 : s'.active = s.active)
    (h8 : ∀ i, s'.pc i = .inactive → s.pc i = .inactive) : Busy P s' := by
  have hst : Still P s → Still P s' := fun h x hx => h x (by rw [← h3]; exact hx)
  refine ⟨fun hr => ?_, fun hr => ?_, fun hr => ?_, fun j hj => ?_,
    fun j hj hr => (h.ia j (h8 j hj) (by rw [← h4]; exact hr)).mono ho h1 h2⟩
  · rcases h.w (by rw [← h4]; exact hr) with h | h
    · exact .inl (h.mono ho h1 h2)
    · exact .inr ⟨h5.1 h.1, by rw [h7]; exact h.2⟩
  · rcases h.y (hr.imp (fun hr => by rw [← h4]; exact hr) h5.2) with h | h
    · exact .inl (hst h)
    · exact .inr (h.mono ho h1 h2)
  · rcases h.a (by rw [← h4]; exact hr) with h | h
    · exact .inl fun x hx => h x (by rw [← h3]; exact hx)
    · exact .inr (h.mono ho h1 h2)
  · rcases h.td j (h6 j hj) with h | h
    · exact .inl (hst h)
    · exact .inr (h.mono ho h1 h2)

/-- A thread moves between two places where it is of no importance. -/
theorem Busy.move (h : Busy P s) {s1 : St σ} {j : Nat} {p : Pc} (hp : s.pc j = p) (ho : Over s → Over s1) (h1 : s1.susp = s.susp)
    (h2 : ∀ i, i ≠ j → s1.pc i = s.pc i) (h3 : s1.proc = s.proc) (h4 : s1.running = s.running)
    (h5 : p.isMain = false ∧ (s1.pc j).isMain = false)
    (h6 : p = .timeout ∨ p = .timeout2 ↔ s1.pc j = .timeout ∨ s1.pc j = .timeout2) (h7 : s1.active = s.active)
    (h8 : s1.pc j ≠ .inactive) : Busy P s1 := by
  refine h.frame ho h1 (fun i hi => ?_) h3 h4 ⟨fun ⟨i, hi⟩ => ?_, fun ⟨i, hi⟩ => ?_⟩ (fun i hi => ?_) h7 (fun i hi => ?_)
  · by_cases hij : i = j
    · subst hij; rw [hp, h5.1] at hi; cases hi
    · exact h2 i hij
  · by_cases hij : i = j
    · subst hij; rw [hp] at hi; exact ⟨i, h6.1 hi⟩
    · exact ⟨i, by rw [h2 i hij]; exact hi⟩
  · by_cases hij : i = j
    · subst hij; exact ⟨i, by rw [hp]; exact h6.2 hi⟩
    · exact ⟨i, by rw [← h2 i hij]; exact hi⟩
  · by_cases hij : i = j
    · subst hij; have := h5.2; rw [hi] at this; cases this
    · rw [← h2 i hij]; exact hi
  · by_cases hij : i = j
    · subst hij; exact absurd hi h8
    · rw [← h2 i hij]; exact hi

/-- `clear_to_send` by a thread that is of no importance after that, or by a receiver. -/
theorem Busy.crit {x : σ} {s1 s2 : St σ} (hx : s1.proc = some x) 
    (h1 : s2.susp = (ctsCrit P x s1).susp) (h2 : ∀ i, (ctsCrit P x s1).pc i = .start → s2.pc i = .start)
    (h3 : s2.proc = (ctsCrit P x s1).proc) (h4 : s2.running = (ctsCrit P x s1).running) : Busy P s2 := by
  by_cases h0 : s1.susp - 1 = 0
  · by_cases hc : (P.state x).isYield = true ∨ s1.q ≠ [] ∨ s1.closeQ = true
    · have hl := h2 s1.next (by simp only [ctsCrit]; rw [if_pos h0, if_pos hc]; simp [run, spawn, upd])
      exact .of_main (j := s1.next) (by rw [hl]; rfl) (by rw [hl]; simp)
    · have h5 : (ctsCrit P x s1) = { s1 with susp := s1.susp - 1, running := false } := by
        simp only [ctsCrit]; rw [if_pos h0, if_neg hc]
      rw [h5] at h3 h4
      have hst : Still P s2 := by
        intro y hy
        rw [h3] at hy
        simp only [hx, Option.some.injEq] at hy
        subst hy
        simpa using fun h => hc (.inl h)
      refine ⟨fun hr => ?_, fun _ => .inl hst, fun _ => .inl fun y hy => .inl (hst y hy), fun _ _ => .inl hst, fun _ _ hr => ?_⟩ <;>
      · rw [h4] at hr; cases hr
  · refine .of_susp ?_
    rw [h1, crit_same.1]; omega

theorem Busy.job (h : Busy P s) (hw : Wide s) {j : Nat} (hs : stepJob P n j s = .ok s') : Busy P s' := by
  have ho : Over s → Over s' := fun h => h.step (a := .job j) hs
  have hne : ∀ {i}, s.pc i ≠ .none → i ≠ s.next := fun h1 h2 => h1 (hw.fr _ (by omega))
  unfold stepJob at hs
  split at hs
  case h_1 => cases hs
  case h_3 => split at hs <;> cases hs; exact .of_main (j := j) (by simp [goto, upd]; split <;> rfl) (by simp [goto, upd]; split <;> simp)
  case h_8 m hp =>
    repeat' split at hs
    all_goals cases hs
    all_goals exact .of_main (j := j) (by cases m <;> simp [goto, upd, Pc.isMain]) (by cases m <;> simp [goto, upd])
  case h_9 hp =>
    split at hs
    · cases hs
    · rename_i x hx
      split at hs <;> cases hs
      case h_3 => exact .of_main (j := s.next) (by simp [goto, spawn, upd, Ne.symm (hne (i := j) (by simp [hp])), Pc.isMain])
                    (by simp [goto, spawn, upd, Ne.symm (hne (i := j) (by simp [hp]))])
      case h_4 hst =>
        refine .of_main (j := j) (by simp [goto, upd, Pc.isMain]) fun _ y hy => ?_
        simp only [goto] at hy
        rw [hx] at hy; cases hy; simp [hst, PState.isYield]
      case h_5 hst =>
        have hs : Still P (goto j .unlock (spawn .timeout { s with active := true, main := none })) := by
          intro y hy
          simp only [goto, spawn] at hy
          rw [hx] at hy; cases hy; simp [hst, PState.isYield]
        refine ⟨fun _ => .inr ⟨⟨s.next, ?_⟩, rfl⟩, fun _ => .inl hs, fun _ => .inl fun y hy => .inl (hs y hy), fun _ _ => .inl hs,
          fun i hi _ => ?_⟩
        · simp [goto, spawn, upd, Ne.symm (hne (i := j) (by simp [hp]))]
        · have hij : i ≠ j := by rintro rfl; simp [goto, upd] at hi
          have hin : i ≠ s.next := by rintro rfl; simp [goto, spawn, upd, hij] at hi
          have hi' : s.pc i = .inactive := by simpa [goto, spawn, upd, hij, hin] using hi
          exact absurd (Option.some.inj ((hw.owner hi' rfl).1.symm.trans (hw.owner hp rfl).1)) hij
      all_goals exact .of_main (j := j) (by simp [goto, upd, Pc.isMain]) (by simp [goto, upd])
  case h_13 b hp =>
    split at hs <;> cases hs
    · exact .of_over (ho (hw.fi ‹_›))
    · exact .of_main (j := j) (by simp [goto, upd, Pc.isMain]) (by simp [goto, upd])
  case h_14 b hp =>
    split at hs <;> cases hs
    rename_i x hx
    have hl : ∀ i, i ≠ j → (back j b (ctsCrit P x { s with main := none })).pc i = (ctsCrit P x { s with main := none }).pc i := by
      intro i hij; cases b <;> simp [back, goto, upd, hij]
    refine Busy.crit (s1 := { s with main := none }) hx ?_ (fun i hi => ?_) ?_ ?_
    · cases b <;> rfl
    · by_cases hij : i = j
      · subst hij
        rw [ctsCrit_pc (s := { s with main := none }) hp (hw.lt hp (by simp))] at hi; cases hi
      · rw [hl i hij]; exact hi
    · cases b <;> rfl
    · cases b <;> rfl
  case h_15 hp =>
    cases hs
    have hm : ∀ e, Live e s → Live e (goto j .unlock { s with active := false }) := fun e h => h.mono ho rfl fun i hi => by
      have hij : i ≠ j := by rintro rfl; rw [hp] at hi; cases hi
      simp [goto, upd, hij]
    refine ⟨fun hr => .inl (hm _ (h.ia j hp hr)), fun hr => ?_, fun hr => ?_, fun i hi => ?_, fun i hi hr => hm _ (h.ia j hp hr)⟩
    · refine (h.y (hr.imp id fun ⟨i, hi⟩ => ⟨i, ?_⟩)).imp id (hm _)
      have hij : i ≠ j := by rintro rfl; simp [goto, upd] at hi
      simpa [goto, upd, hij] using hi
    · exact (h.a hr).imp id (hm _)
    · have hij : i ≠ j := by rintro rfl; simp [goto, upd] at hi
      exact (h.td i (by simpa [goto, upd, hij] using hi)).imp id (hm _)
  case h_16 hp =>
    cases hs
    by_cases hc : s.q ≠ [] ∨ s.closeQ = true
    · simp only [hc, decide_true, if_true]
      have hjn := Ne.symm (hne (i := j) (by simp [hp]))
      exact .of_main (j := s.next) (by simp [goto, run, spawn, upd, hjn, Pc.isMain]) (by simp [goto, run, spawn, upd, hjn])
    · simp only [hc, decide_false, Bool.false_eq_true, if_false] at ho ⊢
      have hz : Still P (goto j (if s.final then .clear else .unlock) { s with running := false, main := none }) ∨
          Live none (goto j (if s.final then .clear else .unlock) { s with running := false, main := none }) := by
        rcases h.td j hp with h | h | h | ⟨i, hij, hi⟩
        · exact .inl h
        · exact .inr (.inl (ho h))
        · exact .inr (.inr (.inl h))
        · refine .inr (.inr (.inr ⟨i, by simp, ?_⟩))
          have hij : i ≠ j := by simpa using hij
          simp [goto, upd, hij, hi]
      refine ⟨fun hr => (by cases hr), fun _ => hz, fun _ => hz.imp (fun h x hx => .inl (h x hx)) id, fun i hi => ?_, fun _ _ hr => (by cases hr)⟩
      have hij : i ≠ j := by rintro rfl; simp [goto, upd] at hi; split at hi <;> cases hi
      have hi' : s.pc i = .taskDone := by simpa [goto, upd, hij] using hi
      exact absurd (Option.some.inj ((hw.owner hi' rfl).1.symm.trans (hw.owner hp rfl).1)) hij
  case h_17 hp => exact .of_over (ho (hw.cl j hp))
  case h_18 hp => cases hs; exact h.move hp ho rfl (fun i hij => by simp [goto, upd, hij]) rfl rfl (by simp [goto, upd, Pc.isMain]) (by simp [goto, upd]) rfl (by simp [goto, upd])
  case h_19 hp =>
    split at hs
    · exact .of_over (ho (hw.pr ‹_›))
    · cases hs; exact .of_main (j := j) (by simp [goto, upd, Pc.isMain]) (by simp [goto, upd])
  case h_20 hp =>
    split at hs <;> cases hs
    exact h.move hp ho rfl (fun i hij => by simp [goto, upd, hij]) rfl rfl (by simp [goto, upd, Pc.isMain]) (by simp [goto, upd]) rfl (by simp [goto, upd])
  case h_21 hp =>
    split at hs <;> cases hs
    rename_i x hx
    by_cases hy : (P.state x).isYield = true
    · simp only [hy, if_true] at ho ⊢
      have hl : Live none (goto j .unlock s) := by
        rcases h.y (.inr ⟨j, .inr hp⟩) with h | h
        · have := h x hx; simp [hy] at this
        · exact h.mono ho rfl fun i hi => by
            have hij : i ≠ j := by rintro rfl; rw [hp] at hi; cases hi
            simp [goto, upd, hij]
      refine ⟨fun _ => .inl hl, fun _ => .inr hl, fun _ => .inr hl, fun i hi => ?_, fun _ _ _ => hl⟩
      have hij : i ≠ j := by rintro rfl; simp [goto, upd] at hi
      have hi' : s.pc i = .taskDone := by simpa [goto, upd, hij] using hi
      exact absurd (Option.some.inj ((hw.owner hi' rfl).1.symm.trans (hw.owner hp rfl).1)) hij
    · exact .of_main (j := j) (by simp [hy, goto, upd, Pc.isMain]) (by simp [hy, goto, upd])
  case h_22 hp =>
    cases hs
    split
    · exact .of_run
    · rename_i hr
      rw [if_neg hr] at ho
      exact h.move hp ho rfl (fun i hij => by simp [goto, upd, hij]) rfl (by simp [goto]; grind) (by simp [goto, upd, Pc.isMain]) (by simp [goto, upd]) rfl (by simp [goto, upd])
  case h_23 hp =>
    cases hs
    split
    · exact .of_run
    · rename_i hr
      rw [if_neg hr] at ho
      exact h.move hp ho rfl (fun i hij => by simp [goto, upd, hij]) rfl (by simp [goto]; grind) (by simp [goto, upd, Pc.isMain]) (by simp [goto, upd]) rfl (by simp [goto, upd])
  all_goals
    rename_i hp
    repeat' split at hs
    all_goals try cases hs
  all_goals exact .of_main (j := j) (by simp [goto, upd, Pc.isMain]) (by simp [goto, upd])

theorem Busy.step (h : Busy P s) (hw : Wide s) {a : Act} (hs : Process.step P n s a = .ok s') : Busy P s' := by
  have ho : Over s → Over s' := fun h => h.step hs
  have hne : ∀ {i}, s.pc i ≠ .none → i ≠ s.next := fun h1 h2 => h1 (hw.fr _ (by omega))
  cases a with
  | job j => exact h.job hw hs
  | fail j =>
    simp only [Process.step] at hs
    split at hs <;> cases hs
    exact .of_run
  | send m =>
    simp only [Process.step] at hs
    split at hs <;> cases hs
    simp only [enqueue] at ho ⊢
    split
    · exact .of_run
    · rename_i hr
      rw [if_neg hr] at ho
      exact h.frame ho rfl (fun _ _ => rfl) rfl rfl Iff.rfl (fun _ h => h) rfl (fun _ h => h)
  | cts k =>
    simp only [Process.step] at hs
    split at hs
    · cases hs
    · cases hs; exact h.frame ho rfl (fun _ _ => rfl) rfl rfl Iff.rfl (fun _ h => h) rfl (fun _ h => h)
    · split at hs <;> cases hs
      rename_i x hx
      exact Busy.crit (s1 := { s with cts := upd s.cts k .none }) hx rfl (fun _ h => h) rfl rfl
  | pop k =>
    simp only [Process.step] at hs
    repeat' split at hs
    all_goals try cases hs
    all_goals exact h.frame ho rfl (fun _ _ => rfl) rfl rfl Iff.rfl (fun _ h => h) rfl (fun _ h => h)
  | copySender =>
    simp only [Process.step] at hs
    split at hs <;> cases hs
    exact h.frame ho rfl (fun _ _ => rfl) rfl rfl Iff.rfl (fun _ h => h) rfl (fun _ h => h)
  | dropSender =>
    simp only [Process.step] at hs
    repeat' split at hs
    all_goals cases hs
    · exact h.move (j := s.next) (hw.fr _ (Nat.le_refl _)) ho rfl (fun i hij => by simp [spawn, upd, hij]) rfl rfl (by simp [spawn, upd, Pc.isMain]) (by simp [spawn, upd]) rfl (by simp [spawn, upd])
    · exact h.frame ho rfl (fun _ _ => rfl) rfl rfl Iff.rfl (fun _ h => h) rfl (fun _ h => h)
  | ready =>
    simp only [Process.step] at hs
    split at hs <;> cases hs
    exact h.move (j := s.next) (hw.fr _ (Nat.le_refl _)) ho rfl (fun i hij => by simp [spawn, upd, hij]) rfl rfl (by simp [spawn, upd, Pc.isMain]) (by simp [spawn, upd]) rfl (by simp [spawn, upd])

theorem busy (h : Reachable P n s) : Busy P s := by
  induction h with
  | init => exact ⟨fun h => (by cases h), fun h => (by rcases h with h | ⟨j, h | h⟩ <;> cases h),
      fun _ => .inl fun x hx => .inr (Option.some.inj hx).symm, fun j h => (by cases h), fun j h => (by cases h)⟩
  | step h hs ih => exact ih.step (wide h) hs

end Verif.Process
