import Verif.Future.Await

/-!
# C38: `await` and `await_for`
-/

namespace Verif.Await

open Verif.Shared (Err Outcome)

namespace Plain

structure Inv (s : St) : Prop where
  mw : s.mutex = some .w ↔ s.w = .pred
  ml : s.mutex = some .l ↔ s.l = .assign ∨ s.l = .notify ∨ s.l = .unlock
  l0 : s.l = .none ↔ s.w = .check ∨ s.w = .attach ∨ (∃ o, s.w = .ret o ∧ s.l = .none)
  lx : s.l = .lock ∨ s.l = .assign ∨ s.l = .notify ∨ s.l = .unlock ∨ s.l = .done → s.x ≠ none
  lq : s.l = .queued → s.x = none
  re : s.result ≠ none → s.result = s.x ∧ (s.l = .notify ∨ s.l = .unlock ∨ s.l = .done)
  re' : s.l = .notify ∨ s.l = .unlock ∨ s.l = .done → s.result = s.x
  rt : ∀ o, s.w = .ret o → s.x = some o ∧ (s.l = .none ∨ s.l = .done)
  nt : s.w = .asleep → s.l = .unlock ∨ s.l = .done → s.notified = true
  nt' : s.notified = true → s.l = .unlock ∨ s.l = .done
  inl : s.w = .inl → s.x ≠ none ∧ s.l ≠ .none ∧ s.l ≠ .queued

theorem Inv.init : Inv {} := by constructor <;> simp

attribute [local grind] Inv

theorem Inv.step {s s' : St} (I : Inv s) {a : Act} (e : step s a = .ok s') : Inv s' := by
  cases a <;> simp only [Plain.step] at e <;> (repeat' split at e) <;> cases e <;> constructor <;> grind

theorem Reachable.inv {s : St} : Reachable s → Inv s := by
  rintro ⟨as, e⟩
  have I := Inv.init
  generalize ({} : St) = s0 at *
  induction as generalizing s0 with
  | nil => simp only [exec, Option.some.injEq] at e; exact e ▸ I
  | cons a as ih =>
    simp only [exec] at e
    split at e
    · exact ih _ e (I.step ‹_›)
    · cases e

/-- `await` returns the outcome of the future, and only after it is ready. -/
theorem c38_await_outcome {s : St} (r : Reachable s) {o : Outcome} (h : s.w = .ret o) : s.x = some o :=
  (r.inv.rt o h).1

/-- `await` does not return while the continuation may still use its local variables. -/
theorem c38_await_no_dangling {s : St} (r : Reachable s) {o : Outcome} (h : s.w = .ret o) :
    s.l = .none ∨ s.l = .done := (r.inv.rt o h).2

/-- No wake-up is lost: once the future is ready, and as long as `await` has not returned, one of the two threads can
take a step, not counting spurious wake-ups. -/
theorem c38_await_progress {s : St} (r : Reachable s) (hx : s.x ≠ none) (hw : s.w.returned = false) :
    (∃ s', step s .w = .ok s') ∨ ∃ s', step s .l = .ok s' := by
  have I := r.inv
  have hmw : s.mutex = none ∨ s.w = .pred ∨ s.l = .assign ∨ s.l = .notify ∨ s.l = .unlock := by
    cases hm : s.mutex with
    | none => exact .inl rfl
    | some y => cases y <;> grind
  have hl : (s.l = .assign ∨ s.l = .notify ∨ s.l = .unlock ∨ (s.l = .lock ∧ s.mutex = none)) →
      ∃ s', step s .l = .ok s' := by
    rintro (h | h | h | ⟨h, hm⟩)
    all_goals simp only [step, h]
    iterate 3 exact ⟨_, rfl⟩
    rw [hm]; exact ⟨_, rfl⟩
  have hlock : s.w = .lock ∨ s.w = .relock → s.mutex = none → ∃ s', step s .w = .ok s' := by
    rintro (h | h) hm <;> simp only [step, h, hm] <;> exact ⟨_, rfl⟩
  cases hw' : s.w with
  | check => left; simp only [step, hw']; split <;> exact ⟨_, rfl⟩
  | attach => left; simp only [step, hw']; split <;> exact ⟨_, rfl⟩
  | pred => left; simp only [step, hw']; split <;> exact ⟨_, rfl⟩
  | lock => grind
  | relock => grind
  | inl =>
    by_cases hd : s.l = .done
    · left; simp only [step, hw', hd]; exact ⟨_, rfl⟩
    · right; apply hl; cases hl' : s.l <;> grind
  | asleep =>
    by_cases hd : s.notified = true
    · left; simp only [step, hw', hd]; exact ⟨_, rfl⟩
    · right; apply hl; cases hl' : s.l <;> grind
  | ret o => rw [hw'] at hw; cases hw

/-- Steps left for L. -/
def lLeft : LPc → Nat
  | .none => 5 | .queued => 5 | .lock => 4 | .assign => 3 | .notify => 2 | .unlock => 1 | .done => 0

/-- Steps left for W. -/
def wLeft (s : St) : Nat :=
  if s.result = none then
    match s.w with
    | .check => 9 | .attach => 8 | .inl => 7 | .lock => 6 | .relock => 6 | .pred => 5 | .asleep => 4 | .ret _ => 0
  else
    match s.w with
    | .check => 9 | .attach => 8 | .inl => 4 | .lock => 2 | .asleep => 3 | .relock => 2 | .pred => 1 | .ret _ => 0

/-- It returns: once the future is ready, every step of either thread, not counting spurious wake-ups, decreases this
number. Together with `c38_await_progress`, `await` returns after finitely many steps. -/
theorem c38_await_terminates {s s' : St} (r : Reachable s) (hx : s.x ≠ none) {a : Act} (ha : a = .w ∨ a = .l)
    (e : step s a = .ok s') : wLeft s' + lLeft s'.l < wLeft s + lLeft s.l ∧ s'.x = s.x := by
  have I := r.inv
  rcases ha with rfl | rfl
  · simp only [step] at e
    repeat' split at e
    all_goals cases e
    all_goals simp only [wLeft, lLeft]
    all_goals grind
  · simp only [step] at e
    repeat' split at e
    all_goals cases e
    all_goals simp only [wLeft, lLeft]
    all_goals grind

/-- W sleeps when the future fails. -/
example : (exec {} [.w, .w, .w, .w, .resolve (.exc (.user 3)), .l, .l, .l, .w, .l, .w, .w]).map (·.w) =
    some (.ret (.exc (.user 3))) := by decide

/-- The future becomes ready between the first check and the attachment. -/
example : (exec {} [.w, .resolve (.val 3), .w, .l, .l, .l, .l, .w, .w, .w]).map (·.w) = some (.ret (.val 3)) := by
  decide

end Plain

namespace Timed

structure Inv (s : St) : Prop where
  mw : s.mutex = some .w ↔ s.w = .pred ∨ s.w = .fin
  ml : s.mutex = some .l ↔ s.l = .crit
  l0 : s.l = .none ↔ s.w = .check ∨ s.w = .attach ∨ ∃ o, s.w = .direct o
  lx : s.l ≠ .none ∧ s.l ≠ .queued → s.x ≠ none
  lq : s.l = .queued → s.x = none
  re : ∀ o, s.result = some o → s.x = some o ∧
    (s.l = .notify ∨ s.l = .ret false ∨ (s.l = .done ∧ s.hold = some .notAnError))
  nf : s.l = .notify ∨ s.l = .ret false ∨ s.hold = some .notAnError →
    s.timedOut = false ∧ ((s.result ≠ none ∧ s.w.returned = false) ∨ ∃ o, s.w = .retRes o)
  ho : s.hold ≠ none ↔ s.l = .done
  ho' : ∀ o, s.hold = some (.out o) → s.x = some o
  dr : ∀ o, s.w = .direct o ∨ s.w = .retRes o → s.x = some o
  rr : ∀ o, s.w = .retRes o → s.l = .notify ∨ s.l = .ret false ∨ s.hold = some .notAnError
  rh : s.w = .retHold → s.timedOut = true
  fi : s.w = .fin → (s.timedOut = true ↔ s.result = none)
  to : s.timedOut = true → s.w = .fin ∨ s.w = .retHold
  ps : s.l = .ret true ∨ (∃ o, s.hold = some (.out o)) → s.timedOut = true
  cr : s.l = .crit ∨ s.l = .lock ∨ s.l = .weak ∨ s.l = .queued ∨ s.l = .none → s.result = none ∧ ∀ o, s.w ≠ .retRes o
  inl : s.w = .inl → s.x ≠ none ∧ s.l ≠ .none ∧ s.l ≠ .queued

theorem Inv.init : Inv {} := by constructor <;> simp [WPc.returned]

attribute [local grind] Inv
attribute [local grind =] WPc.returned

theorem returned_iff (w : WPc) : w.returned = true ↔ (∃ o, w = .direct o) ∨ (∃ o, w = .retRes o) ∨ w = .retHold := by
  cases w <;> simp [WPc.returned]

theorem map_out {x : Option Outcome} {h : Held} : x.map Held.out = some h ↔ ∃ o, x = some o ∧ h = .out o := by
  cases x <;> simp [eq_comm]

attribute [local grind =] map_out

theorem Inv.step {s s' : St} (I : Inv s) {a : Act} (e : step s a = .ok s') : Inv s' := by
  have hr := returned_iff s.w
  have hx : s.x = none ↔ s.x.map Held.out = none := by simp
  cases a <;> simp only [Timed.step] at e <;> (repeat' split at e) <;> cases e <;> constructor <;> grind

theorem Reachable.inv {s : St} : Reachable s → Inv s := by
  rintro ⟨as, e⟩
  have I := Inv.init
  generalize ({} : St) = s0 at *
  induction as generalizing s0 with
  | nil => simp only [exec, Option.some.injEq] at e; exact e ▸ I
  | cons a as ih =>
    simp only [exec] at e
    split at e
    · exact ih _ e (I.step ‹_›)
    · cases e

/-- If `await_for` returns a ready future, it has the outcome of its argument. -/
theorem c38_for_ready {s : St} (r : Reachable s) {o : Outcome} (h : s.w = .direct o ∨ s.w = .retRes o) :
    s.x = some o := r.inv.dr o h

/-- If it returns `hold`, that becomes ready with the outcome of the argument, and nothing else. -/
theorem c38_for_hold {s : St} (r : Reachable s) (h : s.w = .retHold) {x : Held} (hh : s.hold = some x) :
    ∃ o, x = .out o ∧ s.x = some o := by
  have I := r.inv
  cases x with
  | out o => exact ⟨o, rfl, I.ho' o hh⟩
  | notAnError => have := I.nf (.inr (.inr hh)); have := I.rh h; simp_all

/-- `hold` does become ready once the argument is: the continuation has a step left, or is done. -/
theorem c38_for_hold_ready {s : St} (r : Reachable s) (h : s.w = .retHold) (hx : s.x ≠ none) :
    (∃ s', step s .l = .ok s') ∨ s.hold = s.x.map .out := by
  have I := r.inv
  cases hl : s.l with
  | none => grind
  | queued => grind
  | done =>
    right
    have := I.ho.2 hl
    obtain ⟨y, hy⟩ := Option.ne_none_iff_exists'.1 this
    obtain ⟨o, rfl, ho⟩ := c38_for_hold r h hy
    rw [hy, ho]; rfl
  | weak => left; simp only [step, hl, h, WPc.returned]; exact ⟨_, rfl⟩
  | lock =>
    left
    have : s.mutex = none := by
      cases hm : s.mutex with
      | none => rfl
      | some y => cases y <;> grind
    simp only [step, hl, this]; exact ⟨_, rfl⟩
  | crit => left; simp only [step, hl]; split <;> exact ⟨_, rfl⟩
  | notify => left; simp only [step, hl]; exact ⟨_, rfl⟩
  | ret b => left; cases b <;> simp only [step, hl] <;> exact ⟨_, rfl⟩

/-- The outcome is delivered at most once: if it went into the result of `wait_for`, `hold` has or will have "not an
error" instead, and `hold` was not returned. -/
theorem c38_for_once {s : St} (r : Reachable s) {o : Outcome} (h : s.w = .retRes o) (o' : Outcome) :
    s.hold ≠ some (.out o') := by
  have I := r.inv
  intro hh
  have := I.rr o h
  have := I.ps (.inr ⟨o', hh⟩)
  have := I.to this
  grind

/-- `await_for` does not block for ever: some step of W, of L, or the time-out is possible until it has returned. -/
theorem c38_for_progress {s : St} (r : Reachable s) (hw : s.w.returned = false) :
    (∃ s', step s .w = .ok s') ∨ (∃ s', step s .l = .ok s') ∨ ∃ s', step s .timeout = .ok s' := by
  have I := r.inv
  cases hw' : s.w with
  | relock b =>
    cases hm : s.mutex with
    | none => left; cases b <;> simp only [step, hw', hm] <;> exact ⟨_, rfl⟩
    | some y =>
      cases y with
      | w => grind
      | l => right; left; have := I.ml.1 hm; simp only [step, this]; split <;> exact ⟨_, rfl⟩
  | inl =>
    by_cases hd : s.l = .done
    · left; simp only [step, hw', hd]; exact ⟨_, rfl⟩
    · right; left
      have hm : s.l = .lock → s.mutex = none := by
        intro h
        cases hm : s.mutex with
        | none => rfl
        | some y => cases y <;> grind
      have := I.inl hw'
      cases hl : s.l with
      | ret b => cases b <;> simp only [step, hl] <;> exact ⟨_, rfl⟩
      | lock => simp only [step, hl, hm hl]; exact ⟨_, rfl⟩
      | weak => simp only [step, hl, hw', WPc.returned]; exact ⟨_, rfl⟩
      | crit => simp only [step, hl]; split <;> exact ⟨_, rfl⟩
      | notify => simp only [step, hl]; exact ⟨_, rfl⟩
      | _ => grind
  | asleep => right; right; simp only [step, hw']; exact ⟨_, rfl⟩
  | lock =>
    cases hm : s.mutex with
    | none => left; simp only [step, hw', hm]; exact ⟨_, rfl⟩
    | some y =>
      cases y with
      | w => grind
      | l => right; left; have := I.ml.1 hm; simp only [step, this]; split <;> exact ⟨_, rfl⟩
  | check => left; simp only [step, hw']; split <;> exact ⟨_, rfl⟩
  | attach => left; simp only [step, hw']; split <;> exact ⟨_, rfl⟩
  | pred => left; simp only [step, hw']; split <;> exact ⟨_, rfl⟩
  | fin => left; simp only [step, hw']; split; exact ⟨_, rfl⟩; split <;> exact ⟨_, rfl⟩
  | _ => rw [hw'] at hw; cases hw

/-- A thread that sleeps though the result is there is going to be woken up. -/
theorem Reachable.woken {s : St} (r : Reachable s) (hw : s.w = .asleep) (hr : s.result ≠ none) : s.notified = true ∨ s.l = .notify := by
  suffices h : Inv s ∧ (s.w = .asleep → s.result ≠ none → s.notified = true ∨ s.l = .notify) from h.2 hw hr
  obtain ⟨as, e⟩ := r
  clear hw hr
  have I : Inv {} ∧ (({} : St).w = .asleep → ({} : St).result ≠ none → ({} : St).notified = true ∨ ({} : St).l = .notify) :=
    ⟨Inv.init, by simp⟩
  generalize ({} : St) = s0 at *
  induction as generalizing s0 with
  | nil => simp only [exec, Option.some.injEq] at e; exact e ▸ I
  | cons a as ih =>
    simp only [exec] at e
    split at e
    · rename_i s1 e1
      refine ih _ e ⟨I.1.step e1, ?_⟩
      obtain ⟨I, h⟩ := I
      have hr := returned_iff s0.w
      cases a <;> simp only [Timed.step] at e1 <;> (repeat' split at e1) <;> cases e1 <;> grind
    · cases e

/-- `await_for` does not wait for the time-out if the future becomes ready: some step of W or of L is possible once the future
is ready, until `await_for` has returned. -/
theorem c38_for_prompt {s : St} (r : Reachable s) (hw : s.w.returned = false) (hx : s.x ≠ none) :
    (∃ s', step s .w = .ok s') ∨ ∃ s', step s .l = .ok s' := by
  have I := r.inv
  rcases c38_for_progress r hw with h | h | ⟨s1, h⟩
  · exact .inl h
  · exact .inr h
  have hs : s.w = .asleep := by
    simp only [step] at h; split at h
    · assumption
    · cases h
  by_cases hr : s.result = none
  · right
    have hm : s.l = .lock → s.mutex = none := by
      intro h
      cases hm : s.mutex with
      | none => rfl
      | some y => cases y <;> grind
    have ht : s.timedOut = false := by
      cases ht : s.timedOut with
      | false => rfl
      | true => have := I.to ht; grind
    cases hl : s.l with
    | ret b => cases b <;> simp only [step, hl] <;> exact ⟨_, rfl⟩
    | lock => simp only [step, hl, hm hl]; exact ⟨_, rfl⟩
    | weak => simp only [step, hl, hs, WPc.returned]; exact ⟨_, rfl⟩
    | crit => simp only [step, hl]; split <;> exact ⟨_, rfl⟩
    | notify => simp only [step, hl]; exact ⟨_, rfl⟩
    | done =>
      obtain ⟨y, hy⟩ := Option.ne_none_iff_exists'.1 (I.ho.2 hl)
      cases y with
      | out o => have := I.ps (.inr ⟨o, hy⟩); simp_all
      | notAnError => have := I.nf (.inr (.inr hy)); grind
    | none => have := I.l0; grind
    | queued => exact absurd (I.lq hl) hx
  · rcases r.woken hs hr with h | h
    · left; simp only [step, hs, h]; exact ⟨_, rfl⟩
    · right; simp only [step, h]; exact ⟨_, rfl⟩

/-- The future becomes ready while W sleeps: `c38_for_prompt`. -/
example : (exec {} [.w, .w, .w, .w, .resolve (.val 5), .l, .l, .l, .l, .w, .w, .w, .w]).map (fun s => (s.w, s.x)) =
    some (.retRes (.val 5), some (.val 5)) := by decide

/-- Time-out, and the future is resolved while W is about to return. -/
example : (exec {} [.w, .w, .w, .w, .timeout, .w, .resolve (.val 5), .l, .w, .l, .l, .l]).map (fun s => (s.w, s.hold)) =
    some (.retHold, some (.out (.val 5))) := by decide

/-- The continuation gets the mutex first, just after the time-out. -/
example : (exec {} [.w, .w, .w, .w, .timeout, .resolve (.val 5), .l, .l, .l, .w, .w, .l, .l]).map
    (fun s => (s.w, s.hold)) = some (.retRes (.val 5), some .notAnError) := by decide

end Timed

end Verif.Await
