import Verif.Future.WhenProps

/-!
# C68: `when_all` and `when_any` let go of their arguments

The future of the continuation attached to an argument is all that keeps the argument (C34). It is in `_holds` of the context.
-/

namespace Verif.When

open Verif.Shared (Err Outcome upd)

variable {m : Mode} {n : Nat} {s s' : St}

/-- `when_all` or `when_any` has returned. -/
def Returned (n : Nat) (s : St) : Prop := s.att = n ∧ s.hold (n - 1) ≠ .loc

/-- Nothing owns the context. -/
structure Gone (n : Nat) (s : St) : Prop where
  ret : Returned n s
  pc : ∀ i, ¬ isRunning (s.pc i)
  run : s.running = []
  res : s.kept = false ∨ s.fired = true

theorem Gone.alive (h : Gone n s) : s.alive n = false := by
  have := h.ret
  rcases h.res with h1 | h1 <;> simp [St.alive, this.1, this.2, h.run, h1]

theorem Gone.held (h : Gone n s) (h0 : 0 < n) (I : Inv m n s) (i : Nat) : s.held n i = false := by
  simp only [St.held, h.alive, Bool.and_false, Bool.or_false, decide_eq_false_iff_not]
  intro hi
  have := I.loc i hi
  have hr := h.ret
  rw [hr.1] at this
  exact hr.2 (by rw [← this]; exact hi)

attribute [local grind =] isRunning upd

theorem Gone.step (h : Gone n s) {a : Act} (e : step m n s a = .ok s') :
    Gone n s' ∧ ∀ i o, .seen i o ∈ s'.trace → .seen i o ∈ s.trace := by
  have ha := h.alive
  obtain ⟨⟨h1, h2⟩, h3, h4, h5⟩ := h
  cases a <;> simp only [When.step] at e <;> (repeat' split at e) <;> cases e <;>
    first
    | (refine ⟨⟨⟨?_, ?_⟩, ?_, ?_, ?_⟩, ?_⟩ <;> grind)

theorem Gone.exec (h : Gone n s) {as : List Act} (e : exec m n s as = some s') :
    Gone n s' ∧ ∀ i o, .seen i o ∈ s'.trace → .seen i o ∈ s.trace := by
  induction as generalizing s with
  | nil => simp only [When.exec, Option.some.injEq] at e; exact e ▸ ⟨h, fun _ _ h => h⟩
  | cons a as ih =>
    simp only [When.exec] at e
    split at e
    · have h1 := h.step ‹_›
      have h2 := ih h1.1 e
      exact ⟨h2.1, fun i o h => h1.2 i o (h2.2 i o h)⟩
    · cases e

theorem Inv.exec (I : Inv m n s) {as : List Act} (e : exec m n s as = some s') : Inv m n s' := by
  induction as generalizing s with
  | nil => simp only [When.exec, Option.some.injEq] at e; exact e ▸ I
  | cons a as ih =>
    simp only [When.exec] at e
    split at e
    · exact ih (I.step ‹_›) e
    · cases e

/-- **C68**, once the function has been called, the error has been delivered, or the result has been dropped, and no
continuation is being called, all arguments are let go: none of the continuations still to be executed does anything. -/
theorem c68_let_go (h0 : 0 < n) (r : Reachable m n s) (hr : Returned n s) (hp : ∀ i, ¬ isRunning (s.pc i))
    (hd : (∃ x ∈ s.trace, isRes x = true) ∨ .dropped ∈ s.trace) {as : List Act} (e : exec m n s as = some s') :
    (∀ i, s'.held n i = false) ∧ ∀ i o, .seen i o ∈ s'.trace → .seen i o ∈ s.trace := by
  have I := r.inv h0
  have hg : Gone n s := by
    refine ⟨hr, hp, ?_, ?_⟩
    · rcases hl : s.running with _ | ⟨i, l⟩
      · rfl
      · exact absurd ((I.mem i).1 (by simp [hl])) (hp i)
    · rcases hd with ⟨x, hx, hx'⟩ | h
      · refine .inr (I.evc.1 ?_)
        cases x <;> simp [isRes] at hx'
        · exact .inl ⟨_, _, hx⟩
        · exact .inr ⟨_, hx⟩
      · exact .inl (I.drp.1 h)
  have h1 := hg.exec e
  exact ⟨h1.1.held h0 (I.exec e), h1.2⟩

/-- The outcome of an argument decides the result, after history `t`: the first error for `when_all`, the first value for
`when_any`. -/
def Decides (m : Mode) (t : List Event) : Outcome → Prop
  | .exc _ => m.isAll = true ∧ ∀ j e, .seen j (.exc e) ∉ t
  | .val _ => m.isAll = false ∧ ∀ j v, .seen j (.val v) ∉ t

theorem errs_nil {t : List Event} (h : ∀ j e, .seen j (.exc e) ∉ t) : errs t = [] := by
  simp only [errs, List.filterMap_eq_nil_iff]
  intro x hx
  cases x with
  | seen i o => cases o with
    | exc e => exact absurd hx (h i e)
    | val v => rfl
  | _ => rfl

theorem vals_nil {t : List Event} (h : ∀ j v, .seen j (.val v) ∉ t) : vals t = [] := by
  simp only [vals, List.filterMap_eq_nil_iff]
  intro x hx
  cases x with
  | seen i o => cases o with
    | val v => exact absurd hx (h i v)
    | exc e => rfl
  | _ => rfl

/-- The continuation of argument `j` was let go before it was executed. -/
structure Canceled (j : Nat) (s : St) : Prop where
  hold : s.hold j = .reset
  pc : ¬ isRunning (s.pc j)
  att : j < s.att

theorem resets_reset {r : Reset} {h : Nat → Hold} {j : Nat} (e : h j = .reset) : resets r h j = .reset := by
  cases r <;> simp [resets, e]

grind_pattern resets_reset => resets r h j

theorem Canceled.step {j : Nat} (h : Canceled j s) {a : Act} (e : step m n s a = .ok s') :
    Canceled j s' ∧ ∀ o, .seen j o ∈ s'.trace → .seen j o ∈ s.trace := by
  obtain ⟨h1, h2, h3⟩ := h
  have hh : s.held n j = false := by simp [St.held, h1]
  cases a <;> simp only [When.step] at e <;> (repeat' split at e) <;> cases e <;>
    (refine ⟨⟨?_, ?_, ?_⟩, ?_⟩ <;> grind)

theorem Canceled.exec {j : Nat} (h : Canceled j s) {as : List Act} (e : exec m n s as = some s') :
    Canceled j s' ∧ ∀ o, .seen j o ∈ s'.trace → .seen j o ∈ s.trace := by
  induction as generalizing s with
  | nil => simp only [When.exec, Option.some.injEq] at e; exact e ▸ ⟨h, fun _ h => h⟩
  | cons a as ih =>
    simp only [When.exec] at e
    split at e
    · have h1 := h.step ‹_›
      have h2 := ih h1.1 e
      exact ⟨h2.1, fun o h => h1.2 o (h2.2 o h)⟩
    · cases e

/-- **C68**, as soon as the result is decided the other arguments are let go, before the function is called or the error is
delivered: an argument whose continuation has been attached and stored and is not being called is not looked at any more.

Missing: `when_any` on a pack of futures, see `c68_any_pack_counterexample`, and arguments whose continuation is being
stored, see `c68_late_counterexample`. -/
theorem c68_decided_partial (hm : m ≠ .anyPack) (h0 : 0 < n) (r : Reachable m n s) {i j : Nat} {o : Outcome} {s1 : St}
    (e1 : step m n s (.crit i) = .ok s1) (ht : s1.trace = s.trace ++ [.seen i o]) (hd : Decides m s.trace o)
    (hj : j < s.att) (hl : s.hold j ≠ .loc) (hij : j ≠ i) (hp : ¬ isRunning (s.pc j))
    {as : List Act} (e : exec m n s1 as = some s') :
    s1.held n j = false ∧ ∀ o, .seen j o ∈ s'.trace → .seen j o ∈ s.trace := by
  have I := r.inv h0
  have hn : s.hold j ≠ .none := fun h => by have := (I.hol j).1 h; omega
  have hr : s.hold j = .stored ∨ s.hold j = .reset := by cases h : s.hold j <;> simp_all
  have hD := I.data
  simp only [When.step] at e1
  split at e1
  · rename_i o' hpc
    simp only [Out.ok.injEq] at e1
    subst e1
    have ho : o' = o := by simpa using ht
    subst ho
    generalize hs1 : St.mk _ _ _ _ _ _ _ _ _ = s1 at e ⊢
    have hc : Canceled j s1 := by
      subst hs1
      refine ⟨?_, ?_, hj⟩
      · dsimp only
        rcases hr with hr | hr
        · cases o' with
          | exc e' =>
            have h1 := errs_nil hd.2
            cases m with
            | allPack =>
              have : s.ctx.exc = none := by have := hD.exc; rw [h1] at this; exact this
              simp [crit, this, resets, hr]
            | allRange =>
              have h2 : s.ctx.exc = none := by have := hD.1.exc; rw [h1] at this; exact this
              have h3 : s.ctx.single = false := by have := hD.2; rw [h2] at this; exact this
              simp [crit, h3, resets, hr, hij]
            | _ => exact absurd hd.1 (by simp [Mode.isAll])
          | val v =>
            have h1 := vals_nil hd.2
            cases m with
            | anyPack => exact absurd rfl hm
            | anyRange =>
              have h2 : s.ctx.index = none := by
                have h3 := hD.1.first; have h4 := hD.1.both; rw [h1] at h3
                cases hi : s.ctx.index <;> cases ha : s.ctx.arg <;> simp_all
              have h3 : s.ctx.single = false := by have := hD.2; rw [h2] at this; exact this
              simp [crit, h3, resets, hr, hij]
            | _ => exact absurd hd.1 (by simp [Mode.isAll])
        · exact resets_reset hr
      · simp only [upd, if_neg hij]; exact hp
    refine ⟨by simp only [St.held, hc.hold]; simp, fun o h => ?_⟩
    have := (hc.exec e).2 o h
    rw [← hs1] at this
    simpa [hij] using this
  · cases e1

/-! ## Examples -/

theorem exec_reach {as : List Act} (e : exec m n (init n) as = some s) : Reachable m n s := ⟨as, e⟩

/-- `c68_let_go`: 1 has failed; 0 and 2 are resolved after that, and their continuations do nothing. -/
example : ∃ s, Reachable .allPack 3 s ∧ Returned 3 s ∧ (∀ i, ¬ isRunning (s.pc i)) ∧ (∃ x ∈ s.trace, isRes x = true) ∧
    ∃ s', exec .allPack 3 s [.resolve 0 (.val 1), .run 0, .resolve 2 (.val 1), .run 2] = some s' := by
  have hr : Reachable .allPack 3 ((exec .allPack 3 (init 3) (attach3 ++ [.resolve 1 (.exc (.user 1)), .run 1, .crit 1, .fire 1])).get rfl) :=
    exec_reach (Option.some_get _).symm
  refine ⟨_, hr, ⟨rfl, by decide⟩, fun i => ?_, ⟨.failed (.user 1), by decide, rfl⟩, _, rfl⟩
  rcases i with _ | _ | _ | i
  · exact id
  · exact id
  · exact id
  · have := (hr.inv (by decide)).attb (i + 3)
    intro h
    have h1 := this.1 (fun h' => by rw [h'] at h; cases h)
    have h2 : ((exec .allPack 3 (init 3) (attach3 ++ [.resolve 1 (.exc (.user 1)), .run 1, .crit 1, .fire 1])).get rfl).att = 3 := rfl
    omega

/-- `c68_decided_partial`: 1 fails, and 0, which has a value, is not looked at. -/
example (m : Mode) (hm : m.isAll = true) : ∃ s s1 s', Reachable m 3 s ∧ step m 3 s (.crit 1) = .ok s1 ∧
    s1.trace = s.trace ++ [.seen 1 (.exc (.user 1))] ∧ Decides m s.trace (.exc (.user 1)) ∧ 0 < s.att ∧ s.hold 0 ≠ .loc ∧
    ¬ isRunning (s.pc 0) ∧ exec m 3 s1 [.run 0, .fire 1] = some s' ∧ s'.pc 0 = .done := by
  cases m <;> simp only [Mode.isAll, Bool.false_eq_true] at hm
  · refine ⟨(exec .allPack 3 (init 3) (attach3 ++ [.resolve 0 (.val 1), .resolve 1 (.exc (.user 1)), .run 1])).get rfl, _, _,
      exec_reach (Option.some_get _).symm, rfl, rfl, ⟨rfl, fun j e => ?_⟩, by decide, by decide, id, rfl, rfl⟩
    show Event.seen j (.exc e) ∉ [.argRes 0 (.val 1), .argRes 1 (.exc (.user 1))]
    simp
  · refine ⟨(exec .allRange 3 (init 3) (attach3 ++ [.resolve 0 (.val 1), .resolve 1 (.exc (.user 1)), .run 1])).get rfl, _, _,
      exec_reach (Option.some_get _).symm, rfl, rfl, ⟨rfl, fun j e => ?_⟩, by decide, by decide, id, rfl, rfl⟩
    show Event.seen j (.exc e) ∉ [.argRes 0 (.val 1), .argRes 1 (.exc (.user 1))]
    simp

/-- **C68** fails for `when_any` on a pack of futures: 0 has decided the result, but the continuation of 1, started after that, is
executed. `_holds` is not reset in lines 1130-1138. -/
theorem c68_any_pack_counterexample :
    ∃ s s', Reachable .anyPack 2 s ∧ s.trace.getLast? = some (.seen 0 (.val 5)) ∧ s.hold 1 = .stored ∧ ¬ isRunning (s.pc 1) ∧
      exec .anyPack 2 s [.run 1, .crit 1] = some s' ∧ s'.trace.getLast? = some (.seen 1 (.val 6)) :=
  ⟨(exec .anyPack 2 (init 2) [.attach, .store, .attach, .store, .resolve 0 (.val 5), .resolve 1 (.val 6), .run 0, .crit 0]).get rfl, _,
    exec_reach (Option.some_get _).symm, rfl, rfl, id, rfl, rfl⟩

/-- **C68** fails for an argument whose continuation is just being stored: argument 0 fails after `recover` was called for
argument 1 and before the future of that was stored (line 1229); that is not reset, and the continuation is executed. -/
theorem c68_late_counterexample :
    ∃ s s', Reachable .allPack 2 s ∧ s.trace.getLast? = some (.seen 0 (.exc (.user 5))) ∧ s.hold 1 = .loc ∧
      exec .allPack 2 s [.store, .resolve 1 (.val 6), .run 1, .crit 1] = some s' ∧ s'.trace.getLast? = some (.seen 1 (.val 6)) :=
  ⟨(exec .allPack 2 (init 2) [.attach, .store, .resolve 0 (.exc (.user 5)), .attach, .run 0, .crit 0]).get rfl, _,
    exec_reach (Option.some_get _).symm, rfl, rfl, rfl, rfl⟩

end Verif.When
