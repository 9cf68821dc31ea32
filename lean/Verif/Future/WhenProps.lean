import Verif.Future.WhenInv

/-!
# C36 and C37: `when_all` and `when_any`

"First" and "last" refer to the order in which the context learns of the outcomes (events `seen`), which is the order in
which the continuations of the arguments are executed.
-/

namespace Verif.When

open Verif.Shared (Err Outcome upd)

/-! ## Facts about legal traces -/

theorem Legal.mono {m : Mode} {n : Nat} {t : List Event} (L : Legal m n t) : ∀ a b, t = a ++ b → Legal m n a := by
  induction L with
  | nil => intro a b h; simp at h; rw [h.1]; exact .nil
  | snoc L o ih =>
    intro a b h
    rcases List.eq_nil_or_concat b with rfl | ⟨b', x, rfl⟩
    · simp at h; exact h ▸ .snoc L o
    · rw [List.concat_eq_append, ← List.append_assoc] at h
      exact ih a b' (List.append_inj' h rfl).1

theorem Legal.ok {m : Mode} {n : Nat} {t a b : List Event} {e : Event} (L : Legal m n t) (h : t = a ++ e :: b) :
    Ok m n a e := by
  have := L.mono (a ++ [e]) b (by simp [h])
  generalize h' : a ++ [e] = u at this
  cases this with
  | nil => simp at h'
  | snoc L o =>
    have := List.append_inj' h' rfl
    simp at this
    rw [this.1, this.2]; exact o

/-- The result events. -/
def isRes : Event → Bool
  | .called _ _ | .failed _ => true
  | _ => false

/-- The function is called, or the result fails, at most once in total. -/
theorem Legal.once {m : Mode} {n : Nat} {t : List Event} (L : Legal m n t) : t.countP isRes ≤ 1 := by
  have key : ∀ t, Legal m n t → t.countP isRes ≤ 1 := by
    intro t L
    induction L with
    | nil => simp
    | @snoc t e L o ih =>
      have z : isRes e = true → t.countP isRes = 0 := by
        intro he
        rw [List.countP_eq_zero]
        intro x hx
        cases e <;> simp only [isRes, Bool.false_eq_true] at he <;> obtain ⟨h1, h2, -⟩ := o <;>
          cases x <;> simp [isRes] <;> first | exact h1 _ _ hx | exact h2 _ hx
      rw [List.countP_append, List.countP_cons, List.countP_nil]
      split
      · rw [z ‹_›]; omega
      · omega
  exact key t L

/-- The outcome the context sees is the outcome of the argument. -/
theorem Legal.seen_arg {m : Mode} {n : Nat} {t : List Event} (L : Legal m n t) {i : Nat} {o : Outcome}
    (h : .seen i o ∈ t) : .argRes i o ∈ t := by
  obtain ⟨a, b, rfl⟩ := List.append_of_mem h
  have := (L.ok rfl).1
  simp [this]

theorem Legal.arg_unique {m : Mode} {n : Nat} {t : List Event} (L : Legal m n t) {i : Nat} {o o' : Outcome}
    (h : .argRes i o ∈ t) (h' : .argRes i o' ∈ t) : o = o' := by
  induction L with
  | nil => simp at h
  | snoc L ok ih =>
    simp only [List.mem_append, List.mem_singleton] at h h'
    rcases h with h | h <;> rcases h' with h' | h'
    · exact ih h h'
    · subst h'; exact absurd h (ok.2 o)
    · subst h; exact absurd h' (ok.2 o')
    · rw [← h'] at h; cases h; rfl

/-! ## Both -/

theorem inv_no_undefined {m : Mode} {n : Nat} {s : St} (I : Inv m n s) (a : Act) :
    step m n s a ≠ .ub := by
  cases a <;> simp only [step] <;> (repeat' split) <;> (try simp only [ne_eq, reduceCtorEq, not_false_eq_true]) <;>
    first
    | grind [Inv]
    | (rename_i i _ _ _ _ hc
       rcases I.data.call I.npos (I.fire2 i (by grind)).1 with ⟨xs', idx', h, h'⟩ | ⟨e', h, h'⟩ <;>
         rw [hc] at h <;> cases h)

/-- No step is undefined: in particular `_f` is not called twice, and finds all it needs. -/
theorem no_undefined {m : Mode} {n : Nat} (h0 : 0 < n) {s : St} (r : Reachable m n s) (a : Act) :
    step m n s a ≠ .ub :=
  inv_no_undefined (r.inv h0) a

/-- All arguments are attached, nothing is left for the executors to do, and no continuation is being called. -/
def Quiet (n : Nat) (s : St) : Prop :=
  s.att = n ∧ ∀ i, s.pc i ≠ .sched ∧ (∀ o, s.pc i ≠ .running o) ∧ s.pc i ≠ .fire

/-- When everything has been done, the arguments are resolved, the result is still wanted, and no executor dropped a
continuation: the function has been called or the result has failed. -/
theorem delivered {m : Mode} {n : Nat} (h0 : 0 < n) {s : St} (r : Reachable m n s) (q : Quiet n s)
    (ha : ∀ i, i < n → ∃ o, .argRes i o ∈ s.trace) (hd : .dropped ∉ s.trace) (hx : ∀ i, .discarded i ∉ s.trace) :
    (∃ xs i, .called xs i ∈ s.trace) ∨ ∃ e, .failed e ∈ s.trace := by
  have I := r.inv h0
  rw [I.evc]
  have hk : s.kept = true := by
    cases h : s.kept with
    | true => rfl
    | false => exact absurd (I.drp.2 h) hd
  have fin : trig m s.ctx → s.fired = true := by
    intro h
    rcases I.trg h with h | ⟨i, h⟩ | h
    · exact h
    · exact absurd h (q.2 i).2.2
    · rw [hk] at h; cases h
  refine Classical.byContradiction fun hf => ?_
  have nt : ¬ trig m s.ctx := fun h => hf (fin h)
  have allSeen : ∀ i, i < n → ∃ o, .seen i o ∈ s.trace := by
    intro i hi
    obtain ⟨o, ho⟩ := ha i hi
    have ho := (I.argt i o).1 ho
    have ⟨q1, q2, q3⟩ := q.2 i
    cases hp : s.pc i with
    | none => exact absurd hp ((I.attb i).2 (q.1 ▸ hi))
    | queued => rw [I.que i hp] at ho; cases ho
    | sched => exact absurd hp q1
    | running o => exact absurd hp (q2 o)
    | fire => exact absurd hp q3
    | done =>
      rcases I.don i hp with h | h | h
      · exact h
      · exact absurd h nt
      · rw [hk] at h; cases h
    | lost => exact absurd (I.lst i hp) (hx i)
  apply nt
  have D := I.data
  have all : ∀ D : AllData n s.trace s.ctx, s.ctx.exc ≠ none ∨ s.ctx.remaining = 0 := by
    intro D
    cases he : s.ctx.exc with
    | some e => simp
    | none =>
      right
      have hno : errs s.trace = [] := List.head?_eq_none_iff.1 (D.exc ▸ he)
      have := cnt_all (p := fun i => (s.ctx.slots i).isSome) (n := n) (by
        intro i hi
        obtain ⟨o, ho⟩ := allSeen i hi
        cases o with
        | val v => rw [D.slot' he i v ho]; rfl
        | exc e => have := errs_mem.2 ⟨i, ho⟩; rw [hno] at this; cases this)
      have := D.cnt
      omega
  have any : ∀ D : AnyData n s.trace s.ctx, s.ctx.index ≠ none ∨ s.ctx.remaining = 0 := by
    intro D
    cases he : s.ctx.index with
    | some e => simp
    | none =>
      right
      have hno : vals s.trace = [] := by
        have := D.first; rw [he] at this
        apply List.head?_eq_none_iff.1; rw [this]; cases s.ctx.arg <;> rfl
      have := cnt_all (p := bad s.trace) (n := n) (by
        intro i hi
        obtain ⟨o, ho⟩ := allSeen i hi
        cases o with
        | exc e => exact bad_iff.2 ⟨e, ho⟩
        | val v => have := vals_mem.2 ho; rw [hno] at this; cases this)
      have := D.cnt
      omega
  cases m <;> simp only [Data, trig] at *
  · exact all D
  · exact any D
  · exact all D.1
  · exact any D.1

/-! ## C36 -/

/-- The function is called at most once, and not if the result fails; which happens at most once, too. -/
theorem c36_once {m : Mode} (_ : m.isAll = true) {n : Nat} (h0 : 0 < n) {s : St} (r : Reachable m n s) :
    s.trace.countP isRes ≤ 1 := (r.inv h0).legal.once

theorem c36_no_undefined {m : Mode} (_ : m.isAll = true) {n : Nat} (h0 : 0 < n) {s : St} (r : Reachable m n s)
    (a : Act) : step m n s a ≠ .ub := no_undefined h0 r a

theorem inv_results {m : Mode} (hm : m.isAll = true) {n : Nat} {s : St} (I : Inv m n s)
    {xs : List Nat} {idx : Option Nat} (h : .called xs idx ∈ s.trace) :
    xs.length = n ∧ ∀ i v, xs[i]? = some v → .argRes i (.val v) ∈ s.trace := by
  have L := I.legal
  obtain ⟨a, b, hab⟩ := List.append_of_mem h
  have hx := (L.ok hab).2.2.2
  simp only [Expect, hm, if_true] at hx
  refine ⟨hx.2.1, fun i v hv => L.seen_arg ?_⟩
  rw [hab]; simp [hx.2.2 i v hv]

/-- If the function is called, it is with the value of argument `i` in position `i`, for all `n` arguments, all of which
succeeded. -/
theorem c36_results {m : Mode} (hm : m.isAll = true) {n : Nat} (h0 : 0 < n) {s : St} (r : Reachable m n s)
    {xs : List Nat} {idx : Option Nat} (h : .called xs idx ∈ s.trace) :
    xs.length = n ∧ ∀ i v, xs[i]? = some v → .argRes i (.val v) ∈ s.trace :=
  inv_results hm (r.inv h0) h

theorem inv_failed_not_called {m : Mode} (hm : m.isAll = true) {n : Nat} {s : St} (I : Inv m n s)
    {i : Nat} {e : Err} (hi : .argRes i (.exc e) ∈ s.trace) (xs : List Nat) (idx : Option Nat) :
    .called xs idx ∉ s.trace := by
  intro h
  have L := I.legal
  obtain ⟨h1, h2⟩ := inv_results hm I h
  obtain ⟨a, b, hab⟩ := List.append_of_mem hi
  have hin : i < n := (L.ok hab).1
  have := h2 i (xs[i]'(by omega)) (List.getElem?_eq_getElem (by omega))
  cases L.arg_unique hi this

/-- If an argument fails, the function is never called. -/
theorem c36_failed_not_called {m : Mode} (hm : m.isAll = true) {n : Nat} (h0 : 0 < n) {s : St} (r : Reachable m n s)
    {i : Nat} {e : Err} (hi : .argRes i (.exc e) ∈ s.trace) (xs : List Nat) (idx : Option Nat) :
    .called xs idx ∉ s.trace :=
  inv_failed_not_called hm (r.inv h0) hi xs idx

theorem inv_first_error {m : Mode} (hm : m.isAll = true) {n : Nat} {s : St} (I : Inv m n s)
    {e : Err} {a b : List Event} (h : s.trace = a ++ .failed e :: b) :
    ∃ a1 i a2, a = a1 ++ .seen i (.exc e) :: a2 ∧ .argRes i (.exc e) ∈ s.trace ∧ ∀ j e', .seen j (.exc e') ∉ a1 := by
  have L := I.legal
  have hx := (L.ok h).2.2.2
  simp only [Expect, hm, if_true] at hx
  have key : ∀ t : List Event, (errs t).head? = some e →
      ∃ a1 i a2, t = a1 ++ .seen i (.exc e) :: a2 ∧ ∀ j e', .seen j (.exc e') ∉ a1 := by
    intro t
    induction t with
    | nil => simp [errs]
    | cons x t ih =>
      intro ht
      by_cases hx : ∃ i e', x = .seen i (.exc e')
      · obtain ⟨i, e', rfl⟩ := hx
        simp [errs] at ht
        subst ht
        exact ⟨[], i, t, rfl, by simp⟩
      · have : errs (x :: t) = errs t := by
          simp only [errs, List.filterMap_cons]
          split
          · rfl
          · rename_i h
            split at h
            · exact absurd ⟨_, _, rfl⟩ hx
            · cases h
        rw [this] at ht
        obtain ⟨a1, i, a2, h1, h2⟩ := ih ht
        refine ⟨x :: a1, i, a2, by rw [h1]; rfl, ?_⟩
        intro j e' hj
        rcases List.mem_cons.1 hj with hj | hj
        · exact hx ⟨j, e', hj.symm⟩
        · exact h2 j e' hj
  obtain ⟨a1, i, a2, h1, h2⟩ := key a hx
  refine ⟨a1, i, a2, h1, L.seen_arg ?_, h2⟩
  rw [h, h1]; simp

/-- If the result fails, it is with the error of the first failing argument. -/
theorem c36_first_error {m : Mode} (hm : m.isAll = true) {n : Nat} (h0 : 0 < n) {s : St} (r : Reachable m n s)
    {e : Err} {a b : List Event} (h : s.trace = a ++ .failed e :: b) :
    ∃ a1 i a2, a = a1 ++ .seen i (.exc e) :: a2 ∧ .argRes i (.exc e) ∈ s.trace ∧ ∀ j e', .seen j (.exc e') ∉ a1 :=
  inv_first_error hm (r.inv h0) h

/-- The function is called if all arguments succeed: once nothing is left to do, unless the result was dropped or an
executor dropped a continuation. -/
theorem c36_called {m : Mode} (hm : m.isAll = true) {n : Nat} (h0 : 0 < n) {s : St} (r : Reachable m n s)
    (q : Quiet n s) (ha : ∀ i, i < n → ∃ v, .argRes i (.val v) ∈ s.trace) (hd : .dropped ∉ s.trace)
    (hx : ∀ i, .discarded i ∉ s.trace) : ∃ xs idx, .called xs idx ∈ s.trace := by
  rcases delivered h0 r q (fun i hi => ⟨_, (ha i hi).choose_spec⟩) hd hx with h | ⟨e, h⟩
  · exact h
  · have L := (r.inv h0).legal
    obtain ⟨a, b, hab⟩ := List.append_of_mem h
    obtain ⟨_, i, _, -, h', -⟩ := c36_first_error hm h0 r hab
    obtain ⟨c, d, hcd⟩ := List.append_of_mem h'
    obtain ⟨v, hv⟩ := ha i (L.ok hcd).1
    cases L.arg_unique h' hv

/-- And the result fails if an argument fails, under the same conditions. -/
theorem c36_fails {m : Mode} (hm : m.isAll = true) {n : Nat} (h0 : 0 < n) {s : St} (r : Reachable m n s)
    (q : Quiet n s) (ha : ∀ i, i < n → ∃ o, .argRes i o ∈ s.trace) {i : Nat} {e : Err}
    (hi : .argRes i (.exc e) ∈ s.trace) (hd : .dropped ∉ s.trace) (hx : ∀ i, .discarded i ∉ s.trace) :
    ∃ e', .failed e' ∈ s.trace := by
  rcases delivered h0 r q ha hd hx with ⟨xs, idx, h⟩ | h
  · exact absurd h (c36_failed_not_called hm h0 r hi xs idx)
  · exact h

theorem inv_seen_or_fired {m : Mode} {n : Nat} {s : St} (I : Inv m n s) (q : Quiet n s) {i : Nat} {o : Outcome}
    (hi : .argRes i o ∈ s.trace) (hd : .dropped ∉ s.trace) (hx : .discarded i ∉ s.trace) :
    .seen i o ∈ s.trace ∨ (∃ xs i, .called xs i ∈ s.trace) ∨ ∃ e, .failed e ∈ s.trace := by
  rw [I.evc]
  have hk : s.kept = true := by
    cases h : s.kept with
    | true => rfl
    | false => exact absurd (I.drp.2 h) hd
  have fin : trig m s.ctx → s.fired = true := by
    intro h
    rcases I.trg h with h | ⟨i, h⟩ | h
    · exact h
    · exact absurd h (q.2 i).2.2
    · rw [hk] at h; cases h
  have hin : i < n := by
    obtain ⟨a, b, hab⟩ := List.append_of_mem hi
    exact (I.legal.ok hab).1
  have ho := (I.argt i o).1 hi
  have ⟨q1, q2, q3⟩ := q.2 i
  cases hp : s.pc i with
  | none => exact absurd hp ((I.attb i).2 (q.1 ▸ hin))
  | queued => rw [I.que i hp] at ho; cases ho
  | sched => exact absurd hp q1
  | running o => exact absurd hp (q2 o)
  | fire => exact absurd hp q3
  | done =>
    rcases I.don i hp with ⟨o', h⟩ | h | h
    · have := I.legal.arg_unique (I.legal.seen_arg h) hi
      subst this
      exact .inl h
    · exact .inr (fin h)
    · rw [hk] at h; cases h
  | lost => exact absurd (I.lst i hp) hx

/-- When nothing is left to do, and the result is wanted, the context has seen every argument that is ready, unless what it saw before
was enough to call `_f`. -/
theorem seen_or_fired {m : Mode} {n : Nat} (h0 : 0 < n) {s : St} (r : Reachable m n s) (q : Quiet n s) {i : Nat} {o : Outcome}
    (hi : .argRes i o ∈ s.trace) (hd : .dropped ∉ s.trace) (hx : .discarded i ∉ s.trace) :
    .seen i o ∈ s.trace ∨ (∃ xs i, .called xs i ∈ s.trace) ∨ ∃ e, .failed e ∈ s.trace :=
  inv_seen_or_fired (r.inv h0) q hi hd hx

theorem inv_fails_early {m : Mode} (hm : m.isAll = true) {n : Nat} {s : St} (I : Inv m n s) (q : Quiet n s) {i : Nat}
    {e : Err} (hi : .argRes i (.exc e) ∈ s.trace) (hd : .dropped ∉ s.trace) (hx : .discarded i ∉ s.trace) :
    ∃ e', .failed e' ∈ s.trace := by
  have nc := inv_failed_not_called hm I hi
  rcases inv_seen_or_fired I q hi hd hx with h | ⟨xs, j, h⟩ | h
  · have key : ∀ D : AllData n s.trace s.ctx, s.ctx.exc ≠ none := by
      intro D he
      have hno : errs s.trace = [] := List.head?_eq_none_iff.1 (D.exc ▸ he)
      have := errs_mem.2 ⟨i, h⟩
      rw [hno] at this
      cases this
    have ht : trig m s.ctx := by
      have D := I.data
      cases m <;> simp only [Data, trig, Mode.isAll, Bool.false_eq_true] at *
      · exact .inl (key D)
      · exact .inl (key D.1)
    have hf : s.fired = true := by
      rcases I.trg ht with h | ⟨i, h⟩ | h
      · exact h
      · exact absurd h (q.2 i).2.2
      · exact absurd (I.drp.2 h) hd
    rcases I.evc.2 hf with ⟨xs, j, h⟩ | h
    · exact absurd h (nc xs j)
    · exact h
  · exact absurd h (nc xs j)
  · exact h

/-- The result fails as soon as one argument fails, even if the others never become ready. -/
theorem c36_fails_early {m : Mode} (hm : m.isAll = true) {n : Nat} (h0 : 0 < n) {s : St} (r : Reachable m n s) (q : Quiet n s) {i : Nat}
    {e : Err} (hi : .argRes i (.exc e) ∈ s.trace) (hd : .dropped ∉ s.trace) (hx : .discarded i ∉ s.trace) :
    ∃ e', .failed e' ∈ s.trace :=
  inv_fails_early hm (r.inv h0) q hi hd hx

/-- An empty range calls the function at most once, with no results; and it calls it, when the executor has run the task
it was given, if the result is still wanted. -/
theorem c36_empty_range {s : Empty.St} (r : Empty.Reachable .allRange s) :
    (∀ xs idx, .called xs idx ∈ s.trace → xs = [] ∧ idx = none) ∧ s.trace.countP isRes ≤ 1 ∧
      (s.sched = false → .dropped ∉ s.trace → .discarded 0 ∉ s.trace → .called [] none ∈ s.trace) := by
  obtain ⟨as, e⟩ := r
  have key : ∀ as s0, ((∀ xs idx, .called xs idx ∈ s0.trace → xs = [] ∧ idx = none) ∧ s0.trace.countP isRes ≤ 1 ∧
      (s0.sched = true → s0.trace.countP isRes = 0) ∧ (s0.kept = false → .dropped ∈ s0.trace) ∧
      (s0.sched = false → .dropped ∉ s0.trace → .discarded 0 ∉ s0.trace → .called [] none ∈ s0.trace)) →
      Empty.exec s0 as = some s → (∀ xs idx, .called xs idx ∈ s.trace → xs = [] ∧ idx = none) ∧ s.trace.countP isRes ≤ 1 ∧
      (s.sched = false → .dropped ∉ s.trace → .discarded 0 ∉ s.trace → .called [] none ∈ s.trace) := by
    intro as
    induction as with
    | nil => rintro s0 ⟨h1, h2, -, -, h3⟩ e; cases e; exact ⟨h1, h2, h3⟩
    | cons a as ih =>
      rintro s0 ⟨h1, h2, h3, h4, h5⟩ e
      simp only [Empty.exec] at e
      cases hs : Empty.step s0 a with
      | none => rw [hs] at e; cases e
      | some s1 =>
        rw [hs] at e
        refine ih s1 ?_ e
        cases a with
        | run =>
          have hc : call .allRange 0 { remaining := 0 } = .call [] none := rfl
          simp only [Empty.step, hc] at hs
          grind [isRes]
        | discard => simp only [Empty.step] at hs; grind [isRes]
        | drop => simp only [Empty.step] at hs; grind [isRes]
  exact key as _ (by simp [Empty.init]) e

example : ∃ s, Empty.Reachable .allRange s ∧ s.trace = [.called [] none, .dropped] :=
  ⟨_, ⟨[.run, .drop], rfl⟩, rfl⟩

/-- An empty pack of futures never calls the function: nothing ever happens, except that the result is dropped. -/
theorem c36_empty_pack_counterexample {s : St} (r : Reachable .allPack 0 s) :
    (∀ xs idx, .called xs idx ∉ s.trace) ∧ Quiet 0 s := by
  obtain ⟨as, e⟩ := r
  have key : ∀ as s0, (s0 = init 0 ∨ s0 = { init 0 with kept := false, trace := [.dropped] }) →
      exec .allPack 0 s0 as = some s → s = init 0 ∨ s = { init 0 with kept := false, trace := [.dropped] } := by
    intro as
    induction as with
    | nil => intro s0 h e; simp only [exec, Option.some.injEq] at e; exact e ▸ h
    | cons a as ih =>
      intro s0 h e
      simp only [exec] at e
      split at e
      · rename_i s1 h1
        refine ih s1 ?_ e
        rcases h with rfl | rfl <;> cases a <;> simp [step, init] at h1
        exact .inr h1.symm
      · cases e
  rcases key as _ (.inl rfl) e with rfl | rfl <;> simp [init, Quiet]

/-! ## C37 -/

theorem c37_once {m : Mode} (_ : m.isAll = false) {n : Nat} (h0 : 0 < n) {s : St} (r : Reachable m n s) :
    s.trace.countP isRes ≤ 1 := (r.inv h0).legal.once

theorem c37_no_undefined {m : Mode} (_ : m.isAll = false) {n : Nat} (h0 : 0 < n) {s : St} (r : Reachable m n s)
    (a : Act) : step m n s a ≠ .ub := no_undefined h0 r a

theorem inv_first_success {m : Mode} (hm : m.isAll = false) {n : Nat} {s : St} (I : Inv m n s)
    {xs : List Nat} {idx : Option Nat} {a b : List Event} (h : s.trace = a ++ .called xs idx :: b) :
    ∃ a1 i v a2, a = a1 ++ .seen i (.val v) :: a2 ∧ .argRes i (.val v) ∈ s.trace ∧ xs = [v] ∧ idx = some i ∧
      ∀ j w, .seen j (.val w) ∉ a1 := by
  have L := I.legal
  have hx := (L.ok h).2.2.2
  simp only [Expect, hm, Bool.false_eq_true, if_false] at hx
  obtain ⟨v, i, hv, rfl, rfl⟩ := hx
  have key : ∀ t : List Event, (vals t).head? = some (v, i) →
      ∃ a1 a2, t = a1 ++ .seen i (.val v) :: a2 ∧ ∀ j w, .seen j (.val w) ∉ a1 := by
    intro t
    induction t with
    | nil => simp [vals]
    | cons x t ih =>
      intro ht
      by_cases hx : ∃ i w, x = .seen i (.val w)
      · obtain ⟨i', w, rfl⟩ := hx
        simp [vals] at ht
        obtain ⟨rfl, rfl⟩ := ht
        exact ⟨[], t, rfl, by simp⟩
      · have : vals (x :: t) = vals t := by
          simp only [vals, List.filterMap_cons]
          split
          · rfl
          · rename_i h
            split at h
            · exact absurd ⟨_, _, rfl⟩ hx
            · cases h
        rw [this] at ht
        obtain ⟨a1, a2, h1, h2⟩ := ih ht
        refine ⟨x :: a1, a2, by rw [h1]; rfl, ?_⟩
        intro j e' hj
        rcases List.mem_cons.1 hj with hj | hj
        · exact hx ⟨j, e', hj.symm⟩
        · exact h2 j e' hj
  obtain ⟨a1, a2, h1, h2⟩ := key a hv
  refine ⟨a1, i, v, a2, h1, L.seen_arg ?_, rfl, rfl, h2⟩
  rw [h, h1]; simp

/-- If the function is called, it is with value and index of the first argument to succeed. -/
theorem c37_first_success {m : Mode} (hm : m.isAll = false) {n : Nat} (h0 : 0 < n) {s : St} (r : Reachable m n s)
    {xs : List Nat} {idx : Option Nat} {a b : List Event} (h : s.trace = a ++ .called xs idx :: b) :
    ∃ a1 i v a2, a = a1 ++ .seen i (.val v) :: a2 ∧ .argRes i (.val v) ∈ s.trace ∧ xs = [v] ∧ idx = some i ∧
      ∀ j w, .seen j (.val w) ∉ a1 :=
  inv_first_success hm (r.inv h0) h

theorem inv_last_error {m : Mode} (hm : m.isAll = false) {n : Nat} {s : St} (I : Inv m n s)
    {e : Err} {a b : List Event} (h : s.trace = a ++ .failed e :: b) :
    (∃ a1 i a2, a = a1 ++ .seen i (.exc e) :: a2 ∧ .argRes i (.exc e) ∈ s.trace ∧ ∀ j o, .seen j o ∉ a2) ∧
    ∀ i, i < n → ∃ e', .argRes i (.exc e') ∈ s.trace := by
  have L := I.legal
  have hx := (L.ok h).2.2.2
  simp only [Expect, hm, Bool.false_eq_true, if_false] at hx
  obtain ⟨hl, ha⟩ := hx
  have allf : ∀ i, i < n → ∃ e', .argRes i (.exc e') ∈ s.trace := by
    intro i hi
    obtain ⟨e', he⟩ := ha i hi
    exact ⟨e', L.seen_arg (by rw [h]; simp [he])⟩
  refine ⟨?_, allf⟩
  have noval : ∀ j v, .seen j (.val v) ∉ a := by
    intro j v hj
    have h1 := L.seen_arg (i := j) (o := .val v) (by rw [h]; simp [hj])
    obtain ⟨c, d, hcd⟩ := List.append_of_mem h1
    obtain ⟨e', he⟩ := allf j (L.ok hcd).1
    cases L.arg_unique h1 he
  have key : ∀ t : List Event, (∀ j v, .seen j (.val v) ∉ t) → (errs t).getLast? = some e →
      ∃ a1 i a2, t = a1 ++ .seen i (.exc e) :: a2 ∧ ∀ j o, .seen j o ∉ a2 := by
    intro t
    induction t with
    | nil => simp [errs]
    | cons x t ih =>
      intro hv ht
      have hv' : ∀ j v, .seen j (.val v) ∉ t := fun j v hj => hv j v (List.mem_cons_of_mem _ hj)
      by_cases hn : errs t = []
      · have : ∃ i, x = .seen i (.exc e) := by
          simp only [errs, List.filterMap_cons] at ht hn
          split at ht
          · rw [hn] at ht; simp at ht
          · rename_i h
            split at h
            · rename_i i e'
              rw [hn] at ht
              simp at ht h
              exact ⟨i, by rw [h, ht]⟩
            · cases h
        obtain ⟨i, rfl⟩ := this
        refine ⟨[], i, t, rfl, ?_⟩
        intro j o hj
        cases o with
        | val v => exact hv' j v hj
        | exc e' => have := errs_mem.2 ⟨j, hj⟩; rw [hn] at this; cases this
      · have ht' : (errs t).getLast? = some e := by
          have : errs (x :: t) = errs [x] ++ errs t := by
            simp only [errs, ← List.filterMap_append]; rfl
          rw [this, List.getLast?_append] at ht
          cases hl : (errs t).getLast? with
          | none => exact absurd (List.getLast?_eq_none_iff.1 hl) hn
          | some y => rw [hl] at ht; exact ht
        obtain ⟨a1, i, a2, h1, h2⟩ := ih hv' ht'
        exact ⟨x :: a1, i, a2, by rw [h1]; rfl, h2⟩
  obtain ⟨a1, i, a2, h1, h2⟩ := key a noval hl
  refine ⟨a1, i, a2, h1, L.seen_arg ?_, h2⟩
  rw [h, h1]; simp

/-- If the result fails, all arguments have failed, and it carries the error of the last of them. -/
theorem c37_last_error {m : Mode} (hm : m.isAll = false) {n : Nat} (h0 : 0 < n) {s : St} (r : Reachable m n s)
    {e : Err} {a b : List Event} (h : s.trace = a ++ .failed e :: b) :
    (∃ a1 i a2, a = a1 ++ .seen i (.exc e) :: a2 ∧ .argRes i (.exc e) ∈ s.trace ∧ ∀ j o, .seen j o ∉ a2) ∧
    ∀ i, i < n → ∃ e', .argRes i (.exc e') ∈ s.trace :=
  inv_last_error hm (r.inv h0) h

/-- The function is not called if all arguments fail. -/
theorem c37_all_failed_not_called {m : Mode} (hm : m.isAll = false) {n : Nat} (h0 : 0 < n) {s : St}
    (r : Reachable m n s) (ha : ∀ i v, .argRes i (.val v) ∉ s.trace) (xs : List Nat) (idx : Option Nat) :
    .called xs idx ∉ s.trace := by
  intro h
  obtain ⟨a, b, hab⟩ := List.append_of_mem h
  obtain ⟨_, i, v, _, -, h', -⟩ := c37_first_success hm h0 r hab
  exact ha i v h'

/-- The function is called if some argument succeeds, once nothing is left to do. -/
theorem c37_called {m : Mode} (hm : m.isAll = false) {n : Nat} (h0 : 0 < n) {s : St} (r : Reachable m n s)
    (q : Quiet n s) (ha : ∀ i, i < n → ∃ o, .argRes i o ∈ s.trace) {i v : Nat} (hi : .argRes i (.val v) ∈ s.trace)
    (hd : .dropped ∉ s.trace) (hx : ∀ i, .discarded i ∉ s.trace) : ∃ xs idx, .called xs idx ∈ s.trace := by
  rcases delivered h0 r q ha hd hx with h | ⟨e, h⟩
  · exact h
  · have L := (r.inv h0).legal
    obtain ⟨a, b, hab⟩ := List.append_of_mem h
    obtain ⟨c, d, hcd⟩ := List.append_of_mem hi
    obtain ⟨e', h'⟩ := (c37_last_error hm h0 r hab).2 i (L.ok hcd).1
    cases L.arg_unique hi h'

theorem inv_called_early {m : Mode} (hm : m.isAll = false) {n : Nat} {s : St} (I : Inv m n s)
    (q : Quiet n s) {i v : Nat} (hi : .seen i (.val v) ∈ s.trace) (hd : .dropped ∉ s.trace) :
    ∃ xs idx, .called xs idx ∈ s.trace := by
  have L := I.legal
  have ht : trig m s.ctx := by
    have key : ∀ D : AnyData n s.trace s.ctx, s.ctx.index ≠ none := by
      intro D h
      have := D.first
      rw [h] at this
      have hv : vals s.trace = [] := by
        apply List.head?_eq_none_iff.1; rw [this]; cases s.ctx.arg <;> rfl
      have := vals_mem.2 hi
      rw [hv] at this; cases this
    have D := I.data
    cases m <;> simp only [Mode.isAll, Bool.true_eq_false] at hm <;> simp only [Data, trig] at *
    · exact .inl (key D)
    · exact .inl (key D.1)
  have hf : s.fired = true := by
    rcases I.trg ht with h | ⟨j, h⟩ | h
    · exact h
    · exact absurd h (q.2 j).2.2
    · exact absurd (I.drp.2 h) hd
  rcases I.evc.2 hf with h | ⟨e, h⟩
  · exact h
  · obtain ⟨a, b, hab⟩ := List.append_of_mem h
    have ha := L.seen_arg hi
    obtain ⟨c, d, hcd⟩ := List.append_of_mem ha
    obtain ⟨e', h'⟩ := (inv_last_error hm I hab).2 i (L.ok hcd).1
    cases L.arg_unique ha h'

/-- It is called then even if some arguments never become ready: a success that the context has seen is enough. -/
theorem c37_called_early {m : Mode} (hm : m.isAll = false) {n : Nat} (h0 : 0 < n) {s : St} (r : Reachable m n s)
    (q : Quiet n s) {i v : Nat} (hi : .seen i (.val v) ∈ s.trace) (hd : .dropped ∉ s.trace) :
    ∃ xs idx, .called xs idx ∈ s.trace :=
  inv_called_early hm (r.inv h0) q hi hd

theorem inv_called_first {m : Mode} (hm : m.isAll = false) {n : Nat} {s : St} (I : Inv m n s) (q : Quiet n s)
    {i v : Nat} (hi : .argRes i (.val v) ∈ s.trace) (hd : .dropped ∉ s.trace) (hx : .discarded i ∉ s.trace) :
    ∃ xs idx, .called xs idx ∈ s.trace := by
  rcases inv_seen_or_fired I q hi hd hx with h | h | ⟨e, h⟩
  · exact inv_called_early hm I q h hd
  · exact h
  · have L := I.legal
    obtain ⟨a, b, hab⟩ := List.append_of_mem h
    obtain ⟨c, d, hcd⟩ := List.append_of_mem hi
    obtain ⟨e', h'⟩ := (inv_last_error hm I hab).2 i (L.ok hcd).1
    cases L.arg_unique hi h'

/-- So it is called as soon as one argument succeeds, unless the executor drops the continuation of that. -/
theorem c37_called_first {m : Mode} (hm : m.isAll = false) {n : Nat} (h0 : 0 < n) {s : St} (r : Reachable m n s) (q : Quiet n s)
    {i v : Nat} (hi : .argRes i (.val v) ∈ s.trace) (hd : .dropped ∉ s.trace) (hx : .discarded i ∉ s.trace) :
    ∃ xs idx, .called xs idx ∈ s.trace :=
  inv_called_first hm (r.inv h0) q hi hd hx

/-- The result fails if all arguments fail, once nothing is left to do. -/
theorem c37_fails {m : Mode} (hm : m.isAll = false) {n : Nat} (h0 : 0 < n) {s : St} (r : Reachable m n s)
    (q : Quiet n s) (ha : ∀ i, i < n → ∃ e, .argRes i (.exc e) ∈ s.trace) (hd : .dropped ∉ s.trace)
    (hx : ∀ i, .discarded i ∉ s.trace) : ∃ e, .failed e ∈ s.trace := by
  rcases delivered h0 r q (fun i hi => ⟨_, (ha i hi).choose_spec⟩) hd hx with ⟨xs, idx, h⟩ | h
  · have L := (r.inv h0).legal
    obtain ⟨a, b, hab⟩ := List.append_of_mem h
    obtain ⟨_, i, v, _, -, h', -⟩ := c37_first_success hm h0 r hab
    obtain ⟨c, d, hcd⟩ := List.append_of_mem h'
    obtain ⟨e, he⟩ := ha i (L.ok hcd).1
    cases L.arg_unique h' he
  · exact h

/-- An empty range gives a broken promise, and nothing else. -/
theorem c37_empty_range {s : Empty.St} (r : Empty.Reachable .anyRange s) :
    s.trace = [.failed .broken] ∨ s.trace = [.failed .broken, .dropped] := by
  obtain ⟨as, e⟩ := r
  have key : ∀ as s0, s0.sched = false ∧ (s0.trace = [.failed .broken] ∨ s0.trace = [.failed .broken, .dropped] ∧ s0.kept = false) →
      Empty.exec s0 as = some s → s.trace = [.failed .broken] ∨ s.trace = [.failed .broken, .dropped] := by
    intro as
    induction as with
    | nil => rintro s0 ⟨-, h⟩ e; cases e; exact h.imp id (·.1)
    | cons a as ih =>
      rintro s0 ⟨h1, h2⟩ e
      simp only [Empty.exec] at e
      cases hs : Empty.step s0 a with
      | none => rw [hs] at e; cases e
      | some s1 =>
        rw [hs] at e
        refine ih s1 ?_ e
        cases a <;> simp only [Empty.step] at hs <;> grind
  exact key as _ (by simp [Empty.init]) e

example : ∃ s, Empty.Reachable .anyRange s ∧ s.trace = [.failed .broken, .dropped] := ⟨_, ⟨[.drop], rfl⟩, rfl⟩

/-! ## Examples -/

/-- Three futures, attached one after the other. -/
def attach3 : List Act := [.attach, .store, .attach, .store, .attach, .store]

/-- They succeed in the order 2, 0, 1, and their continuations overlap. -/
def demoActs : List Act := attach3 ++ [.resolve 2 (.val 12), .resolve 0 (.val 10), .resolve 1 (.val 11), .run 2, .run 0,
  .crit 0, .run 1, .crit 2, .crit 1, .fire 1]

def demoTrace (e : Event) : List Event := [.argRes 2 (.val 12), .argRes 0 (.val 10), .argRes 1 (.val 11),
  .seen 0 (.val 10), .seen 2 (.val 12), .seen 1 (.val 11), e]

example : (exec .allPack 3 (init 3) demoActs).map (·.trace) = some (demoTrace (.called [10, 11, 12] none)) := by decide
example : (exec .allRange 3 (init 3) demoActs).map (·.trace) = some (demoTrace (.called [10, 11, 12] none)) := by decide

/-- 0 and 1 fail, 2 is canceled or ignored. -/
def failActs : List Act := attach3 ++ [.resolve 1 (.exc (.user 1)), .resolve 0 (.exc (.user 0)), .run 1, .run 0, .crit 1,
  .crit 0, .fire 1]

example : (exec .allPack 3 (init 3) failActs).map (·.trace) = some [.argRes 1 (.exc (.user 1)),
    .argRes 0 (.exc (.user 0)), .seen 1 (.exc (.user 1)), .seen 0 (.exc (.user 0)), .failed (.user 1)] := by decide
example : (exec .allRange 3 (init 3) failActs).map (·.trace) = some [.argRes 1 (.exc (.user 1)),
    .argRes 0 (.exc (.user 0)), .seen 1 (.exc (.user 1)), .seen 0 (.exc (.user 0)), .failed (.user 1)] := by decide

/-- 1 fails, 2 and 0 succeed. -/
def anyActs : List Act := attach3 ++ [.resolve 1 (.exc (.user 1)), .resolve 0 (.val 10), .resolve 2 (.val 12), .run 1,
  .run 2, .run 0, .crit 1, .crit 2, .crit 0, .fire 2]

example : (exec .anyPack 3 (init 3) anyActs).map (·.trace) = some [.argRes 1 (.exc (.user 1)), .argRes 0 (.val 10),
    .argRes 2 (.val 12), .seen 1 (.exc (.user 1)), .seen 2 (.val 12), .seen 0 (.val 10), .called [12] (some 2)] := by decide
example : (exec .anyRange 3 (init 3) anyActs).map (·.trace) = some [.argRes 1 (.exc (.user 1)), .argRes 0 (.val 10),
    .argRes 2 (.val 12), .seen 1 (.exc (.user 1)), .seen 2 (.val 12), .seen 0 (.val 10), .called [12] (some 2)] := by decide

/-- All fail, 1 last. -/
def allFail : List Act := attach3 ++ [.resolve 1 (.exc (.user 1)), .resolve 0 (.exc (.user 0)),
  .resolve 2 (.exc (.user 2)), .run 2, .run 0, .run 1, .crit 2, .crit 0, .crit 1, .fire 1]

example : (exec .anyPack 3 (init 3) allFail).map (·.trace.getLast?) = some (some (.failed (.user 1))) := by decide
example : (exec .anyRange 3 (init 3) allFail).map (·.trace.getLast?) = some (some (.failed (.user 1))) := by decide

/-- `Quiet`, checked for the arguments only. -/
theorem quiet_of {m : Mode} {n : Nat} (h0 : 0 < n) {as : List Act} {s : St} (e : exec m n (init n) as = some s)
    (h : s.att = n ∧ ∀ i, i < n → s.pc i = .queued ∨ s.pc i = .done) : Quiet n s := by
  refine ⟨h.1, fun i => ?_⟩
  have : s.pc i = .queued ∨ s.pc i = .done ∨ s.pc i = .none := by
    by_cases hi : i < n
    · rcases h.2 i hi with h | h
      · exact .inl h
      · exact .inr (.inl h)
    · refine .inr (.inr (Classical.byContradiction fun hn => hi ?_))
      have := ((Reachable.inv h0 ⟨as, e⟩).attb i).1 hn
      omega
  rcases this with h | h | h <;> simp [h]

/-- The conditions of `c36_fails_early` and `c37_called_first`: the arguments 0 and 2 never become ready. -/
example : ∃ s, Reachable .allRange 3 s ∧ Quiet 3 s ∧ s.trace = [.argRes 1 (.exc (.user 1)), .seen 1 (.exc (.user 1)), .failed (.user 1)] :=
  have e : exec .allRange 3 (init 3) (attach3 ++ [.resolve 1 (.exc (.user 1)), .run 1, .crit 1, .fire 1]) = some _ := rfl
  ⟨_, ⟨_, e⟩, quiet_of (by decide) e (by decide), rfl⟩

example : ∃ s, Reachable .anyPack 3 s ∧ Quiet 3 s ∧ s.trace = [.argRes 1 (.val 5), .seen 1 (.val 5), .called [5] (some 1)] :=
  have e : exec .anyPack 3 (init 3) (attach3 ++ [.resolve 1 (.val 5), .run 1, .crit 1, .fire 1]) = some _ := rfl
  ⟨_, ⟨_, e⟩, quiet_of (by decide) e (by decide), rfl⟩

def demoEnd : St := (exec .allPack 3 (init 3) demoActs).getD (init 3)

theorem demoEnd_reachable : Reachable .allPack 3 demoEnd := by
  have : (exec .allPack 3 (init 3) demoActs).isSome = true := by decide
  obtain ⟨x, hx⟩ := Option.isSome_iff_exists.1 this
  exact ⟨demoActs, by simp [demoEnd, hx]⟩

/-- The conditions of `c36_called` are met at the end of `demoActs`. -/
example : Reachable .allPack 3 demoEnd ∧ Quiet 3 demoEnd ∧ (∀ i, i < 3 → ∃ v, .argRes i (.val v) ∈ demoEnd.trace) ∧
    .dropped ∉ demoEnd.trace ∧ ∀ i, .discarded i ∉ demoEnd.trace := by
  have ht : demoEnd.trace = demoTrace (.called [10, 11, 12] none) := by decide
  have ha : demoEnd.att = 3 := by decide
  refine ⟨demoEnd_reachable, ⟨ha, ?_⟩, ?_, by decide, by simp [ht, demoTrace]⟩
  · intro i
    have : demoEnd.pc i = .done ∨ demoEnd.pc i = .none := by
      rcases i with _ | _ | _ | i
      · exact .inl (by decide)
      · exact .inl (by decide)
      · exact .inl (by decide)
      · refine .inr (Classical.byContradiction fun h => ?_)
        have := ((demoEnd_reachable.inv (by decide)).attb _).1 h
        omega
    rcases this with h | h <;> simp [h]
  · intro i hi
    rcases i with _ | _ | _ | i
    · exact ⟨10, by decide⟩
    · exact ⟨11, by decide⟩
    · exact ⟨12, by decide⟩
    · omega

end Verif.When
