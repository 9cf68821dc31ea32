import Verif.Future.SharedInv

/-!
# Properties of the shared state of a future: C30, C31, and C33, C34 for one state
-/

namespace Verif.Shared

/-! ## Consequences of legality, for any trace -/

theorem Legal.split {t u : List Event} (h : Legal (t ++ u)) : Legal t := by
  generalize hw : t ++ u = w at h
  induction h generalizing u with
  | nil => have := List.append_eq_nil_iff.1 hw; rw [this.1]; exact .nil
  | @snoc t' e h1 h2 ih =>
    rcases List.eq_nil_or_concat u with rfl | ⟨u', x, rfl⟩
    · rw [List.append_nil] at hw; rw [hw]; exact .snoc h1 h2
    · rw [List.concat_eq_append, ← List.append_assoc] at hw
      exact ih (List.append_inj_left' hw rfl)

/-- Every event of a legal trace is allowed by the events before it. -/
theorem Legal.at {t u : List Event} {e : Event} (h : Legal (t ++ e :: u)) : Ok t e := by
  have h1 : Legal (t ++ [e]) := Legal.split (u := u) (by simpa using h)
  generalize hw : t ++ [e] = w at h1
  cases h1 with
  | nil => simp at hw
  | snoc a b =>
    have h2 := List.append_inj' hw rfl
    obtain ⟨rfl, h3⟩ := h2
    cases h3; exact b

/-- An event that may not be repeated occurs at most once in a legal trace. -/
theorem Legal.count_le {t : List Event} (p : Event → Bool) (h : Legal t)
    (hp : ∀ t e, p e = true → Ok t e → ∀ x, p x = true → x ∉ t) : t.countP p ≤ 1 := by
  induction h with
  | nil => simp
  | @snoc t e h1 h2 ih =>
    rw [List.countP_append]
    cases he : p e with
    | false => simpa [he] using ih
    | true =>
      have : t.countP p = 0 := by
        rw [List.countP_eq_zero]; intro x hx hpx; exact hp t e he h2 x hpx hx
      simp [this, he]

/-! ## C30 -/

/-- No interleaving of producers, consumers and continuations is undefined: `_result` and `_exception` are never
written while they may be read, never read before they are written, and the packaged function is never
called twice. -/
theorem c30_no_undefined {s : St} (hr : Reachable s) (a : Act) : step s a ≠ .ub := by
  have I := hr.inv
  intro e
  cases a <;> simp only [step] at e <;> (repeat' split at e) <;> try cases e
  · rename_i h _ _ hh _ _ _ hi
    exact I.once hi _ hh
  · rename_i h _ o hh hy
    have := I.ry h (by simp [hh, pend])
    rw [hy] at this; cases this
  · rename_i k _ u hk _ hl
    have hr : s.ready = true := I.rdyc k (by simp [hk, past])
    have hdt : s.isDet k = false := by have := I.detpc k; grind
    have hcc : s.canceled k = false := by have := I.canc k; grind
    obtain ⟨o, _, hl'⟩ := I.look hr (I.notMovedCont ((I.hcont k).2 (by simp [hk, live, hdt, hcc])))
    rw [hl] at hl'; cases hl'
  · rename_i f _ u hf _ hl
    obtain ⟨o, _, hl'⟩ := I.look (I.rdy2 f u hf) (I.notMovedFut (f := f) (by simp [hf]) (by simp [hf]))
    rw [hl] at hl'; cases hl'

/-- The state is resolved at most once. -/
theorem c30_resolved_once {s : St} (hr : Reachable s) :
    s.trace.countP (fun | .resolved _ => true | _ => false) ≤ 1 := by
  refine hr.inv.legal.count_le _ fun t e he hok x hx => ?_
  cases e <;> simp at he
  cases x <;> simp at hx
  exact hok _

/-- All readers and all continuations get the one outcome the state was resolved with; nobody ever sees a
moved-from value. -/
theorem c30_same_outcome {s : St} (hr : Reachable s) :
    ∃ o, (∀ f x, .got f x ∈ s.trace → x = .out o) ∧ (∀ k x, .ran k x ∈ s.trace → x = .out o) ∧
      ∀ o', .resolved o' ∈ s.trace → o' = o := by
  have I := hr.inv
  have uniq : ∀ o o', .resolved o ∈ s.trace → .resolved o' ∈ s.trace → o = o' := by
    intro o o' h h'
    have h1 := (I.out2 o h).2
    have h2 := (I.out2 o' h').2
    cases o <;> cases o' <;> simp_all [Stored]
  have key : ∀ e, e ∈ s.trace → ∀ x, (∃ f, e = .got f x) ∨ (∃ k, e = .ran k x) →
      ∃ o, .resolved o ∈ s.trace ∧ x = .out o := by
    intro e he x hx
    obtain ⟨t, u, ht⟩ := List.append_of_mem he
    have hok := Legal.at (ht ▸ I.legal)
    rcases hx with ⟨f, rfl⟩ | ⟨k, rfl⟩
    · obtain ⟨o, h1, h2⟩ := hok; exact ⟨o, by rw [ht]; simp [h1], h2⟩
    · obtain ⟨_, _, _, o, h1, h2⟩ := hok; exact ⟨o, by rw [ht]; simp [h1], h2⟩
  by_cases h : ∃ o, .resolved o ∈ s.trace
  · obtain ⟨o, ho⟩ := h
    refine ⟨o, fun f x hx => ?_, fun k x hx => ?_, fun o' ho' => uniq _ _ ho' ho⟩
    · obtain ⟨o', h1, h2⟩ := key _ hx x (.inl ⟨f, rfl⟩); rw [h2, uniq _ _ h1 ho]
    · obtain ⟨o', h1, h2⟩ := key _ hx x (.inr ⟨k, rfl⟩); rw [h2, uniq _ _ h1 ho]
  · refine ⟨.val 0, fun f x hx => ?_, fun k x hx => ?_, fun o' ho' => absurd ⟨o', ho'⟩ h⟩
    · obtain ⟨o', h1, _⟩ := key _ hx x (.inl ⟨f, rfl⟩); exact absurd ⟨o', h1⟩ h
    · obtain ⟨o', h1, _⟩ := key _ hx x (.inr ⟨k, rfl⟩); exact absurd ⟨o', h1⟩ h

theorem ready_step {s s' : St} {a : Act} (h : s.ready = true) (e : step s a = .ok s') : s'.ready = true := by
  cases a <;> simp only [step, startRes] at e <;> (repeat' split at e) <;> cases e <;> first | exact h | rfl

/-- Once ready, always ready; and `get_try` never again reports a state that has been resolved as not ready. -/
theorem c30_stays_ready {s s' : St} {as : List Act} (h : s.ready = true) (e : exec s as = some s') :
    s'.ready = true := by
  induction as generalizing s with
  | nil => cases e; exact h
  | cons a as ih =>
    simp only [exec] at e
    split at e
    · rename_i s1 h1; exact ih (ready_step h h1) e
    · cases e

theorem c30_ready_seen {s : St} (hr : Reachable s) (t u : List Event) (f : Nat)
    (h : s.trace = t ++ .notReady f :: u) (o : Outcome) : .resolved o ∉ t :=
  (Legal.at (h ▸ hr.inv.legal) : Ok t (.notReady f)) o

/-- Reading an lvalue leaves the future as it is. -/
def Kept (f : Nat) (s : St) : Prop := s.fut f ≠ .used ∧ ∀ u, s.fut f = .read1 u ∨ s.fut f = .read2 u → u = false

theorem Kept.step {s s' : St} {a : Act} {f : Nat} (h : Kept f s) (ha : a ≠ .getTry f true) (e : step s a = .ok s') : Kept f s' := by
  obtain ⟨h1, h2⟩ := h
  cases a <;> simp only [Shared.step, startRes] at e <;> (repeat' split at e) <;> cases e <;>
    first | exact ⟨h1, h2⟩ | (refine ⟨?_, ?_⟩ <;> grind [upd, takes])

/-- A future that `get_try` is only called on as an lvalue can be read as often as one likes: it never loses its value. -/
theorem c30_lvalue_kept {s : St} {as : List Act} {f : Nat} (e : exec init as = some s) (h : .getTry f true ∉ as) : s.fut f ≠ .used := by
  have key : ∀ {as : List Act} {s0 : St}, Kept f s0 → .getTry f true ∉ as → exec s0 as = some s → Kept f s := by
    intro as
    induction as with
    | nil => intro s0 h0 _ e; cases e; exact h0
    | cons a as ih =>
      intro s0 h0 hn e
      simp only [exec] at e
      split at e
      · rename_i s1 h1
        exact ih (h0.step (fun h => hn (by simp [h])) h1) (fun h => hn (by simp [h])) e
      · cases e
  exact (key (as := as) (s0 := init) (by simp only [Kept, init]; grind) h e).1

/-! ## C31 -/

/-- A continuation is given to its executor at most once. -/
theorem c31_scheduled_once {s : St} (hr : Reachable s) (k : Nat) : s.trace.count (.scheduled k) ≤ 1 := by
  refine hr.inv.legal.count_le _ fun t e he hok x hx => ?_
  have he' : e = .scheduled k := by simpa using he
  have hx' : x = .scheduled k := by simpa using hx
  subst he' hx'
  exact hok.2.2

/-- It is given to its executor only after it has been attached and the future resolved. -/
theorem c31_not_early {s : St} (hr : Reachable s) (k : Nat) (t u : List Event)
    (h : s.trace = t ++ .scheduled k :: u) : .attached k ∈ t ∧ ∃ o, .resolved o ∈ t := by
  have := Legal.at (h ▸ hr.inv.legal)
  exact ⟨this.1, this.2.1⟩

/-- Its function is called at most once, only after it was given to its executor, and a `then` function gets
exactly the outcome of the future. -/
theorem c31_called_once {s : St} (hr : Reachable s) (k : Nat) :
    s.trace.countP (fun | .ran k' _ => k' == k | .gave k' _ => k' == k | _ => false) ≤ 1 := by
  refine hr.inv.legal.count_le _ fun t e he hok x hx => ?_
  cases e <;> simp at he <;> cases x <;> simp at hx <;> subst he hx
  · exact hok.2.1 _
  · exact hok.2.2.1 _
  · exact hok.2.1 _
  · exact hok.2.2.1 _

theorem c31_called_after {s : St} (hr : Reachable s) (k : Nat) (x : Seen) (t u : List Event)
    (h : s.trace = t ++ .ran k x :: u) : .scheduled k ∈ t ∧ ∃ o, .resolved o ∈ t ∧ x = .out o := by
  have := Legal.at (h ▸ hr.inv.legal)
  exact ⟨this.1, this.2.2.2⟩

theorem c31_given_after {s : St} (hr : Reachable s) (k f : Nat) (t u : List Event)
    (h : s.trace = t ++ .gave k f :: u) : .scheduled k ∈ t ∧ ∃ o, .resolved o ∈ t := by
  have := Legal.at (h ▸ hr.inv.legal)
  exact ⟨this.1, this.2.2.2⟩

/-- No call is in the middle of resolving the state or attaching a continuation. -/
def Quiet (s : St) : Prop := (∀ h, s.rs h = .none) ∧ ∀ k, s.cpc k ≠ .made ∧ s.cpc k ≠ .direct

/-- No continuation is lost: when the future is resolved and the calls that resolved it and attached continuations
have returned, every continuation attached before, during or after has been given to its executor. -/
theorem c31_not_lost {s : St} (hr : Reachable s) (hy : s.ready = true) (q : Quiet s) (k : Nat)
    (ha : .attached k ∈ s.trace) : .scheduled k ∈ s.trace := by
  have I := hr.inv
  obtain ⟨h1, h2⟩ := (I.att k).1 ha
  refine (I.sch k).2 ⟨?_, h2⟩
  have hq := q.2 k
  cases hk : s.cpc k <;> simp [past, hk] at h1 hq ⊢
  · have := (I.thn k).2 hk; rw [I.thr hy] at this; cases this
  · obtain ⟨h, ks, h3, _⟩ := I.infl k hk; rw [q.1 h] at h3; cases h3

/-- How many steps of its thread separate continuation `k` from its executor. -/
inductive Dist (s : St) (k : Nat) : Nat → Prop
  | made : s.cpc k = .made → Dist s k 2
  | direct : s.cpc k = .direct → Dist s k 1
  | inflight (h ks i) : s.rs h = .drain ks → ks[i]? = some k → Dist s k (i + 1)

/-- Those calls do return: as long as an attached continuation of a resolved future has not been given to its
executor, some thread can take a step that brings it closer to that. -/
theorem c31_progress {s : St} (hr : Reachable s) (hy : s.ready = true) (k : Nat) (ha : .attached k ∈ s.trace)
    (hs : .scheduled k ∉ s.trace) :
    ∃ n, Dist s k n ∧ ∃ a s', (a = .cLock k ∨ a = .cDirect k ∨ ∃ h, a = .rSched h) ∧ step s a = .ok s' ∧
      (.scheduled k ∈ s'.trace ∨ ∃ m, Dist s' k m ∧ m < n) := by
  have I := hr.inv
  obtain ⟨h1, h2⟩ := (I.att k).1 ha
  have hp : ¬ past (s.cpc k) := fun hp => hs ((I.sch k).2 ⟨hp, h2⟩)
  cases hk : s.cpc k <;> simp [past, hk] at h1 hp
  · refine ⟨2, .made hk, .cLock k, _, .inl rfl, by simp only [step, hk, hy]; rfl, .inr ⟨1, .direct ?_, by omega⟩⟩
    simp [upd]
  · have := (I.thn k).2 hk; rw [I.thr hy] at this; cases this
  · exact ⟨1, .direct hk, .cDirect k, _, .inr (.inl rfl), by simp only [step, hk]; rfl, .inl (by simp)⟩
  · obtain ⟨h, ks, h3, h4⟩ := I.infl k hk
    obtain ⟨i, hi, h5⟩ := List.getElem_of_mem h4
    have h5' : ks[i]? = some k := by rw [List.getElem?_eq_getElem hi, h5]
    refine ⟨i + 1, .inflight h ks i h3 h5', .rSched h, ?_⟩
    cases ks with
    | nil => cases h4
    | cons k' ks =>
      cases hd : s.isDet k' with
      | true =>
        refine ⟨_, .inr (.inr ⟨h, rfl⟩), by simp only [step, h3, hd]; rfl, .inr ?_⟩
        cases i with
        | zero => simp at h5'; subst h5'; rw [h2] at hd; cases hd
        | succ i => exact ⟨i + 1, .inflight h ks i (by simp [upd]) (by simpa using h5'), by omega⟩
      | false =>
        refine ⟨_, .inr (.inr ⟨h, rfl⟩), by simp only [step, h3, hd]; rfl, ?_⟩
        cases i with
        | zero => simp at h5'; subst h5'; exact .inl (by simp)
        | succ i => exact .inr ⟨i + 1, .inflight h ks i (by simp [upd]) (by simpa using h5'), by omega⟩

/-! ## C33 -/

/-- The future will never be resolved: no handle refers to the state, no call is resolving it. -/
def Orphan (s : St) : Prop := s.ready = false ∧ ∀ h, cap (s.handle h) = false ∧ pend (s.rs h) = false

theorem orphan_step {s s' : St} {a : Act} (h : Orphan s) (e : step s a = .ok s') : Orphan s' := by
  obtain ⟨h1, h2⟩ := h
  cases a <;> simp only [step, startRes] at e <;> (repeat' split at e) <;> cases e <;>
    first
    | exact ⟨h1, h2⟩
    | (refine ⟨?_, fun h => ?_⟩ <;> grind [cap, pend, upd])

theorem orphan_exec {s s' : St} {as : List Act} (h : Orphan s) (e : exec s as = some s') : Orphan s' := by
  induction as generalizing s with
  | nil => cases e; exact h
  | cons a as ih =>
    simp only [exec] at e
    split at e
    · rename_i s1 h1; exact ih (orphan_step h h1) e
    · cases e

/-- Destroying the packaged task or promise that refers to an existing state resolves the future with
`broken_promise`. -/
theorem c33_destroy_breaks {s : St} (hr : Reachable s) (h : Nat) (p : s.handle h = .task true ∨ s.handle h = .prom true)
    (hn : s.rs h = .none) (ha : s.hold ≠ []) :
    ∃ s', exec s [.destroy h, .rWrite h, .rLock h] = some s' ∧ s'.ready = true ∧
      .resolved (.exc .broken) ∈ s'.trace := by
  have hy : s.ready = false := hr.inv.hy h (by rcases p with p | p <;> simp [p, cap])
  rcases p with p | p <;> simp [exec, step, p, hn, startRes, ha, upd, hy]

/-- The handle assigned to refers to no state. -/
def noOverwrite (s : St) : Act → Bool
  | .moveAssign h' _ => !cap (s.handle h')
  | _ => true

/-- No packaged task or promise that still refers to the state is assigned to. -/
def Safe (s : St) : List Act → Prop
  | [] => True
  | a :: as => noOverwrite s a = true ∧ ∀ s', step s a = .ok s' → Safe s' as

/-- Somebody will resolve the state, unless nobody is interested. -/
def Owned (s : St) : Prop :=
  s.hold = [] ∨ (∃ h, cap (s.handle h) = true) ∨ (∃ h, pend (s.rs h) = true) ∨ s.ready = true

theorem empty_stays {s s' : St} {a : Act} (I : Inv s) (h : s.hold = []) (e : step s a = .ok s') :
    s'.hold = [] ∧ s'.trace.count .invoked = s.trace.count .invoked := by
  have hf := I.hfut; have hc := I.hcont; have hd := I.hdet; have hR := I.hres
  have d := I.detpc; have cc := I.canc
  rw [h] at hf hc hd hR
  have hf' : ∀ f, s.fut f = .none := by grind
  have hR' : ∀ f, s.rs f = .none := by grind
  cases a <;> simp only [step, startRes, h, hf', hR'] at e <;> (repeat' split at e) <;> cases e <;>
    first
    | exact ⟨h, rfl⟩
    | (refine ⟨?_, ?_⟩ <;> grind [live, List.count_append, List.count_cons])

theorem orphan_back {s s' : St} {a : Act} (h0 : s.hold ≠ []) (hs : noOverwrite s a = true)
    (e : step s a = .ok s') (h : Orphan s') : Orphan s := by
  obtain ⟨h1, h2⟩ := h
  refine ⟨?_, fun h => ?_⟩
  · cases hy : s.ready with
    | false => rfl
    | true => rw [ready_step hy e] at h1; cases h1
  · cases a <;> simp only [step, startRes, h0] at e <;> (repeat' split at e) <;> cases e <;>
      first
      | exact h2 h
      | (simp only [upd] at h2
         have h2a := fun x => (h2 x).1
         have h2b := fun x => (h2 x).2
         grind [cap, pend, noOverwrite])

theorem owned_iff (s : St) : Owned s ↔ (s.hold ≠ [] → ¬ Orphan s) := by
  unfold Owned Orphan
  grind

theorem owned_step {s s' : St} {a : Act} (I : Inv s) (h : Owned s) (hs : noOverwrite s a = true)
    (e : step s a = .ok s') : Owned s' := by
  rw [owned_iff] at h ⊢
  intro h1 h2
  have h0 : s.hold ≠ [] := fun h' => h1 (empty_stays I h' e).1
  exact h h0 (orphan_back h0 hs e h2)

theorem owned_exec {s s' : St} {as : List Act} (I : Inv s) (h : Owned s) (hs : Safe s as)
    (e : exec s as = some s') : Owned s' := by
  induction as generalizing s with
  | nil => cases e; exact h
  | cons a as ih =>
    simp only [exec] at e
    split at e
    · rename_i s1 h1; exact ih (I.step h1) (owned_step I h hs.1 h1) (hs.2 s1 h1) e
    · cases e

/-- No future waits for a producer that no longer exists: over every history in which no live packaged task or
promise is overwritten by assignment, if all of them are gone (destroyed, invoked, or satisfied) and no call is in
the middle of resolving the state, then the state has been resolved, unless nothing refers to it any more.
(Without the restriction this is false: `c33_overwritten_counterexample`.) -/
theorem c33_resolved_partial {s : St} {as : List Act} (hs : Safe init as) (e : exec init as = some s)
    (hg : ∀ h, s.handle h ≠ .task true ∧ s.handle h ≠ .prom true) (hq : ∀ h, s.rs h = .none) (ha : s.hold ≠ []) :
    s.ready = true ∧ ∃ o, .resolved o ∈ s.trace := by
  have o := owned_exec Inv.init (s := init) (.inr (.inl ⟨0, rfl⟩)) hs e
  have I := Inv.init.exec e
  have : s.ready = true := by
    rcases o with o | ⟨h, o⟩ | ⟨h, o⟩ | o
    · exact absurd o ha
    · have := hg h; cases hh : s.handle h <;> simp [hh, cap] at o this <;> simp [this] at o
    · rw [hq h] at o; cases o
    · exact o
  exact ⟨this, I.out this⟩

/-- Move assignment of a packaged task over one that still refers to an unresolved state resets its `weak_ptr`
without setting an exception (future.hpp:668 is defaulted): the future is never resolved. -/
def overwritten : List Act := [.moveCtor 1 0, .moveAssign 1 0, .destroy 0, .destroy 1]

theorem c33_overwritten_counterexample :
    ∃ s, exec init overwritten = some s ∧ s.hold = [.fut 0] ∧ (∀ h, s.handle h = .none) ∧
      ∀ as s', exec s as = some s' → s'.ready = false := by
  obtain ⟨s, hs, h1, h2, h3, h4⟩ : ∃ s, exec init overwritten = some s ∧ s.hold = [.fut 0] ∧
      (∀ h, s.handle h = .none) ∧ s.ready = false ∧ ∀ h, s.rs h = .none := by
    refine ⟨_, rfl, rfl, fun h => ?_, rfl, fun _ => rfl⟩
    match h with
    | 0 => rfl
    | 1 => rfl
    | h + 2 => simp [upd, init]
  refine ⟨s, hs, h1, h2, fun as s' e => (orphan_exec ⟨h3, fun h => ?_⟩ e).1⟩
  rw [h2, h4]; exact ⟨rfl, rfl⟩

/-- The same with a promise. -/
theorem c33_overwritten_promise_counterexample :
    ∃ s, exec init [.invoke 0 1, .moveCtor 2 1, .moveAssign 2 1, .destroy 1, .destroy 2, .destroy 0, .invEnd 0] = some s ∧
      s.hold = [.fut 0] ∧ (∀ h, s.handle h = .none) ∧ ∀ as s', exec s as = some s' → s'.ready = false := by
  obtain ⟨s, hs, h1, h2, h3, h4⟩ : ∃ s, exec init [.invoke 0 1, .moveCtor 2 1, .moveAssign 2 1, .destroy 1, .destroy 2,
      .destroy 0, .invEnd 0] = some s ∧ s.hold = [.fut 0] ∧
      (∀ h, s.handle h = .none) ∧ s.ready = false ∧ ∀ h, s.rs h = .none := by
    refine ⟨_, rfl, rfl, fun h => ?_, rfl, fun _ => rfl⟩
    match h with
    | 0 => rfl
    | 1 => rfl
    | 2 => rfl
    | h + 3 => simp [upd, init]
  refine ⟨s, hs, h1, h2, fun as s' e => (orphan_exec ⟨h3, fun h => ?_⟩ e).1⟩
  rw [h2, h4]; exact ⟨rfl, rfl⟩

/-! ## C34, for one state and its continuations -/

/-- A continuation whose last future has been destroyed before it was called is never called. -/
theorem c34_canceled_not_called {s s' : St} {as : List Act} (hr : Reachable s) (k : Nat)
    (hc : s.canceled k = true) (e : exec s as = some s') :
    (∀ x, .ran k x ∉ s'.trace) ∧ ∀ f, .gave k f ∉ s'.trace := by
  have : ∀ s s' as, s.canceled k = true → exec s as = some s' → s'.canceled k = true := by
    intro s s' as h e
    induction as generalizing s with
    | nil => cases e; exact h
    | cons a as ih =>
      simp only [exec] at e
      split at e
      · rename_i s1 h1
        refine ih s1 ?_ e
        cases a <;> simp only [step, startRes] at h1 <;> (repeat' split at h1) <;> cases h1 <;>
          first | exact h | (simp only [upd]; split <;> first | rfl | exact h)
      · cases e
  exact (hr.inv.exec e).canr k (this s s' as hc e)

/-- Destroying the last future of the packaged task itself (nothing refers to the state) before the task is called
means its function is never called. -/
theorem c34_dropped_not_invoked {s s' : St} {as : List Act} (hr : Reachable s) (hd : s.hold = [])
    (hi : .invoked ∉ s.trace) (e : exec s as = some s') : .invoked ∉ s'.trace := by
  have : ∀ s s' as, Inv s → s.hold = [] → exec s as = some s' →
      s'.trace.count .invoked = s.trace.count .invoked := by
    intro s s' as I h e
    induction as generalizing s with
    | nil => cases e; rfl
    | cons a as ih =>
      simp only [exec] at e
      split at e
      · rename_i s1 h1
        have := empty_stays I h h1
        rw [ih s1 (I.step h1) this.1 e, this.2]
      · cases e
  rw [← List.count_eq_zero] at hi ⊢
  rw [this s s' as hr.inv hd e, hi]

/-- A continuation that was given to its executor and not canceled runs when the executor calls it, whatever was
canceled or dropped besides, and gets the outcome of the future. -/
theorem c34_kept_runs {s : St} (hr : Reachable s) (k : Nat) (hk : s.cpc k = .sched) (hc : s.canceled k = false) :
    ∃ s' o, exec s [.run k, .cCheck k, .cRead k] = some s' ∧ .resolved o ∈ s.trace ∧
      s'.trace = s.trace ++ [.ran k (.out o)] := by
  have I := hr.inv
  have hy : s.ready = true := I.rdyc k (by simp [hk, past])
  have hdt : s.isDet k = false := by have := I.detpc k; grind
  have hm := I.notMovedCont ((I.hcont k).2 (by simp [hk, live, hdt, hc]))
  obtain ⟨o, ho, hl⟩ := I.look hy hm
  obtain ⟨s1, e1, r1, x1, y1, m1, c1, t1⟩ : ∃ s1, step s (.run k) = .ok s1 ∧ s1.res = s.res ∧ s1.exc = s.exc ∧
      s1.ready = s.ready ∧ s1.moved = s.moved ∧ s1.cpc k = .running ∧ s1.trace = s.trace :=
    ⟨{ s with cpc := upd s.cpc k .running }, by simp [step, hk, hc], rfl, rfl, rfl, rfl, by simp [upd], rfl⟩
  obtain ⟨u, s2, e2, r2, x2, y2, m2, c2, t2⟩ : ∃ u s2, step s1 (.cCheck k) = .ok s2 ∧ s2.res = s.res ∧ s2.exc = s.exc ∧
      s2.ready = s.ready ∧ s2.moved = s.moved ∧ s2.cpc k = .checked u ∧ s2.trace = s.trace :=
    ⟨s1.hold.length == 1, { s1 with cpc := upd s1.cpc k (.checked (s1.hold.length == 1)) }, by simp [step, c1],
      r1, x1, y1, m1, by simp [upd], t1⟩
  have hl2 : look s2 = some (.out o) := by rw [← hl]; simp only [look, r2, x2, y2, m2]
  refine ⟨{ s2 with cpc := upd s2.cpc k .done, hold := s2.hold.erase (.cont k),
                    moved := s2.moved || takes s2 u, trace := s2.trace ++ [.ran k (.out o)] }, o, ?_, ho,
    by rw [t2]⟩
  have e3 : step s2 (.cRead k) = .ok
      { s2 with cpc := upd s2.cpc k .done, hold := s2.hold.erase (.cont k),
                moved := s2.moved || takes s2 u, trace := s2.trace ++ [.ran k (.out o)] } := by
    simp only [step, c2, hl2]
  simp only [exec, e1, e2, e3]

/-- `detach()` on an unresolved future keeps the state alive until it is resolved, whichever futures are destroyed
(so its task, and what depends on it, is not canceled). -/
theorem c34_detached_alive {s s' : St} {as : List Act} (hr : Reachable s) (k : Nat) (hd : s.isDet k = true)
    (e : exec s as = some s') (hn : s'.ready = false) : s'.hold ≠ [] := by
  have : ∀ s s' as, s.isDet k = true → exec s as = some s' → s'.isDet k = true := by
    intro s s' as h e
    induction as generalizing s with
    | nil => cases e; exact h
    | cons a as ih =>
      simp only [exec] at e
      split at e
      · rename_i s1 h1
        refine ih s1 ?_ e
        cases a <;> simp only [step, startRes] at h1 <;> (repeat' split at h1) <;> cases h1 <;>
          first | exact h | (simp only [upd]; split <;> first | rfl | exact h)
      · cases e
  have hd' := this s s' as hd e
  have I := hr.inv.exec e
  have hl : live (s'.cpc k) := by
    have h1 := I.detpc k hd'
    have h2 := I.rdyc k
    rcases h1 with h1 | h1 | h1 <;> simp [h1, live, past, hn] at h2 ⊢
  have := (I.hdet k).2 ⟨hd', hl⟩
  intro h; rw [h] at this; cases this

/-! ## A concrete run -/

/-- Two continuations, one attached before and one during resolution, a canceled one, a reader that moves the value
out at the end. -/
def demo : List Act :=
  [.attach 0 10 false, .cLock 10, .attach 0 11 false, .cLock 11, .cancel 11, .invoke 0 1, .attach 0 12 false, .setVal 1 42,
   .rWrite 1, .getTry 0 false, .gLock 0, .rLock 1, .cLock 12, .rSched 1, .run 10, .rSched 1, .rEnd 1, .cDirect 12,
   .invEnd 0, .cCheck 10, .cRead 10, .run 11, .run 12, .cGive 12 5, .drop 5, .getTry 0 true, .gLock 0, .gRead 0, .drop 0,
   .destroy 0, .destroy 1]

def demoEnd : St := (exec init demo).getD init

example : (exec init demo).isSome = true := by decide
example : demoEnd.trace = [.attached 10, .attached 11, .invoked, .attached 12, .notReady 0, .resolved (.val 42),
    .scheduled 10, .scheduled 11, .scheduled 12, .ran 10 (.out (.val 42)), .gave 12 5, .got 0 (.out (.val 42))] := by
  decide
example : demoEnd.moved = true ∧ demoEnd.hold = [] := by decide

/-- `c30_lvalue_kept`: the only future is read twice. -/
def twice : List Act := [.invoke 0 1, .setVal 1 42, .rWrite 1, .rLock 1, .getTry 0 false, .gLock 0, .gRead 0, .getTry 0 false,
  .gLock 0, .gRead 0]

example : .getTry 0 true ∉ twice ∧ ∃ s, exec init twice = some s ∧ .got 0 (.out (.val 42)) ∈ s.trace ∧ s.fut 0 = .held :=
  ⟨by decide, (exec init twice).get (by decide), (Option.some_get _).symm, by decide, by decide⟩

end Verif.Shared
