import Verif.Future.GraphInv

/-!
# C32, C34 and C35 for graphs of futures
-/

namespace Verif.Graph

open Verif.Shared (Err Outcome upd)

/-! ## Facts about legal traces -/

theorem Legal.mono {t : List Event} (L : Legal t) : ∀ a b, t = a ++ b → Legal a := by
  induction L with
  | nil => intro a b h; simp at h; rw [h.1]; exact .nil
  | snoc L o ih =>
    intro a b h
    rcases List.eq_nil_or_concat b with rfl | ⟨b', x, rfl⟩
    · simp at h; exact h ▸ .snoc L o
    · rw [List.concat_eq_append, ← List.append_assoc] at h
      exact ih a b' (List.append_inj' h rfl).1

theorem Legal.ok {t a b : List Event} {e : Event} (L : Legal t) (h : t = a ++ e :: b) : Ok a e := by
  have := L.mono (a ++ [e]) b (by simp [h])
  generalize h' : a ++ [e] = u at this
  cases this with
  | nil => simp at h'
  | snoc L o =>
    have := List.append_inj' h' rfl
    simp at this
    rw [this.1, this.2]; exact o

/-- The outcome of a node is unique. -/
theorem Legal.resolved_unique {t : List Event} (L : Legal t) {n : Nat} {o o' : Outcome} (h : .resolved n o ∈ t)
    (h' : .resolved n o' ∈ t) : o = o' := by
  induction L with
  | nil => simp at h
  | snoc L ok ih =>
    simp only [List.mem_append, List.mem_singleton] at h h'
    rcases h with h | h <;> rcases h' with h' | h'
    · exact ih h h'
    · subst h'; exact absurd h (ok.1 o)
    · subst h; exact absurd h' (ok.1 o')
    · rw [← h'] at h; cases h; rfl

theorem Legal.created_unique {t : List Event} (L : Legal t) {n : Nat} {o o' : Kind} (h : .created n o ∈ t)
    (h' : .created n o' ∈ t) : o = o' := by
  induction L with
  | nil => simp at h
  | snoc L ok ih =>
    simp only [List.mem_append, List.mem_singleton] at h h'
    rcases h with h | h <;> rcases h' with h' | h'
    · exact ih h h'
    · subst h'; exact absurd h (ok.1 o)
    · subst h; exact absurd h' (ok.1 o')
    · rw [← h'] at h; cases h; rfl

theorem Legal.returned_unique {t : List Event} (L : Legal t) {n : Nat} {o o' : Ret} (h : .returned n o ∈ t)
    (h' : .returned n o' ∈ t) : o = o' := by
  induction L with
  | nil => simp at h
  | snoc L ok ih =>
    simp only [List.mem_append, List.mem_singleton] at h h'
    rcases h with h | h <;> rcases h' with h' | h'
    · exact ih h h'
    · subst h'; exact absurd h (ok.2 o)
    · subst h; exact absurd h' (ok.2 o')
    · rw [← h'] at h; cases h; rfl

theorem mem_split {t : List Event} {e : Event} (h : e ∈ t) : ∃ a b, t = a ++ e :: b := List.append_of_mem h

/-- Causes and inputs hold of the whole history, being about the past. -/
theorem Input.mono {a b : List Event} {k : Kind} {x : Option Outcome} (h : Input a k x) : Input (a ++ b) k x := by
  cases k <;> simp only [Input] at * <;> grind

theorem Legal.input {t : List Event} (L : Legal t) {n : Nat} {x : Option Outcome} (h : .called n x ∈ t) :
    ∃ k, .created n k ∈ t ∧ Input t k x := by
  obtain ⟨a, b, rfl⟩ := mem_split h
  obtain ⟨-, -, -, k, hk, hi⟩ := L.ok rfl
  exact ⟨k, by simp [hk], hi.mono⟩

theorem Legal.called_returned {t : List Event} (L : Legal t) {n : Nat} {r : Ret} (h : .returned n r ∈ t) :
    ∃ x, .called n x ∈ t := by
  obtain ⟨a, b, rfl⟩ := mem_split h
  obtain ⟨⟨x, hx⟩, -⟩ := L.ok rfl
  exact ⟨x, by simp [hx]⟩

theorem Legal.discarded_called {t : List Event} (L : Legal t) {n : Nat} {x : Option Outcome} (h : .discarded n ∈ t)
    (h' : .called n x ∈ t) : False := by
  induction L with
  | nil => simp at h
  | snoc L ok ih =>
    simp only [List.mem_append, List.mem_singleton] at h h'
    rcases h with h | h <;> rcases h' with h' | h'
    · exact ih h h'
    · subst h'; exact ok.2.2.1 h
    · subst h; exact ok.1 _ h'
    · rw [← h'] at h; cases h

/-! ## C32 -/

/-- `n` is at the end of a (possibly empty) chain of `then` continuations that starts at `p`. -/
inductive Down (t : List Event) (p : Nat) : Nat → Prop
  | refl : Down t p p
  | next {n m} : Down t p n → .created m (.thn n) ∈ t → Down t p m

/-- No call into the library is undefined. -/
theorem c32_no_undefined {s : St} (r : Reachable s) (a : Act) : step s a ≠ .ub := by
  have I := r.inv
  cases a <;> simp only [step] <;> (repeat' split) <;> (try simp only [ne_eq, reduceCtorEq, not_false_eq_true]) <;>
    grind [Inv, par]

/-- The function following a failed step is not called. -/
theorem c32_not_called {s : St} (r : Reachable s) {n p : Nat} {e : Err} (hn : .created n (.thn p) ∈ s.trace)
    (hp : .resolved p (.exc e) ∈ s.trace) (x : Option Outcome) : .called n x ∉ s.trace := by
  intro h
  have L := r.inv.legal
  obtain ⟨k, hk, hi⟩ := L.input h
  cases L.created_unique hk hn
  obtain ⟨v, hv, -⟩ := hi
  cases L.resolved_unique hv hp

theorem failed_next {s : St} (r : Reachable s) {n p : Nat} {e : Err} (hn : .created n (.thn p) ∈ s.trace)
    (hp : .resolved p (.exc e) ∈ s.trace) {o : Outcome} (ho : .resolved n o ∈ s.trace) :
    (∃ e', o = .exc e') ∧ (.discarded n ∉ s.trace → o = .exc e) := by
  have L := r.inv.legal
  have nc := c32_not_called r hn hp
  obtain ⟨a, b, hab⟩ := mem_split ho
  have sub : ∀ x, x ∈ a → x ∈ s.trace := by intro x hx; rw [hab]; simp [hx]
  rcases (L.ok hab).2 with ⟨v, h, rfl⟩ | ⟨e', h, rfl⟩ | ⟨m, h, -⟩ | ⟨q, e', h, h', rfl, -⟩ | ⟨h, rfl⟩
  · obtain ⟨x, hx⟩ := L.called_returned (sub _ h); exact absurd hx (nc x)
  · obtain ⟨x, hx⟩ := L.called_returned (sub _ h); exact absurd hx (nc x)
  · obtain ⟨x, hx⟩ := L.called_returned (sub _ h); exact absurd hx (nc x)
  · cases L.created_unique hn (sub _ h)
    cases L.resolved_unique hp (sub _ h')
    exact ⟨⟨_, rfl⟩, fun _ => rfl⟩
  · exact ⟨⟨_, rfl⟩, fun hd => absurd (sub _ h) hd⟩

/-- Whatever a failed step is followed by in a chain, of any length, is resolved with the same exception, if it is
resolved. (An executor that drops a task instead of calling it replaces the exception by `broken_promise`.) -/
theorem c32_chain {s : St} (r : Reachable s) {p n : Nat} {e : Err} (hp : .resolved p (.exc e) ∈ s.trace)
    (d : Down s.trace p n) (hd : ∀ k, .discarded k ∉ s.trace) {o : Outcome} (ho : .resolved n o ∈ s.trace) :
    o = .exc e := by
  induction d generalizing o with
  | refl => exact r.inv.legal.resolved_unique ho hp
  | @next n m d hm ih =>
    -- the predecessor is resolved, for otherwise `m` would not be
    have L := r.inv.legal
    obtain ⟨a, b, hab⟩ := mem_split ho
    have sub : ∀ x, x ∈ a → x ∈ s.trace := by intro x hx; rw [hab]; simp [hx]
    have called : ∀ x, .called m x ∈ s.trace → False := by
      intro x hx
      obtain ⟨k, hk, hi⟩ := L.input hx
      cases L.created_unique hk hm
      obtain ⟨v, hv, -⟩ := hi
      cases ih hv
    rcases (L.ok hab).2 with ⟨v, h, -⟩ | ⟨e', h, -⟩ | ⟨q, h, -⟩ | ⟨q, e', h, h', rfl, -⟩ | ⟨h, -⟩
    · obtain ⟨x, hx⟩ := L.called_returned (sub _ h); exact (called x hx).elim
    · obtain ⟨x, hx⟩ := L.called_returned (sub _ h); exact (called x hx).elim
    · obtain ⟨x, hx⟩ := L.called_returned (sub _ h); exact (called x hx).elim
    · cases L.created_unique hm (sub _ h)
      exact ih (sub _ h')
    · exact absurd (sub _ h) (hd m)

/-- No function of a chain following a failed step is called, also if executors drop tasks. -/
theorem c32_chain_not_called {s : St} (r : Reachable s) {p n m : Nat} {e : Err} (hp : .resolved p (.exc e) ∈ s.trace)
    (d : Down s.trace p n) (hm : .created m (.thn n) ∈ s.trace) (x : Option Outcome) : .called m x ∉ s.trace := by
  have L := r.inv.legal
  have key : ∀ o, .resolved n o ∈ s.trace → ∃ e', o = .exc e' := by
    clear hm
    induction d with
    | refl => intro o ho; exact ⟨e, L.resolved_unique ho hp⟩
    | @next n m d hm ih =>
      intro o ho
      obtain ⟨a, b, hab⟩ := mem_split ho
      have sub : ∀ x, x ∈ a → x ∈ s.trace := by intro x hx; rw [hab]; simp [hx]
      have called : ∀ x, .called m x ∈ s.trace → False := by
        intro x hx
        obtain ⟨k, hk, hi⟩ := L.input hx
        cases L.created_unique hk hm
        obtain ⟨v, hv, -⟩ := hi
        obtain ⟨e', he⟩ := ih _ hv
        cases he
      rcases (L.ok hab).2 with ⟨v, h, -⟩ | ⟨e', h, -⟩ | ⟨q, h, -⟩ | ⟨q, e', h, h', rfl, -⟩ | ⟨h, rfl⟩
      · obtain ⟨x, hx⟩ := L.called_returned (sub _ h); exact (called x hx).elim
      · obtain ⟨x, hx⟩ := L.called_returned (sub _ h); exact (called x hx).elim
      · obtain ⟨x, hx⟩ := L.called_returned (sub _ h); exact (called x hx).elim
      · exact ⟨_, rfl⟩
      · exact ⟨_, rfl⟩
  intro h
  obtain ⟨k, hk, hi⟩ := L.input h
  cases L.created_unique hk hm
  obtain ⟨v, hv, -⟩ := hi
  obtain ⟨e', he⟩ := key _ hv
  cases he

/-- Nothing is left to do for the executors, and no function is being called. -/
def Quiet (s : St) : Prop := ∀ n, s.pc n ≠ .sched ∧ s.pc n ≠ .running ∧ ∀ m, s.pc n ≠ .flat m

/-- Somebody owns node `n`: a future object, the function of another node, or `detach`. -/
def Owned (s : St) (n : Nat) : Prop := s.hold n ≠ []

/-- The exception does arrive at the end of the chain: when the executors have nothing left to do, and the future at
the end is still owned, it is resolved with that exception. -/
theorem c32_chain_arrives {s : St} (r : Reachable s) {p n : Nat} {e : Err} (hp : .resolved p (.exc e) ∈ s.trace)
    (d : Down s.trace p n) (hd : ∀ k, .discarded k ∉ s.trace) (q : Quiet s) (ho : Owned s n) :
    .resolved n (.exc e) ∈ s.trace := by
  have I := r.inv
  suffices h : ∃ o, .resolved n o ∈ s.trace by
    obtain ⟨o, h⟩ := h
    exact c32_chain r hp d hd h ▸ h
  suffices h : s.pc n = .ready by
    have := (I.rd n).1 h
    obtain ⟨o, h⟩ := Option.ne_none_iff_exists'.1 this
    exact ⟨o, (I.rs n o).2 h⟩
  clear hd
  induction d with
  | refl => exact (I.rd _).2 (by rw [(I.rs _ _).1 hp]; simp)
  | @next n m d hm ih =>
    have hk := (I.cr _ _).1 hm
    have ⟨q1, q2, q3⟩ := q m
    have hpar : par (s.kind m) n := .inl hk
    cases hpc : s.pc m with
    | none => rw [← I.kd, hk] at hpc; cases hpc
    | queued =>
      have ob := I.ob m n (by simp [before, hpc]) hpar
      have hn := ih (I.ne_fn (ob.resolve_right ho))
      exact absurd hn (I.qu m n hpc hpar)
    | sched => exact absurd hpc q1
    | running => exact absurd hpc q2
    | waiting k =>
      obtain ⟨x, hx⟩ := I.legal.called_returned (I.wt m k hpc).2
      exact absurd hx (c32_chain_not_called r hp d hm x)
    | flat k => exact absurd hpc (q3 k)
    | ready => rfl
    | dead => exact absurd (I.dd m hpc) ho

/-- `recover` at the end of such a chain is called with that exception. -/
theorem c32_recover {s : St} (r : Reachable s) {p n m : Nat} {e : Err} (hp : .resolved p (.exc e) ∈ s.trace)
    (d : Down s.trace p n) (hd : ∀ k, .discarded k ∉ s.trace) (hm : .created m (.rcv n) ∈ s.trace) {x : Option Outcome}
    (hx : .called m x ∈ s.trace) : x = some (.exc e) := by
  have L := r.inv.legal
  obtain ⟨k, hk, hi⟩ := L.input hx
  cases L.created_unique hk hm
  obtain ⟨o, ho, rfl⟩ := hi
  rw [c32_chain r hp d hd ho]

/-- A step whose function returned a value, `recover` among them, is resolved with that value; and one whose function
threw, with that exception. -/
theorem c32_own_result {s : St} (r : Reachable s) {n : Nat} {o : Outcome} (ho : .resolved n o ∈ s.trace) :
    (∀ v, .returned n (.val v) ∈ s.trace → o = .val v) ∧
    (∀ e, .returned n (.throw e) ∈ s.trace → o = .exc (.user e)) := by
  have L := r.inv.legal
  obtain ⟨a, b, hab⟩ := mem_split ho
  have sub : ∀ x, x ∈ a → x ∈ s.trace := by intro x hx; rw [hab]; simp [hx]
  have mk : ∀ r', .returned n r' ∈ s.trace → (∀ v, r' = .val v → o = .val v) ∧
      (∀ e, r' = .throw e → o = .exc (.user e)) := by
    intro r' hr'
    obtain ⟨x, hx⟩ := L.called_returned hr'
    rcases (L.ok hab).2 with ⟨v, h, rfl⟩ | ⟨e', h, rfl⟩ | ⟨q, h, -⟩ | ⟨q, e', h, h', rfl, -⟩ | ⟨h, rfl⟩
    · cases L.returned_unique hr' (sub _ h); simp
    · cases L.returned_unique hr' (sub _ h); simp
    · cases L.returned_unique hr' (sub _ h); simp
    · exact absurd hx (c32_not_called r (sub _ h) (sub _ h') x)
    · exact (L.discarded_called (sub _ h) hx).elim
  exact ⟨fun v h => (mk _ h).1 v rfl, fun e h => (mk _ h).2 e rfl⟩

/-- A `then` function is called only with the value of the step before it. -/
theorem c32_then_value {s : St} (r : Reachable s) {n p : Nat} (hn : .created n (.thn p) ∈ s.trace) {x : Option Outcome}
    (hx : .called n x ∈ s.trace) : ∃ v, x = some (.val v) ∧ .resolved p (.val v) ∈ s.trace := by
  have L := r.inv.legal
  obtain ⟨k, hk, hi⟩ := L.input hx
  cases L.created_unique hk hn
  obtain ⟨v, hv, rfl⟩ := hi
  exact ⟨v, rfl, hv⟩

/-! ## C35 -/

/-- A node whose function returned the future of `m` is resolved with the outcome of `m`, after `m`. -/
theorem c35_outcome {s : St} (r : Reachable s) {n m : Nat} (hr : .returned n (.fut m) ∈ s.trace) {o : Outcome}
    {a b : List Event} (hab : s.trace = a ++ .resolved n o :: b) : .resolved m o ∈ a := by
  have L := r.inv.legal
  have sub : ∀ x, x ∈ a → x ∈ s.trace := by intro x hx; rw [hab]; simp [hx]
  obtain ⟨x, hx⟩ := L.called_returned hr
  rcases (L.ok hab).2 with ⟨v, h, rfl⟩ | ⟨e', h, rfl⟩ | ⟨q, h, h'⟩ | ⟨q, e', h, h', rfl, -⟩ | ⟨h, rfl⟩
  · cases L.returned_unique hr (sub _ h)
  · cases L.returned_unique hr (sub _ h)
  · cases L.returned_unique hr (sub _ h); exact h'
  · exact absurd hx (c32_not_called r (sub _ h) (sub _ h') x)
  · exact (L.discarded_called (sub _ h) hx).elim

/-- It is resolved: when the executors have nothing left to do, the inner future is ready and the outer one is owned. -/
theorem c35_resolved {s : St} (r : Reachable s) {n m : Nat} (hr : .returned n (.fut m) ∈ s.trace) {o : Outcome}
    (hm : .resolved m o ∈ s.trace) (q : Quiet s) (ho : Owned s n) : .resolved n o ∈ s.trace := by
  have I := r.inv
  have hrdy : s.pc m = .ready := (I.rd _).2 (by rw [(I.rs _ _).1 hm]; simp)
  have ⟨q1, q2, q3⟩ := q n
  have ⟨f, nr⟩ := I.re n _ hr
  have hn : s.pc n = .ready := by
    cases hpc : s.pc n with
    | none => simp [fresh, hpc] at f
    | queued => simp [fresh, hpc] at f
    | sched => exact absurd hpc q1
    | running => exact absurd hpc q2
    | waiting k =>
      have ⟨h1, h2⟩ := I.wt n k hpc
      cases I.legal.returned_unique hr h2
      exact absurd hrdy h1
    | flat k => exact absurd hpc (q3 k)
    | ready => rfl
    | dead => exact absurd (I.dd n hpc) ho
  obtain ⟨o', ho'⟩ := Option.ne_none_iff_exists'.1 ((I.rd n).1 hn)
  have h := (I.rs n o').2 ho'
  obtain ⟨a, b, hab⟩ := mem_split h
  have h' := c35_outcome r hr hab
  have : o' = o := I.legal.resolved_unique (by rw [hab]; simp [h']) hm
  exact this ▸ h

/-- The inner future stays owned as long as the outer one is, until the outer one is resolved. -/
theorem c35_inner_kept {s : St} (r : Reachable s) {n m : Nat} (hr : .returned n (.fut m) ∈ s.trace)
    (hn : ∀ o, .resolved n o ∉ s.trace) (ho : Owned s n) : Owned s m := by
  have I := r.inv
  have ⟨f, nr⟩ := I.re n _ hr
  have key : s.own n = some m := by
    cases hpc : s.pc n with
    | none => simp [fresh, hpc] at f
    | queued => simp [fresh, hpc] at f
    | sched => simp [fresh, hpc] at f
    | running => exact absurd hpc nr
    | waiting k =>
      have ⟨h1, h2⟩ := I.wt n k hpc
      cases I.legal.returned_unique hr h2
      exact (I.om n _ (.inl hpc)).resolve_right ho
    | flat k =>
      have ⟨h1, h2⟩ := I.fl n k hpc
      cases I.legal.returned_unique hr h2
      exact (I.om n _ (.inr hpc)).resolve_right ho
    | ready =>
      obtain ⟨o', ho'⟩ := Option.ne_none_iff_exists'.1 ((I.rd n).1 hpc)
      exact absurd ((I.rs n o').2 ho') (hn o')
    | dead => exact absurd (I.dd n hpc) ho
  exact I.ne_fn key

/-! ## C34 -/

theorem del_nil {h : Nat → List Owner} {k n : Nat} {x : Owner} (e : h k = []) : del h n x k = [] := by
  simp only [del, upd]; split
  · subst n; simp [e]
  · exact e

theorem dropOwn_nil {s : St} {n k : Nat} (e : s.hold k = []) : (dropOwn s n).hold k = [] := by
  simp only [dropOwn]; split
  · exact e
  · exact del_nil e

theorem add_nil {h : Nat → List Owner} {k n : Nat} {x : Owner} (e : h k = []) (ne : k ≠ n) : add h n x k = [] := by
  simp [add, upd, ne, e]

/-- A node nobody owns stays that way. -/
theorem unowned_step {s s' : St} (I : Inv s) {a : Act} {n : Nat} (h0 : s.hold n = []) (hn : s.pc n ≠ .none)
    (e : step s a = .ok s') : s'.hold n = [] ∧ s'.pc n ≠ .none ∧ ∀ x, .called n x ∈ s'.trace → .called n x ∈ s.trace := by
  have hu := @Inv.ne_user s I
  have hf := @Inv.ne_fn s I
  have hc := @Inv.ne_call s I
  cases a <;> simp only [step] at e <;> (repeat' split at e) <;> cases e <;>
    refine ⟨?_, ?_, ?_⟩ <;>
    first
    | (simp only [resolve, dropOwn]; grind)
    | grind [del_nil, dropOwn_nil, add_nil, upd, resolve, dropOwn]
    | (simp only [resolve]; repeat' apply del_nil
       first | exact dropOwn_nil h0 | exact h0)

/-- The continuation of a future nobody refers to any more is never called, whatever happens later. -/
theorem c34_graph_never_called {s s' : St} (r : Reachable s) {n : Nat} {k : Kind} (hk : .created n k ∈ s.trace)
    (h0 : ¬ Owned s n) (hc : ∀ x, .called n x ∉ s.trace) {as : List Act} (e : exec s as = some s') (x : Option Outcome) :
    .called n x ∉ s'.trace := by
  have I := r.inv
  replace h0 : s.hold n = [] := Classical.byContradiction h0
  have hn : s.pc n ≠ .none := by rw [Ne, ← I.kd, (I.cr _ _).1 hk]; simp
  clear r hk
  induction as generalizing s with
  | nil => simp only [exec, Option.some.injEq] at e; subst e; exact hc x
  | cons a as ih =>
    simp only [exec] at e
    split at e
    · rename_i s1 h1
      have ⟨h2, h3, h4⟩ := unowned_step I h0 hn h1
      exact ih (I := I.step h1) (h0 := h2) (hn := h3) (hc := fun y hy => hc y (h4 y hy)) (e := e)
    · cases e

/-- What owns a node: a future object; the function of a node that continues it or that returned its future; its own
call; `detach`. -/
theorem c34_owned_iff {s : St} (r : Reachable s) (n : Nat) :
    Owned s n ↔ (∃ f, s.fut f = some n) ∨ (∃ k, s.own k = some n) ∨ s.pc n = .running ∨ .det ∈ s.hold n := by
  have I := r.inv
  constructor
  · intro h
    obtain ⟨x, hx⟩ := List.exists_mem_of_ne_nil _ h
    cases x with
    | user f => exact .inl ⟨f, (I.hu n f).1 hx⟩
    | fn k => exact .inr (.inl ⟨k, (I.hf n k).1 hx⟩)
    | call => exact .inr (.inr (.inl ((I.hc n).1 hx)))
    | det => exact .inr (.inr (.inr hx))
  · rintro (⟨f, h⟩ | ⟨k, h⟩ | h | h)
    · exact I.ne_user h
    · exact I.ne_fn h
    · exact I.ne_call h
    · exact fun h' => by simp [h'] at h

/-- Destroying a future object takes one owner from one node and changes nothing else; so does the destruction of a
node that this entails. -/
theorem c34_graph_others {s s' : St} (r : Reachable s) {a : Act} (ha : (∃ f, a = .drop f) ∨ ∃ k, a = .reap k)
    (e : step s a = .ok s') :
    s'.pc = s.pc ∧ s'.out = s.out ∧ s'.trace = s.trace ∧ (∀ n, .det ∈ s'.hold n ↔ .det ∈ s.hold n) ∧
    (∀ f n, s.fut f = some n → a ≠ .drop f → s'.fut f = some n ∧ Owned s' n) ∧
    (∀ k n, s.own k = some n → a ≠ .reap k → s'.own k = some n ∧ Owned s' n) := by
  have I := r.inv
  have I' := I.step e
  have hu := @Inv.ne_user s' I'
  have hf := @Inv.ne_fn s' I'
  rcases ha with ⟨f, rfl⟩ | ⟨k, rfl⟩
  · simp only [step] at e
    split at e
    · cases e
      have md := fun {n i y x} => mem_del I.nodup (n := n) (i := i) (x := x) (y := y)
      simp only [Owned]
      refine ⟨trivial, trivial, trivial, ?_, ?_, ?_⟩ <;> grind [upd]
    · cases e
  · simp only [step] at e
    split at e
    · cases e
      simp only [Owned]
      have md := fun {n i y x} => mem_del I.nodup (n := n) (i := i) (x := x) (y := y)
      rename_i h
      obtain ⟨p, hp⟩ := Option.ne_none_iff_exists'.1 h.2
      simp only [dropOwn, hp] at *
      refine ⟨trivial, trivial, trivial, ?_, ?_, ?_⟩ <;> grind [upd]
    · cases e

/-- A continuation whose future is retained is called when its executor runs it, unless it is skipped by an
exception (C32). -/
theorem c34_graph_kept {s : St} (r : Reachable s) {n : Nat} (h : s.pc n = .sched) (ho : Owned s n) :
    ∃ s', step s (.run n) = .ok s' ∧ ((∃ x, .called n x ∈ s'.trace) ∨
      ∃ p e, .created n (.thn p) ∈ s.trace ∧ .resolved p (.exc e) ∈ s.trace ∧ .resolved n (.exc e) ∈ s'.trace) := by
  have I := r.inv
  cases e : step s (.run n) with
  | no =>
    simp only [step] at e
    rw [if_neg (by simp [h]), if_neg ho] at e
    repeat' split at e
    all_goals cases e
  | ub => exact absurd e (c32_no_undefined r _)
  | ok s' =>
    refine ⟨s', rfl, ?_⟩
    simp only [step] at e
    rw [if_neg (by simp [h]), if_neg ho] at e
    split at e
    · cases e
    · cases e; exact .inl ⟨none, by simp⟩
    · split at e
      · cases e
      · cases e; exact .inl ⟨_, List.mem_append_right _ (List.mem_singleton.2 rfl)⟩
    · split at e
      · cases e
      · cases e; exact .inl ⟨_, List.mem_append_right _ (List.mem_singleton.2 rfl)⟩
      · cases e
        rename_i p hk _ er hp
        exact .inr ⟨p, er, (I.cr _ _).2 hk, (I.rs _ _).2 hp, by simp [resolve]⟩

/-- When the executors have nothing left to do, every owned future is ready, provided that no future waits for itself:
there is a rank that decreases from a continuation to what it continues, and from a function to the future it returned. -/
theorem c34_graph_all_resolved {s : St} (r : Reachable s) (q : Quiet s) (rank : Nat → Nat)
    (h1 : ∀ n k p, .created n k ∈ s.trace → k.parent = some p → rank p < rank n)
    (h2 : ∀ n m, .returned n (.fut m) ∈ s.trace → rank m < rank n) {n : Nat} (ho : Owned s n) :
    ∃ o, .resolved n o ∈ s.trace := by
  have I := r.inv
  suffices h : s.pc n = .ready by
    have := (I.rd n).1 h
    obtain ⟨o, h⟩ := Option.ne_none_iff_exists'.1 this
    exact ⟨o, (I.rs n o).2 h⟩
  generalize hN : rank n = N
  induction N using Nat.strongRecOn generalizing n with
  | ind N ih =>
    have ⟨q1, q2, q3⟩ := q n
    cases hpc : s.pc n with
    | none =>
      rcases (c34_owned_iff r n).1 ho with ⟨f, h⟩ | ⟨k, h⟩ | h | h
      · exact absurd hpc (I.exu f n h)
      · exact absurd hpc (I.ow k n h).1
      · rw [hpc] at h; cases h
      · exact absurd hpc (I.hd n h).1
    | queued =>
      have : ∃ k p, s.kind n = some k ∧ k.parent = some p ∧ par (s.kind n) p := by
        have := I.kd n
        have := I.qk n hpc
        cases hk : s.kind n with
        | none => simp_all
        | some k => cases k <;> simp_all [Kind.parent, par]
      obtain ⟨k, p, hk, hp, hpar⟩ := this
      have ob := I.ob n p (by simp [before, hpc]) hpar
      have lt := h1 n k p ((I.cr _ _).2 hk) hp
      exact absurd (ih _ (hN ▸ lt) (I.ne_fn (ob.resolve_right ho)) rfl) (I.qu n p hpc hpar)
    | sched => exact absurd hpc q1
    | running => exact absurd hpc q2
    | waiting m =>
      have ⟨w1, w2⟩ := I.wt n m hpc
      have om := I.om n m (.inl hpc)
      exact absurd (ih _ (hN ▸ h2 n m w2) (I.ne_fn (om.resolve_right ho)) rfl) w1
    | flat k => exact absurd hpc (q3 k)
    | ready => rfl
    | dead => exact absurd (I.dd n hpc) ho

theorem detached_exec {s s' : St} (I : Inv s) {n : Nat} (h : .det ∈ s.hold n ∨ s.pc n = .ready) {as : List Act}
    (e : exec s as = some s') : Owned s' n ∨ ∃ o, .resolved n o ∈ s'.trace := by
  have key : ∀ {s s' : St} {a : Act}, Inv s → (.det ∈ s.hold n ∨ s.pc n = .ready) → step s a = .ok s' →
      (.det ∈ s'.hold n ∨ s'.pc n = .ready) := by
    intro s s' a I h e
    have md : ∀ h n' x, x ≠ Owner.det → (.det ∈ del h n' x n ↔ .det ∈ h n) := by
      intro h n' x hx; simp only [del, upd]; split
      · subst n'; exact List.mem_erase_of_ne (Ne.symm hx)
      · rfl
    have mr : ∀ h n', n' ≠ n → (.det ∈ del h n' .det n ↔ .det ∈ h n) := by
      intro h n' hx; simp only [del, upd, if_neg (Ne.symm hx)]
    have mo : ∀ t n', .det ∈ (dropOwn { s with trace := t } n').hold n ↔ .det ∈ s.hold n := by
      intro t n'; simp only [dropOwn]; split
      · rfl
      · rw [md _ _ _ (by simp)]
    have mp : ∀ t n', (dropOwn { s with trace := t } n').pc = s.pc := by
      intro t n'; simp only [dropOwn]; split <;> rfl
    have mo' : ∀ n', .det ∈ (dropOwn s n').hold n ↔ .det ∈ s.hold n := mo s.trace
    have mp' : ∀ n', (dropOwn s n').pc = s.pc := mp s.trace
    have I1 := I.rd
    cases a <;> simp only [step] at e <;> (repeat' split at e) <;> cases e <;>
      (try simp only [resolve]) <;> grind [mem_add, upd]
  suffices h : .det ∈ s'.hold n ∨ s'.pc n = .ready by
    have I' : Inv s' := I.exec e
    rcases h with h | h
    · exact .inl fun h' => by simp [h'] at h
    · obtain ⟨o, h⟩ := Option.ne_none_iff_exists'.1 ((I'.rd n).1 h)
      exact .inr ⟨o, (I'.rs n o).2 h⟩
  induction as generalizing s with
  | nil => simp only [exec, Option.some.injEq] at e; exact e ▸ h
  | cons a as ih =>
    simp only [exec] at e
    split at e
    · exact ih (e := e) (I := I.step ‹_›) (h := key I h ‹_›)
    · cases e

/-- A detached future stays owned until it is ready: after `f.detach()` whatever is destroyed, the state `f` referred to is
owned, or it has been resolved. With `c34_graph_kept` its function is called, and it keeps what it continues. -/
theorem c34_graph_detached {s s1 s' : St} (r : Reachable s) {f n : Nat} (hf : s.fut f = some n)
    (e1 : step s (.detach f) = .ok s1) {as : List Act} (e : exec s1 as = some s') :
    Owned s' n ∨ ∃ o, .resolved n o ∈ s'.trace := by
  refine detached_exec (r.inv.step e1) ?_ e
  simp only [step, hf] at e1
  split at e1 <;> cases e1
  · rename_i h; exact h.symm
  · exact .inl (by simp [add, upd])

/-- Node 1 continues node 0; it is detached, and every future is destroyed. Both functions are called. -/
example : ((exec {} [.async 0 0, .attach 0 1 1 true true, .detach 1, .drop 1, .run 0, .retVal 0 4, .run 1, .retVal 1 5]).map
    (·.trace)) = some [.created 0 .async, .created 1 (.thn 0), .called 0 none, .returned 0 (.val 4), .resolved 0 (.val 4),
      .called 1 (some (.val 4)), .returned 1 (.val 5), .resolved 1 (.val 5)] := by decide

/-! ## Examples -/

/-- Node 0 throws; 1 and 2 follow by `then`, 3 by `recover`, which returns a value. -/
def chainActs : List Act :=
  [.async 0 0, .attach 0 1 1 true true, .attach 1 2 2 true true, .attach 2 3 3 false true, .run 0, .retThrow 0 7,
   .run 1, .run 2, .run 3, .retVal 3 5]

def chainEnd : St := (exec {} chainActs).getD {}

example : chainEnd.trace = [.created 0 .async, .created 1 (.thn 0), .created 2 (.thn 1), .created 3 (.rcv 2),
    .called 0 none, .returned 0 (.throw 7), .resolved 0 (.exc (.user 7)), .resolved 1 (.exc (.user 7)),
    .resolved 2 (.exc (.user 7)), .called 3 (some (.exc (.user 7))), .returned 3 (.val 5), .resolved 3 (.val 5)] := by
  decide

theorem chainEnd_reachable : Reachable chainEnd := ⟨chainActs, by
  have : (exec {} chainActs).isSome := by decide
  simp only [chainEnd]; exact (Option.some_get this ▸ by simp [Option.getD])⟩

/-- The hypotheses of `c32_chain`, `c32_recover` are met. -/
example : Reachable chainEnd ∧ .resolved 0 (.exc (.user 7)) ∈ chainEnd.trace ∧ Down chainEnd.trace 0 2 ∧
    (∀ k, .discarded k ∉ chainEnd.trace) ∧ .created 3 (.rcv 2) ∈ chainEnd.trace ∧
    .called 3 (some (.exc (.user 7))) ∈ chainEnd.trace := by
  refine ⟨chainEnd_reachable, by decide, .next (.next .refl (by decide : Event.created 1 (.thn 0) ∈ _)) (by decide : Event.created 2 (.thn 1) ∈ _), ?_,
    by decide, by decide⟩
  have : chainEnd.trace = [.created 0 .async, .created 1 (.thn 0), .created 2 (.thn 1), .created 3 (.rcv 2),
    .called 0 none, .returned 0 (.throw 7), .resolved 0 (.exc (.user 7)), .resolved 1 (.exc (.user 7)),
    .resolved 2 (.exc (.user 7)), .called 3 (some (.exc (.user 7))), .returned 3 (.val 5), .resolved 3 (.val 5)] := by
    decide
  simp [this]

/-- Node 0 returns the future of node 1, which is resolved later. -/
def flatActs : List Act :=
  [.async 0 0, .run 0, .async 1 1, .retFut 0 1, .run 1, .retVal 1 9, .flatten 0]

def flatEnd : St := (exec {} flatActs).getD {}

/-- The hypotheses of `c35_outcome` are met. -/
example : flatEnd.trace = [.created 0 .async, .called 0 none, .created 1 .async, .returned 0 (.fut 1), .called 1 none,
    .returned 1 (.val 9), .resolved 1 (.val 9), .resolved 0 (.val 9)] := by decide

/-- Dropping the only future of continuation 1 cancels it, and not continuation 2 of the same future. -/
def cancelActs : List Act :=
  [.async 0 0, .attach 0 1 1 true false, .attach 0 2 2 true false, .drop 1, .reap 1, .run 0, .retVal 0 4, .run 1,
   .run 2, .retVal 2 6]

def cancelEnd : St := (exec {} cancelActs).getD {}

example : cancelEnd.trace = [.created 0 .async, .created 1 (.thn 0), .created 2 (.thn 0), .called 0 none,
    .returned 0 (.val 4), .resolved 0 (.val 4), .called 2 (some (.val 4)), .returned 2 (.val 6),
    .resolved 2 (.val 6)] := by decide

example : ¬ Owned cancelEnd 1 ∧ Owned cancelEnd 2 := by
  have h1 : cancelEnd.hold 1 = [] := by decide
  have h2 : cancelEnd.hold 2 = [.user 2] := by decide
  simp [Owned, h1, h2]

/-- Dropping the last future of a chain cancels the whole chain, except its first step, which is running. -/
example : ((exec {} [.async 0 0, .attach 0 1 1 true true, .attach 1 2 2 true true, .run 0, .drop 2, .reap 2, .reap 1,
    .retVal 0 4, .run 1]).map fun s => (s.trace, s.pc 1, s.pc 2, s.hold 0)) =
    some ([.created 0 .async, .created 1 (.thn 0), .created 2 (.thn 1), .called 0 none, .returned 0 (.val 4),
      .resolved 0 (.val 4)], .dead, .queued, []) := by decide

end Verif.Graph
