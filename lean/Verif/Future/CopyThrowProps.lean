import Verif.Future.CopyThrow
import Verif.Future.Determinate

/-!
# C105: results of futures that throw when they are copied or moved

A continuation whose argument throws is like one whose function throws: for each execution there is one of `Verif.Future.Graph` with the same
futures and results (`Sim`).
-/

namespace Verif.Graph

open Verif.Shared (Err Outcome upd)

variable {mv : Bool} {x x' : XSt}

/-! ## The trace is only written -/

theorem dropOwn_trace (s : St) (tr : List Event) (n : Nat) : dropOwn { s with trace := tr } n = { dropOwn s n with trace := tr } := by
  unfold dropOwn
  cases s.own n <;> rfl

theorem dropOwn_keeps (s : St) (n : Nat) : (dropOwn s n).trace = s.trace := by
  unfold dropOwn
  cases s.own n <;> rfl

theorem step_trace {s s' : St} {a : Act} (tr : List Event) (e : step s a = .ok s') :
    ∃ ev, s'.trace = s.trace ++ ev ∧ step { s with trace := tr } a = .ok { s' with trace := tr ++ ev } := by
  cases a <;> simp only [step] at e ⊢ <;> (repeat' split at e) <;> cases e <;>
    simp_all [resolve, dropOwn_trace, dropOwn_keeps]

/-! ## Simulation -/

/-- Events but the calls of the functions whose argument threw. -/
def vis (th : List (Nat × Nat)) : Event → Bool
  | .called n _ => !(th.map (·.1)).contains n
  | .returned n _ => !(th.map (·.1)).contains n
  | _ => true

structure Sim (x : XSt) (t : St) : Prop where
  reach : Reachable t
  same : t = { x.g with trace := t.trace }
  trace : x.g.trace = t.trace.filter (vis x.threw)
  threw : ∀ n e, (n, e) ∈ x.threw → .returned n (.throw e) ∈ t.trace
  failed : ∀ n e, (n, e) ∈ x.threw → .resolved n (.exc (.user e)) ∈ t.trace

theorem Reachable.step {s s' : St} {a : Act} (r : Reachable s) (e : step s a = .ok s') : Reachable s' := by
  obtain ⟨as, h⟩ := r
  refine ⟨as ++ [a], ?_⟩
  have : ∀ (as : List Act) (s0 : St), exec s0 as = some s → exec s0 (as ++ [a]) = some s' := by
    intro as
    induction as with
    | nil => intro s0 h; cases h; simp [exec, e]
    | cons b as ih =>
      intro s0 h
      simp only [exec, List.cons_append] at h ⊢
      split at h
      · exact ih _ h
      · cases h
  exact this as _ h

theorem Sim.base {t : St} (S : Sim x t) {a : Act} {g : St} (e : step x.g a = .ok g) : ∃ t', Sim { x with g := g } t' := by
  obtain ⟨ev, h1, h2⟩ := step_trace t.trace e
  rw [← S.same] at h2
  have r' := S.reach.step h2
  refine ⟨_, r', rfl, ?_, fun n e h => List.mem_append_left _ (S.threw n e h), fun n e h => List.mem_append_left _ (S.failed n e h)⟩
  show g.trace = (t.trace ++ ev).filter _
  rw [h1, List.filter_append, ← S.trace]
  congr 1
  refine (List.filter_eq_self.2 fun b hb => ?_).symm
  -- what has been called is not called again
  obtain ⟨c, d, rfl⟩ := List.append_of_mem hb
  have L := r'.inv.legal
  have L0 := S.reach.inv.legal
  have ok := L.ok (a := t.trace ++ c) (e := b) (b := d) (by simp)
  have no : ∀ n, n ∈ x.threw.map (·.1) → ∃ e, .returned n (.throw e) ∈ t.trace ∧ ∃ y, .called n y ∈ t.trace := by
    intro n hn
    obtain ⟨⟨n', e⟩, h, rfl⟩ := List.mem_map.1 hn
    exact ⟨e, S.threw _ _ h, L0.called_returned (S.threw _ _ h)⟩
  cases b with
  | called n y =>
    simp only [vis, Bool.not_eq_true', List.contains_eq_mem, decide_eq_false_iff_not]
    intro hn
    obtain ⟨-, -, z, hz⟩ := no n hn
    exact ok.1 z (List.mem_append_left _ hz)
  | returned n y =>
    simp only [vis, Bool.not_eq_true', List.contains_eq_mem, decide_eq_false_iff_not]
    intro hn
    obtain ⟨e, he, -⟩ := no n hn
    exact ok.2 _ (List.mem_append_left _ he)
  | created _ _ => rfl
  | resolved _ _ => rfl
  | discarded _ => rfl

/-- Calling a function that throws: as far as the state is concerned, as if the argument had thrown. -/
theorem throwing {s : St} {n : Nat} {o : Outcome} (t1 t2 : List Event) :
    (let s1 : St := { s with pc := upd s.pc n .running, hold := add s.hold n .call, trace := t1 }
     let s2 := resolve (dropOwn { s1 with trace := t2 } n) n o
     ({ s2 with hold := del s2.hold n .call } : St)) = { resolve (dropOwn s n) n o with trace := t2 ++ [.resolved n o] } := by
  have hp : ∀ k, (if k = n then Pc.ready
      else if (upd s.pc n .running) k = .queued ∧ (s.kind k).bind Kind.parent = some n then .sched
      else if (upd s.pc n .running) k = .waiting n then .flat n else (upd s.pc n .running) k) =
      if k = n then Pc.ready
      else if s.pc k = .queued ∧ (s.kind k).bind Kind.parent = some n then .sched
      else if s.pc k = .waiting n then .flat n else s.pc k := by
    intro k
    by_cases h : k = n <;> simp [upd, h]
  cases ho : s.own n with
  | none =>
    simp only [resolve, dropOwn, ho, St.mk.injEq, and_true, true_and]
    refine ⟨funext hp, funext fun k => ?_⟩
    simp only [del, add, upd]
    by_cases h : k = n <;> simp [h]
  | some p =>
    simp only [resolve, dropOwn, ho, St.mk.injEq, and_true, true_and]
    refine ⟨funext hp, funext fun k => ?_⟩
    simp only [del, add, upd]
    by_cases h : k = n <;> by_cases h' : n = p <;> by_cases h'' : k = p <;> simp_all

theorem Sim.argThrows {t : St} (S : Sim x t) {n e p v : Nat} (hpc : x.g.pc n = .sched) (hh : x.g.hold n ≠ []) (hk : x.g.kind n = some (.thn p))
    (ho : x.g.out p = some (.val v)) :
    ∃ t', Sim { x with g := resolve (dropOwn x.g n) n (.exc (.user e)), threw := (n, e) :: x.threw } t' := by
  have I := S.reach.inv
  have e1 : step t (.run n) = .ok { x.g with pc := upd x.g.pc n .running, hold := add x.g.hold n .call, trace := t.trace ++ [.called n (some (.val v))] } := by
    have := S.same
    rw [this]
    simp [step, hpc, hh, hk, ho]
  have e2 := S.reach.step e1
  have e3 := e2.step (a := .retThrow n e) (s' := { resolve (dropOwn x.g n) n (.exc (.user e)) with
      trace := t.trace ++ [.called n (some (.val v))] ++ [.returned n (.throw e)] ++ [.resolved n (.exc (.user e))] }) (by
    simp only [step, upd, ne_eq, if_true, not_true_eq_false, if_false]
    have := throwing (s := x.g) (n := n) (o := .exc (.user e)) (t.trace ++ [.called n (some (.val v))])
      (t.trace ++ [.called n (some (.val v))] ++ [.returned n (.throw e)])
    rw [← this])
  refine ⟨_, e3, rfl, ?_, ?_, ?_⟩
  · have hf : ∀ y ∈ t.trace, vis ((n, e) :: x.threw) y = vis x.threw y := by
      intro y hy
      have hpc' : t.pc n = .sched := by rw [S.same]; exact hpc
      cases y with
      | called m z =>
        have : m ≠ n := by
          rintro rfl
          have := I.ca _ _ hy
          simp [hpc', fresh] at this
        simp [vis, this]
      | returned m z =>
        have : m ≠ n := by
          rintro rfl
          have := (I.re _ _ hy).1
          simp [hpc', fresh] at this
        simp [vis, this]
      | created _ _ => rfl
      | resolved _ _ => rfl
      | discarded _ => rfl
    have hf' : t.trace.filter (vis ((n, e) :: x.threw)) = x.g.trace := by
      rw [S.trace]
      exact List.filter_congr hf
    simp only [List.filter_append, hf']
    simp [resolve, dropOwn_keeps, vis]
    rfl
  · intro m e' h
    rcases List.mem_cons.1 h with h | h
    · cases h; simp
    · have := S.threw m e' h; simp [this]
  · intro m e' h
    rcases List.mem_cons.1 h with h | h
    · cases h; simp
    · have := S.failed m e' h; simp [this]

theorem XReachable.sim (r : XReachable mv x) : ∃ t, Sim x t := by
  obtain ⟨as, h⟩ := r
  have : ∀ (as : List XAct) (x0 : XSt), (∃ t, Sim x0 t) → xexec mv x0 as = some x → ∃ t, Sim x t := by
    intro as
    induction as with
    | nil => intro x0 S h; cases h; exact S
    | cons a as ih =>
      intro x0 ⟨t, S⟩ h
      simp only [xexec] at h
      split at h
      · next x1 e =>
        refine ih x1 ?_ h
        simp only [xstep] at e
        split at e
        · cases e
        · cases a with
          | base a =>
            simp only at e
            split at e <;> cases e
            next g hg => exact S.base hg
          | argThrows n ex =>
            simp only at e
            split at e
            · cases e
            · next hn =>
              simp only [not_or, ne_eq, Classical.not_not] at hn
              split at e
              · next p hk =>
                split at e <;> cases e
                next v ho => exact S.argThrows hn.1 hn.2 hk ho
              · cases e
          | setThrows n =>
            simp only at e
            split at e <;> cases e
            exact ⟨t, S.reach, S.same, S.trace, S.threw, S.failed⟩
          | flatThrows n =>
            simp only at e
            (repeat' split at e) <;> cases e
            exact ⟨t, S.reach, S.same, S.trace, S.threw, S.failed⟩
      · cases h
  exact this as _ ⟨{}, ⟨[], rfl⟩, rfl, rfl, by simp, by simp⟩ h

/-! ## C105 -/

/-- **C105**: whatever is thrown, there is an execution without throwing copies and moves, with the same futures and results, in which the
functions of the continuations concerned threw the same. -/
theorem c105_like_throwing (r : XReachable mv x) : ∃ t, Reachable t ∧ t = { x.g with trace := t.trace } ∧
    (∀ n o, .resolved n o ∈ x.g.trace ↔ .resolved n o ∈ t.trace) ∧ ∀ n e, (n, e) ∈ x.threw → .returned n (.throw e) ∈ t.trace := by
  obtain ⟨t, S⟩ := r.sim
  refine ⟨t, S.reach, S.same, fun n o => ?_, S.threw⟩
  rw [S.trace]
  simp [vis]

/-- The program in which functions throw instead of their arguments. -/
def patched (F : Nat → Option Outcome → Ret) (th : List (Nat × Nat)) (n : Nat) (y : Option Outcome) : Ret :=
  match th.lookup n with
  | some e => .throw e
  | none => F n y

theorem lookup_mem {th : List (Nat × Nat)} {n e : Nat} (h : th.lookup n = some e) : (n, e) ∈ th := by
  induction th with
  | nil => cases h
  | cons a l ih =>
    obtain ⟨k, v⟩ := a
    simp only [List.lookup] at h
    split at h
    · next hk =>
      cases h
      have : n = k := by simpa using hk
      subst this
      exact .head _
    · exact .tail _ (ih h)

theorem lookup_none {th : List (Nat × Nat)} {n : Nat} (h : th.lookup n = none) : n ∉ th.map (·.1) := by
  induction th with
  | nil => simp
  | cons a l ih =>
    obtain ⟨k, v⟩ := a
    simp only [List.lookup] at h
    split at h
    · cases h
    · next hk =>
      have : n ≠ k := by simpa using hk
      simp only [List.map_cons, List.mem_cons, not_or]
      exact ⟨this, ih h⟩

/-- The results are those of sequential evaluation, in which the continuations concerned throw that exception, and nothing else is different. -/
theorem c105_sequential {K : Nat → Option Kind} {F : Nat → Option Outcome → Ret} (r : XReachable mv x) (h : Follows K F x.g.trace)
    (hd : ∀ k, .discarded k ∉ x.g.trace) {n : Nat} {o : Outcome} (ho : .resolved n o ∈ x.g.trace) :
    ∃ f, eval K (patched F x.threw) f n = some o := by
  obtain ⟨t, S⟩ := r.sim
  have up : ∀ e, vis x.threw e = true → e ∈ t.trace → e ∈ x.g.trace := by
    intro e hv he
    rw [S.trace]
    exact List.mem_filter.2 ⟨he, hv⟩
  refine c94_sequential S.reach ⟨fun n k hk => h.kind n k (up _ rfl hk), ?_⟩ (fun k hk => hd k (up _ rfl hk)) (n := n) (o := o) ?_
  · intro n y rt hc hr
    unfold patched
    cases hl : x.threw.lookup n with
    | some e =>
      have h1 := S.threw n e (lookup_mem hl)
      exact S.reach.inv.legal.returned_unique h1 hr
    | none =>
      have hv := lookup_none hl
      refine h.fn n y rt (up _ ?_ hc) (up _ ?_ hr) <;> simp only [vis, Bool.not_eq_true', List.contains_eq_mem, decide_eq_false_iff_not] <;> exact hv
  · rw [S.trace] at ho
    exact (List.mem_filter.1 ho).1

/-- A continuation whose argument throws is not called, and its future gets that exception. -/
theorem c105_error (r : XReachable mv x) {n e : Nat} (h : (n, e) ∈ x.threw) :
    (∀ y, .called n y ∉ x.g.trace) ∧ .resolved n (.exc (.user e)) ∈ x.g.trace ∧ ∀ o, .resolved n o ∈ x.g.trace → o = .exc (.user e) := by
  obtain ⟨t, S⟩ := r.sim
  rw [S.trace]
  refine ⟨fun y hy => ?_, List.mem_filter.2 ⟨S.failed n e h, rfl⟩, fun o ho => ?_⟩
  · have := (List.mem_filter.1 hy).2
    simp only [vis, Bool.not_eq_true', List.contains_eq_mem, decide_eq_false_iff_not] at this
    exact this (List.mem_map.2 ⟨_, h, rfl⟩)
  · exact (c32_own_result S.reach (List.mem_filter.1 ho).1).2 e (S.threw n e h)

/-- Every future that is owned gets ready, unless the program was terminated. -/
theorem c105_all_ready (r : XReachable mv x) (q : Quiet x.g) (rank : Nat → Nat)
    (h1 : ∀ n k p, .created n k ∈ x.g.trace → k.parent = some p → rank p < rank n)
    (h2 : ∀ n m, .returned n (.fut m) ∈ x.g.trace → rank m < rank n) {n : Nat} (ho : Owned x.g n) :
    ∃ o, .resolved n o ∈ x.g.trace := by
  obtain ⟨t, S⟩ := r.sim
  have same := S.same
  have L := S.reach.inv.legal
  obtain ⟨o, h⟩ := c34_graph_all_resolved S.reach (by rw [same]; exact q) rank
    (fun n k p hk hp => h1 n k p (by rw [S.trace]; exact List.mem_filter.2 ⟨hk, rfl⟩) hp)
    (fun n m hm => h2 n m (by
      rw [S.trace]
      refine List.mem_filter.2 ⟨hm, ?_⟩
      simp only [vis, Bool.not_eq_true', List.contains_eq_mem, decide_eq_false_iff_not]
      intro hn
      obtain ⟨⟨n', e⟩, he, rfl⟩ := List.mem_map.1 hn
      cases L.returned_unique (S.threw _ _ he) hm)) (n := n) (by rw [same]; exact ho)
  exact ⟨o, by rw [S.trace]; exact List.mem_filter.2 ⟨h, rfl⟩⟩

/-- Nothing undefined happens. -/
theorem c105_no_undefined (r : XReachable mv x) (a : XAct) : xstep mv x a ≠ .ub := by
  obtain ⟨t, S⟩ := r.sim
  have hu : ∀ a, step x.g a ≠ .ub := by
    intro a hu
    refine c32_no_undefined S.reach a ?_
    rw [S.same]
    cases a <;> simp only [step] at hu ⊢ <;> (repeat' split at hu) <;> first | (cases hu; done) | simp_all
  cases a with
  | base a =>
    simp only [xstep]
    split
    · simp
    · split
      · simp
      · next h => exact absurd h (hu a)
      · simp
  | argThrows n e => simp only [xstep]; (repeat' split) <;> simp
  | setThrows n => simp only [xstep]; (repeat' split) <;> simp
  | flatThrows n => simp only [xstep]; (repeat' split) <;> simp

/-- Why a program was terminated. -/
def Terminated (mv : Bool) (x : XSt) : Prop :=
  (mv = true ∧ ∃ n y, .called n y ∈ x.g.trace) ∨ ∃ n m v, .returned n (.fut m) ∈ x.g.trace ∧ .resolved m (.val v) ∈ x.g.trace

theorem XReachable.step {a : XAct} (r : XReachable mv x) (e : xstep mv x a = .ok x') : XReachable mv x' := by
  obtain ⟨as, h⟩ := r
  refine ⟨as ++ [a], ?_⟩
  have : ∀ (as : List XAct) (x0 : XSt), xexec mv x0 as = some x → xexec mv x0 (as ++ [a]) = some x' := by
    intro as
    induction as with
    | nil => intro x0 h; cases h; simp [xexec, e]
    | cons b as ih =>
      intro x0 h
      simp only [xexec, List.cons_append] at h ⊢
      split at h
      · exact ih _ h
      · cases h
  exact this as _ h

theorem XReachable.terminated (r : XReachable mv x) (h : x.term = true) : Terminated mv x := by
  obtain ⟨as, e⟩ := r
  have : ∀ (as : List XAct) (x0 : XSt), XReachable mv x0 → (x0.term = true → Terminated mv x0) → xexec mv x0 as = some x → Terminated mv x := by
    intro as
    induction as with
    | nil => intro x0 _ h0 e; cases e; exact h0 h
    | cons a as ih =>
      intro x0 r h0 e
      simp only [xexec] at e
      split at e
      · next x1 e1 =>
        refine ih x1 (r.step e1) (fun hx => ?_) e
        obtain ⟨t, S⟩ := r.sim
        have I := S.reach.inv
        simp only [xstep] at e1
        split at e1
        · cases e1
        · next hf =>
          cases a with
          | base a =>
            simp only at e1
            split at e1 <;> cases e1
            exact absurd hx hf
          | argThrows n ex =>
            simp only at e1
            (repeat' split at e1) <;> cases e1
            exact absurd hx hf
          | setThrows n =>
            simp only at e1
            split at e1 <;> cases e1
            next hn =>
            have hpc : t.pc n = .running := by rw [S.same]; exact hn.2
            obtain ⟨y, hy⟩ := I.rn n hpc
            refine .inl ⟨hn.1, n, y, ?_⟩
            show _ ∈ x0.g.trace
            rw [S.trace]
            refine List.mem_filter.2 ⟨hy, ?_⟩
            simp only [vis, Bool.not_eq_true', List.contains_eq_mem, decide_eq_false_iff_not]
            intro hm
            obtain ⟨⟨n', ex⟩, he, rfl⟩ := List.mem_map.1 hm
            exact (I.re _ _ (S.threw _ _ he)).2 hpc
          | flatThrows n =>
            simp only at e1
            split at e1
            · next m hm =>
              (repeat' split at e1) <;> cases e1
              next v ho =>
              have hpc : t.pc n = .flat m := by rw [S.same]; exact hm
              have ho' : t.out m = some (.val v) := by rw [S.same]; exact ho
              refine .inr ⟨n, m, v, ?_, ?_⟩ <;> show _ ∈ x0.g.trace <;> rw [S.trace] <;> refine List.mem_filter.2 ⟨?_, ?_⟩
              · exact (I.fl n m hpc).2
              · simp only [vis, Bool.not_eq_true', List.contains_eq_mem, decide_eq_false_iff_not]
                intro hm
                obtain ⟨⟨n', ex⟩, he, rfl⟩ := List.mem_map.1 hm
                cases I.legal.returned_unique (S.threw _ _ he) (I.fl _ m hpc).2
              · exact (I.rs _ _).2 ho'
              · rfl
            · cases e1
      · cases e
  exact this as _ ⟨[], rfl⟩ (by simp) e

/-- If only copies throw, then the program is terminated only if a function returned a future that got a value. -/
theorem c105_terminates_partial (r : XReachable false x) (h : x.term = true) :
    ∃ n m v, .returned n (.fut m) ∈ x.g.trace ∧ .resolved m (.val v) ∈ x.g.trace := by
  rcases r.terminated h with ⟨h, -⟩ | h
  · cases h
  · exact h

theorem xwitness {as : List XAct} (P : XSt → Prop) [DecidablePred P] (h : ((xexec mv {} as).any fun x => P x) = true) : ∃ x, XReachable mv x ∧ P x := by
  cases e : xexec mv {} as with
  | none => simp [e] at h
  | some x => exact ⟨x, ⟨as, e⟩, by simpa [e] using h⟩

/-- **Not** if a function returns a future: a copy of its result that throws terminates the program. -/
theorem c105_flatten_counterexample : ∃ x, XReachable false x ∧ x.term = true ∧
    x.g.trace = [.created 0 .async, .called 0 none, .created 1 .async, .returned 0 (.fut 1), .called 1 none, .returned 1 (.val 9), .resolved 1 (.val 9)] :=
  xwitness (as := [.base (.async 0 0), .base (.run 0), .base (.async 1 1), .base (.retFut 0 1), .base (.run 1), .base (.retVal 1 9), .flatThrows 0])
    _ (by decide)

/-- **Not** if moves throw: a function returns, and the program is terminated. -/
theorem c105_move_counterexample : ∃ x, XReachable true x ∧ x.term = true ∧ x.g.trace = [.created 0 .async, .called 0 none] :=
  xwitness (as := [.base (.async 0 0), .base (.run 0), .setThrows 0]) _ (by decide)

/-! ## Example: two continuations of one future; the argument of the first throws, and a `recover` function gets the exception -/

def twoActs : List XAct :=
  [.base (.async 0 0), .base (.attach 0 1 1 true false), .base (.attach 0 2 2 true false), .base (.attach 1 3 3 false true), .base (.run 0),
   .base (.retVal 0 4), .argThrows 1 77, .base (.run 2), .base (.retVal 2 6), .base (.run 3), .base (.retVal 3 8)]

example : ∃ x, XReachable false x ∧ x.threw = [(1, 77)] ∧ x.term = false ∧
    x.g.trace = [.created 0 .async, .created 1 (.thn 0), .created 2 (.thn 0), .created 3 (.rcv 1), .called 0 none, .returned 0 (.val 4),
      .resolved 0 (.val 4), .resolved 1 (.exc (.user 77)), .called 2 (some (.val 4)), .returned 2 (.val 6), .resolved 2 (.val 6),
      .called 3 (some (.exc (.user 77))), .returned 3 (.val 8), .resolved 3 (.val 8)] :=
  xwitness (as := twoActs) _ (by decide)

end Verif.Graph
