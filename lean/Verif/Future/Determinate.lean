import Verif.Future.GraphProps

/-!
# C94: the outcomes of a graph of futures are those of sequential evaluation

A program gives each node its kind (`async`, `then`, `recover`) and a function from the argument to what is returned or
thrown. `eval` evaluates it like sequential code: what a node continues is evaluated first, an exception skips `then`, and a returned
future is evaluated in place. Nothing here mentions executors, threads or future objects.
-/

namespace Verif.Graph

open Verif.Shared (Err Outcome upd)

/-- What a function returns or throws; a returned future is evaluated by `ev`. -/
def ended (ev : Nat → Option Outcome) : Ret → Option Outcome
  | .val v => some (.val v)
  | .throw e => some (.exc (.user e))
  | .fut m => ev m

/-- Sequential evaluation, with a bound for the depth. -/
def eval (K : Nat → Option Kind) (F : Nat → Option Outcome → Ret) : Nat → Nat → Option Outcome
  | 0, _ => none
  | f + 1, n =>
    match K n with
    | none => none
    | some .async => ended (eval K F f) (F n none)
    | some (.thn p) => match eval K F f p with
      | none => none
      | some (.exc e) => some (.exc e)
      | some (.val v) => ended (eval K F f) (F n (some (.val v)))
    | some (.rcv p) => match eval K F f p with
      | none => none
      | some o => ended (eval K F f) (F n (some o))

/-- What happened is a run of the program: nodes have the kinds of the program and functions return what they return there. -/
structure Follows (K : Nat → Option Kind) (F : Nat → Option Outcome → Ret) (t : List Event) : Prop where
  kind : ∀ n k, .created n k ∈ t → K n = some k
  fn : ∀ n x r, .called n x ∈ t → .returned n r ∈ t → F n x = r

variable {K : Nat → Option Kind} {F : Nat → Option Outcome → Ret}

theorem eval_mono {f n : Nat} {o : Outcome} (h : eval K F f n = some o) : eval K F (f + 1) n = some o := by
  induction f generalizing n o with
  | zero => simp [eval] at h
  | succ f ih =>
    have hc : ∀ rt o, ended (eval K F f) rt = some o → ended (eval K F (f + 1)) rt = some o := by
      intro rt o h
      cases rt with
      | fut m => exact ih h
      | _ => exact h
    rw [eval] at h ⊢
    cases hK : K n with
    | none => simp [hK] at h
    | some k =>
      rw [hK] at h
      cases k with
      | async => exact hc _ _ h
      | thn p =>
        simp only at h ⊢
        cases hp : eval K F f p with
        | none => rw [hp] at h; simp at h
        | some q =>
          rw [hp] at h
          rw [ih hp]
          cases q with
          | val v => exact hc _ _ h
          | exc e => exact h
      | rcv p =>
        simp only at h ⊢
        cases hp : eval K F f p with
        | none => rw [hp] at h; simp at h
        | some q =>
          rw [hp] at h
          rw [ih hp]
          exact hc _ _ h

theorem eval_le {f g n : Nat} {o : Outcome} (hfg : f ≤ g) (h : eval K F f n = some o) : eval K F g n = some o := by
  induction hfg with
  | refl => exact h
  | step _ ih => exact eval_mono ih

theorem eval_unique {f g n : Nat} {o o' : Outcome} (h : eval K F f n = some o) (h' : eval K F g n = some o') : o = o' := by
  have h1 := eval_le (Nat.le_max_left f g) h
  have h2 := eval_le (Nat.le_max_right f g) h'
  rw [h1] at h2
  exact Option.some.inj h2

/-- **C94**: a future that is resolved has the outcome of sequential evaluation. -/
theorem c94_sequential {s : St} (r : Reachable s) (h : Follows K F s.trace) (hd : ∀ k, .discarded k ∉ s.trace) {n : Nat} {o : Outcome}
    (ho : .resolved n o ∈ s.trace) : ∃ f, eval K F f n = some o := by
  have L := r.inv.legal
  -- induction on the part of the history before the resolution
  have key : ∀ N (a : List Event) b n o, a.length = N → s.trace = a ++ .resolved n o :: b → ∃ f, eval K F f n = some o := by
    intro N
    induction N using Nat.strongRecOn with
    | ind N ih =>
      intro a b n o hN hab
      have sub : ∀ x, x ∈ a → x ∈ s.trace := by intro x hx; rw [hab]; simp [hx]
      have before : ∀ m q, .resolved m q ∈ a → ∃ f, eval K F f m = some q := by
        intro m q hm
        obtain ⟨a1, b1, rfl⟩ := mem_split hm
        exact ih a1.length (by rw [← hN]; simp) a1 _ m q rfl (by rw [hab, List.append_assoc, List.cons_append])
      -- the call of the function
      have hcall : ∀ rt, .returned n rt ∈ a → ∃ x f0, F n x = rt ∧
          ∀ f, f0 ≤ f → ∀ q, ended (eval K F f) rt = some q → eval K F (f + 1) n = some q := by
        intro rt hr
        have La := L.mono a _ hab
        obtain ⟨x, hx⟩ := La.called_returned hr
        obtain ⟨k, hk, hi⟩ := La.input hx
        have hK := h.kind n k (sub _ hk)
        have hF := h.fn n x rt (sub _ hx) (sub _ hr)
        cases k with
        | async =>
          simp only [Input] at hi
          subst hi
          refine ⟨none, 0, hF, fun f _ q hq => ?_⟩
          rw [eval]
          simp only [hK, hF]
          exact hq
        | thn p =>
          obtain ⟨v, hv, rfl⟩ := hi
          obtain ⟨f0, hf0⟩ := before p _ hv
          refine ⟨_, f0, hF, fun f hf q hq => ?_⟩
          rw [eval]
          simp only [hK, eval_le hf hf0, hF]
          exact hq
        | rcv p =>
          obtain ⟨v, hv, rfl⟩ := hi
          obtain ⟨f0, hf0⟩ := before p _ hv
          refine ⟨_, f0, hF, fun f hf q hq => ?_⟩
          rw [eval]
          simp only [hK, eval_le hf hf0, hF]
          exact hq
      rcases (L.ok hab).2 with ⟨v, h1, rfl⟩ | ⟨e, h1, rfl⟩ | ⟨m, h1, h2⟩ | ⟨p, e, h1, h2, rfl, -⟩ | ⟨h1, -⟩
      · obtain ⟨x, f0, hF, hc⟩ := hcall _ h1
        exact ⟨f0 + 1, hc f0 (Nat.le_refl _) _ rfl⟩
      · obtain ⟨x, f0, hF, hc⟩ := hcall _ h1
        exact ⟨f0 + 1, hc f0 (Nat.le_refl _) _ rfl⟩
      · obtain ⟨x, f0, hF, hc⟩ := hcall _ h1
        obtain ⟨f1, hf1⟩ := before m _ h2
        exact ⟨max f0 f1 + 1, hc _ (Nat.le_max_left _ _) _ (eval_le (Nat.le_max_right _ _) hf1)⟩
      · obtain ⟨f0, hf0⟩ := before p _ h2
        refine ⟨f0 + 1, ?_⟩
        rw [eval]
        simp only [h.kind n _ (sub _ h1), hf0]
      · exact absurd (sub _ h1) (hd n)
  obtain ⟨a, b, hab⟩ := mem_split ho
  exact key _ a b n o rfl hab

/-- **C94**: so the outcomes do not depend on the executors, their order, and on which futures are kept, copied or dropped. -/
theorem c94_deterministic {s s' : St} (r : Reachable s) (r' : Reachable s') (h : Follows K F s.trace) (h' : Follows K F s'.trace)
    (hd : ∀ k, .discarded k ∉ s.trace) (hd' : ∀ k, .discarded k ∉ s'.trace) {n : Nat} {o o' : Outcome}
    (ho : .resolved n o ∈ s.trace) (ho' : .resolved n o' ∈ s'.trace) : o = o' := by
  obtain ⟨f, hf⟩ := c94_sequential r h hd ho
  obtain ⟨f', hf'⟩ := c94_sequential r' h' hd' ho'
  exact eval_unique hf hf'

/-- **C94**: when the executors have nothing left to do, every future somebody has is resolved with what sequential evaluation gives,
if it ends. -/
theorem c94_complete {s : St} (r : Reachable s) (h : Follows K F s.trace) (hd : ∀ k, .discarded k ∉ s.trace) (q : Quiet s) :
    ∀ {f n : Nat} {o : Outcome}, eval K F f n = some o → Owned s n → .resolved n o ∈ s.trace := by
  have I := r.inv
  suffices hs : ∀ (f n : Nat) (o : Outcome), eval K F f n = some o → Owned s n → s.pc n = .ready by
    intro f n o he ho
    obtain ⟨o', ho'⟩ := Option.ne_none_iff_exists'.1 ((I.rd n).1 (hs f n o he ho))
    have h1 := (I.rs n o').2 ho'
    obtain ⟨g, hg⟩ := c94_sequential r h hd h1
    rw [eval_unique he hg]
    exact h1
  intro f
  induction f with
  | zero => intro n o he; simp [eval] at he
  | succ f ih =>
    intro n o he ho
    have ⟨q1, q2, q3⟩ := q n
    -- what the node continues is evaluated
    have hpar : ∀ p, par (s.kind n) p → ∃ o', eval K F f p = some o' := by
      rintro p (hk | hk)
      · rw [eval] at he
        simp only [h.kind n _ ((I.cr n _).2 hk)] at he
        cases hp : eval K F f p with
        | none => simp [hp] at he
        | some o' => exact ⟨o', rfl⟩
      · rw [eval] at he
        simp only [h.kind n _ ((I.cr n _).2 hk)] at he
        cases hp : eval K F f p with
        | none => simp [hp] at he
        | some o' => exact ⟨o', rfl⟩
    cases hpc : s.pc n with
    | none =>
      rcases (c34_owned_iff r n).1 ho with ⟨f, h⟩ | ⟨k, h⟩ | h | h
      · exact absurd hpc (I.exu f n h)
      · exact absurd hpc (I.ow k n h).1
      · rw [hpc] at h; cases h
      · exact absurd hpc (I.hd n h).1
    | queued =>
      have : ∃ p, par (s.kind n) p := by
        have := I.kd n
        have := I.qk n hpc
        cases hk : s.kind n with
        | none => simp_all
        | some k => cases k <;> simp_all [par]
      obtain ⟨p, hp⟩ := this
      obtain ⟨o', hp'⟩ := hpar p hp
      have ob := I.ob n p (by simp [before, hpc]) hp
      exact absurd (ih p o' hp' (I.ne_fn (ob.resolve_right ho))) (I.qu n p hpc hp)
    | sched => exact absurd hpc q1
    | running => exact absurd hpc q2
    | waiting m =>
      have ⟨w1, w2⟩ := I.wt n m hpc
      have hom := (I.om n m (.inl hpc)).resolve_right ho
      refine absurd ?_ w1
      -- the returned future is evaluated
      obtain ⟨x, hx⟩ := I.legal.called_returned w2
      have hF := h.fn n x _ hx w2
      obtain ⟨k, hk, hi⟩ := I.legal.input hx
      have hK := h.kind n k hk
      rw [eval] at he
      simp only [hK] at he
      have : eval K F f m = some o := by
        cases k with
        | async =>
          simp only [Input] at hi
          subst hi
          simpa [hF, ended] using he
        | thn p =>
          obtain ⟨v, hv, rfl⟩ := hi
          obtain ⟨o', hp⟩ := hpar p (.inl ((I.cr n _).1 hk))
          obtain ⟨g, hg⟩ := c94_sequential r h hd hv
          rw [eval_unique hp hg] at hp
          simpa [hp, hF, ended] using he
        | rcv p =>
          obtain ⟨v, hv, rfl⟩ := hi
          obtain ⟨o', hp⟩ := hpar p (.inr ((I.cr n _).1 hk))
          obtain ⟨g, hg⟩ := c94_sequential r h hd hv
          rw [eval_unique hp hg] at hp
          simpa [hp, hF, ended] using he
      exact ih m o this (I.ne_fn hom)
    | flat k => exact absurd hpc (q3 k)
    | ready => rfl
    | dead => exact absurd (I.dd n hpc) ho

/-! ## Example: 0 fails, 1 continues it, 2 recovers with the future of 3, 4 continues 2 -/

def exK : Nat → Option Kind
  | 0 => some .async
  | 1 => some (.thn 0)
  | 2 => some (.rcv 1)
  | 3 => some .async
  | 4 => some (.thn 2)
  | _ => none

def exF : Nat → Option Outcome → Ret
  | 0, _ => .throw 7
  | 2, some (.exc (.user e)) => .fut (e - 4)
  | 3, _ => .val 5
  | 4, some (.val v) => .val (v + 1)
  | _, _ => .val 0

example : eval exK exF 4 4 = some (.val 6) := by decide

def exActs1 : List Act :=
  [.async 0 0, .attach 0 1 1 true true, .attach 1 2 2 false true, .attach 2 4 4 true true, .run 0, .retThrow 0 7, .run 1, .run 2,
   .async 3 3, .run 3, .retVal 3 5, .retFut 2 3, .flatten 2, .run 4, .retVal 4 6]

/-- Node 3 is started first and its future copied; node 1 is attached when 0 is ready. -/
def exActs2 : List Act :=
  [.async 3 3, .copy 3 5, .async 0 0, .run 0, .retThrow 0 7, .attach 0 1 1 true false, .attach 1 2 2 false true, .run 1, .attach 2 4 4 true true,
   .run 2, .retFut 2 5, .run 3, .drop 3, .retVal 3 5, .flatten 2, .run 4, .retVal 4 6]

def exEnd1 : St := (exec {} exActs1).getD {}
def exEnd2 : St := (exec {} exActs2).getD {}

theorem exEnd1_trace : exEnd1.trace = [.created 0 .async, .created 1 (.thn 0), .created 2 (.rcv 1), .created 4 (.thn 2), .called 0 none,
    .returned 0 (.throw 7), .resolved 0 (.exc (.user 7)), .resolved 1 (.exc (.user 7)), .called 2 (some (.exc (.user 7))),
    .created 3 .async, .called 3 none, .returned 3 (.val 5), .resolved 3 (.val 5), .returned 2 (.fut 3), .resolved 2 (.val 5),
    .called 4 (some (.val 5)), .returned 4 (.val 6), .resolved 4 (.val 6)] := by decide

theorem exEnd2_trace : exEnd2.trace = [.created 3 .async, .created 0 .async, .called 0 none, .returned 0 (.throw 7),
    .resolved 0 (.exc (.user 7)), .created 1 (.thn 0), .created 2 (.rcv 1), .resolved 1 (.exc (.user 7)), .created 4 (.thn 2),
    .called 2 (some (.exc (.user 7))), .returned 2 (.fut 3), .called 3 none, .returned 3 (.val 5), .resolved 3 (.val 5),
    .resolved 2 (.val 5), .called 4 (some (.val 5)), .returned 4 (.val 6), .resolved 4 (.val 6)] := by decide

/-- The hypotheses of `c94_deterministic` are met by two schedules. -/
example : Reachable exEnd1 ∧ Reachable exEnd2 ∧ Follows exK exF exEnd1.trace ∧ Follows exK exF exEnd2.trace ∧
    (∀ k, .discarded k ∉ exEnd1.trace) ∧ (∀ k, .discarded k ∉ exEnd2.trace) ∧ .resolved 4 (.val 6) ∈ exEnd1.trace ∧
    .resolved 4 (.val 6) ∈ exEnd2.trace := by
  have h1 : (exec {} exActs1).isSome := by decide
  have h2 : (exec {} exActs2).isSome := by decide
  refine ⟨⟨exActs1, ?_⟩, ⟨exActs2, ?_⟩, ⟨?_, ?_⟩, ⟨?_, ?_⟩, ?_, ?_, by decide, by decide⟩
  · simp only [exEnd1]; exact (Option.some_get h1 ▸ by simp [Option.getD])
  · simp only [exEnd2]; exact (Option.some_get h2 ▸ by simp [Option.getD])
  · rw [exEnd1_trace]; simp +contextual [exK]; grind [exK]
  · rw [exEnd1_trace]; simp +contextual; grind [exF]
  · rw [exEnd2_trace]; simp +contextual [exK]; grind [exK]
  · rw [exEnd2_trace]; simp +contextual; grind [exF]
  · rw [exEnd1_trace]; simp
  · rw [exEnd2_trace]; simp

/-- At the end the executors have nothing left to do and the last future is still there (`c94_complete`). -/
example : (∀ n, n < 6 → exEnd1.pc n ≠ .sched ∧ exEnd1.pc n ≠ .running) ∧ exEnd1.hold 4 = [.user 4] := by decide

end Verif.Graph
