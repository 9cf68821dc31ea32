import Verif.Channel.SourceEnd

/-!
# Sources come to rest (C110)
-/

namespace Verif.Source

open Verif.Channel (Msg sumTo upd usub)

variable {σ : Type} {P : Src σ} {n N : Nat} {buf : Nat → Nat} {s s' : St σ}

/-- No step is possible, failing `try_lock`s included. -/
def AtRest (P : Src σ) (n : Nat) (buf : Nat → Nat) (s : St σ) : Prop := ∀ a, Source.step P n buf s a = none

/-- **C110**: a source that stops yielding after `N` results takes at most `10 N (n + 1) + 7` steps, together with its `n` receivers and its timers, in
whatever order; attempts to lock that fail are not counted. -/
theorem c110_terminates_partial (hc : Prompt P ∨ Narrow n buf) (hN : YieldsOnly P N) {as : List Act}
    (h : exec P n buf (init P) as = some s) : (as.filter Act.counts).length ≤ 10 * N * (n + 1) + 7 := by
  have key : ∀ as (s s' : St σ), Reachable P n buf s → exec P n buf s as = some s' → mu N n s' + (as.filter Act.counts).length ≤ mu N n s := by
    intro as
    induction as with
    | nil => intro s s' _ e; cases e; exact Nat.le_refl _
    | cons a as ih =>
      intro s s' hr e
      simp only [exec] at e
      cases hs : Source.step P n buf s a with
      | none => simp [hs] at e
      | some s1 =>
        rw [hs] at e
        have h1 := ih s1 s' (.step hr hs) e
        have h2 := mu_step hc hN hr hs
        cases ha : a.counts <;> simp only [ha, Bool.toNat_true, Bool.toNat_false] at h2
        · rw [List.filter_cons_of_neg (by simp [ha])]; omega
        · rw [List.filter_cons_of_pos ha, List.length_cons]; omega
  have h1 := key as (init P) s .init h
  have h2 : mu N n (init P) = N * (10 * n + 10) + 7 := by
    have h3 : receivers n (init P) = 0 := Verif.Process.sumTo_zero n
    simp only [mu, h3]
    simp [threads, init, sumTo]
  have h3 : N * (10 * n + 10) = 10 * N * (n + 1) := by
    rw [show 10 * n + 10 = 10 * (n + 1) by omega, ← Nat.mul_assoc, Nat.mul_comm N 10]
  omega

/-- **C110**: unless it is at rest, a step other than a failing `try_lock` is possible. -/
theorem c110_goes_on (h : Reachable P n buf s) (hr : ¬AtRest P n buf s) : ∃ a, a.counts = true ∧ (Source.step P n buf s a).isSome = true := by
  have hb := Base.of_reachable h
  simp only [AtRest, Classical.not_forall] at hr
  obtain ⟨a, ha⟩ := hr
  have ha : (Source.step P n buf s a).isSome = true := Option.isSome_iff_ne_none.2 ha
  cases a with
  | fail j =>
    have hp : s.pc j = .start := by
      simp only [Source.step] at ha
      split at ha
      · assumption
      · cases ha
    cases ho : s.lock with
    | none => exact ⟨.job j, rfl, by simp [Source.step, stepJob, hp, ho]⟩
    | some i =>
      have h3 := (hb.lk i).mpr ho
      refine ⟨.job i, rfl, ?_⟩
      simp only [Source.step]
      unfold stepJob
      split
      case h_1 e => rw [e] at h3; cases h3
      case h_3 e => rw [e] at h3; cases h3
      all_goals first | rfl | (split <;> rfl)
  | _ => exact ⟨_, rfl, ha⟩

/-- **C110**: at rest the source has been started, it was called until it stopped yielding and not again, every receiver has been sent all results in
order, has taken them and has reported. -/
theorem c110_at_rest_partial (hc : Prompt P ∨ Narrow n buf) (hN : YieldsOnly P N) (h : Reachable P n buf s) (hr : AtRest P n buf s) :
    s.ready = true ∧ s.outs = (List.range N).map P.result ∧ (P.state s.x).isYield = false ∧ s.lock = none ∧
    (∀ k, k < n → s.sent k = s.outs ∧ s.dq k = [] ∧ s.cr k = 0 ∧ s.cy k = 0 ∧ s.ca k = 0) ∧ ∀ j, s.pc j = .none := by
  have hb := Base.of_reachable h
  have h1 : s.ready = true := by
    have := hr .ready
    simp only [Source.step] at this
    split at this
    · assumption
    · cases this
  have h2 : (P.state s.x).isYield = false := by
    cases hy : (P.state s.x).isYield with
    | false => rfl
    | true =>
      obtain ⟨a, -, ha⟩ := c70_goes_on_partial hc h h1 hy
      rw [hr a] at ha
      cases ha
  have h3 : s.outs.length = N := by
    have hle := outs_le hc hN h
    rw [(c70_values h).2] at h2
    rcases Nat.lt_or_ge s.outs.length N with hlt | hge
    · rw [hN.1 _ hlt] at h2; cases h2
    · omega
  have move : ∀ j, s.pc j ≠ .start → s.pc j = .none := by
    intro j h2
    have h4 := hr (.job j)
    simp only [Source.step] at h4
    unfold stepJob at h4
    split at h4 <;> first | contradiction | assumption | skip
    all_goals (first | cases h4 | (split at h4 <;> cases h4))
  have h4 : ∀ j, s.pc j = .none := by
    intro j
    refine move j fun hp => ?_
    have := hr (.fail j)
    simp [Source.step, hp] at this
  have h5 : s.lock = none := by
    cases ho : s.lock with
    | none => rfl
    | some i => have := (hb.lk i).mpr ho; rw [h4 i] at this; cases this
  have h6 : ∀ k, s.dq k = [] ∧ s.cr k = 0 ∧ s.cy k = 0 ∧ s.ca k = 0 := by
    intro k
    refine ⟨?_, ?_, ?_, ?_⟩
    · cases hd : s.dq k with
      | nil => rfl
      | cons m q => have := hr (.pop k); simp only [Source.step, hd] at this; cases this
    · refine Classical.byContradiction fun h0 => ?_
      have := hr (.ask k)
      simp only [Source.step, h0, if_false] at this
      split at this <;> cases this
    · refine Classical.byContradiction fun h0 => ?_
      have := hr (.cts k true)
      simp only [Source.step, h0, if_true, if_false] at this
      cases this
    · refine Classical.byContradiction fun h0 => ?_
      have := hr (.cts k false)
      simp only [Source.step, h0, Bool.false_eq_true, if_false] at this
      cases this
  refine ⟨h1, ?_, h2, h5, fun k hk => ⟨?_, h6 k⟩, h4⟩
  · rw [← h3]; exact (c70_values h).1
  · obtain ⟨l, hl, -, h8⟩ := c70_in_order_partial hc h hk
    rw [h8 (fun j => by rw [h4 j]; rfl), List.append_nil] at hl
    exact hl

/-! ### Examples -/

theorem three_yields : YieldsOnly three 3 :=
  ⟨fun m hm => by
    have : m = 0 ∨ m = 1 ∨ m = 2 := by omega
    rcases this with rfl | rfl | rfl <;> rfl, rfl⟩

theorem slow_yields : YieldsOnly slow 3 :=
  ⟨fun m hm => by
    have : m = 0 ∨ m = 1 ∨ m = 2 := by omega
    rcases this with rfl | rfl | rfl <;> rfl, rfl⟩

/-- A source that yields as often as it was told to: `N` may be any number. -/
def upTo (N : Nat) : Src Nat where
  start := 0
  state x := if x < N then .now else .await
  yield x := (x + 1, .val x)

theorem upTo_yields : YieldsOnly (upTo N) N := by
  have h : ∀ m, (upTo N).after m = m := by
    intro m
    induction m with
    | zero => rfl
    | succ m ih => simp only [Src.after, ih]; rfl
  constructor
  · intro m hm; rw [h]; simp [upTo, hm, SState.isYield]
  · rw [h]; simp [upTo, SState.isYield]

/-- The run of the example for C70, to its end. -/
def finish : List Act := [.ready, .job 0] ++ round 2 1 ++ [.pop 0, .pop 1, .ask 0, .ask 1, .cts 0 true, .cts 1 true] ++ round 2 2 ++
  [.pop 1, .ask 1, .pop 0, .cts 1 true, .ask 0, .cts 0 true] ++ round 2 3 ++ [.pop 0, .pop 1, .ask 1, .cts 1 false, .ask 0, .cts 0 false]

/-- The hypotheses of `c110_terminates_partial`: 56 steps, at most 97. -/
example : (exec three 2 (fun _ => 1) (init three) finish).isSome = true ∧ (finish.filter Act.counts).length = 56 := ⟨rfl, rfl⟩

/-- The hypotheses of `c110_at_rest_partial`. -/
example : ∃ s, Reachable three 2 (fun _ => 1) s ∧ AtRest three 2 (fun _ => 1) s ∧ s.sent 1 = [.val 0, .val 1, .val 2] := by
  have hr : Reachable three 2 (fun _ => 1) ((exec three 2 (fun _ => 1) (init three) finish).get rfl) :=
    exec_reachable .init (Option.some_get _).symm
  refine ⟨_, hr, ?_, rfl⟩
  have hb := Base.of_reachable hr
  have hw := within hr
  generalize hs : (exec three 2 (fun _ => 1) (init three) finish).get rfl = s at hr hb hw
  have h0 : s.next = 4 ∧ (∀ j, j < 4 → s.pc j = .none) ∧ (∀ k, k < 2 → s.dq k = [] ∧ s.cr k = 0 ∧ s.cy k = 0 ∧ s.ca k = 0) ∧ s.ready = true := by
    subst hs; decide
  have hp : ∀ j, s.pc j = .none := fun j => by
    by_cases hj : j < 4
    · exact h0.2.1 j hj
    · exact hb.fr j (by omega)
  have hk : ∀ k, s.dq k = [] ∧ s.cr k = 0 ∧ s.cy k = 0 ∧ s.ca k = 0 := fun k => by
    by_cases hk : k < 2
    · exact h0.2.2.1 k hk
    · exact ⟨hw.dq k (by omega), hw.cr k (by omega), hw.cy k (by omega), hw.ca k (by omega)⟩
  intro a
  cases a with
  | job j => simp [Source.step, stepJob, hp]
  | fail j => simp [Source.step, hp]
  | ready => simp [Source.step, h0.2.2.2]
  | pop k => simp [Source.step, (hk k).1]
  | ask k => simp [Source.step, (hk k).2.1]
  | cts k ps => simp [Source.step, (hk k).2.2.1, (hk k).2.2.2]

/-! ### What is not true -/

/-- A delayed source that yields 2 results, then 7 once more if it is called nevertheless. -/
def two : Src Nat where
  start := 0
  state x := if x < 2 then .later else .await
  yield x := (x + 1, .val (if x < 2 then x else 7))

/-- Without the condition: a delayed source whose receiver has buffer size 2 is called once more after it stopped yielding. -/
theorem c110_once_more_counterexample : YieldsOnly two 2 ∧
    ∃ s, Reachable two 1 (fun _ => 2) s ∧ s.outs = [.val 0, .val 1, .val 7] :=
  ⟨⟨fun m hm => by
      have : m = 0 ∨ m = 1 := by omega
      rcases this with rfl | rfl <;> rfl, rfl⟩,
    (exec two 1 (fun _ => 2) (init two) ([.ready, .job 0, .job 1, .job 1, .job 1] ++ List.replicate 6 (.job 2) ++
      [.pop 0, .ask 0, .cts 0 true] ++ List.replicate 2 (.job 2) ++ [.job 3, .job 3, .job 3, .job 4, .job 4, .job 4, .job 5, .job 6, .job 5, .job 6])).get rfl,
    exec_reachable .init (Option.some_get _).symm, rfl⟩

end Verif.Source
