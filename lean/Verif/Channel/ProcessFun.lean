import Verif.Channel.ProcessProps

/-!
# C61: `function_process`
-/

namespace Verif.Process

open Verif.Channel (Msg upd)

variable {f : Nat → Msg} {n : Nat} {s s' : St (Option Nat)}

/-- `function_process`, channel.hpp lines 1682-1708, for a function with one argument. The state is the argument that is bound
while `_done` is false. The function throws if its result is `err`. -/
def functionProcess (f : Nat → Msg) : Proc (Option Nat) where
  start := none
  state x := if x = none then .forever else .now
  await _ v := (some v, true)
  yield x := match x with
    | some v => (none, f v)
    | none => (none, .err)
  close x := (x, true)
  setError := none

/-- The messages that are not errors. -/
def vals : List Msg → List Nat
  | [] => []
  | .val v :: l => v :: vals l
  | .err :: l => vals l

theorem vals_append : ∀ a b : List Msg, vals (a ++ b) = vals a ++ vals b
  | [], _ => rfl
  | .val v :: a, b => by simp [vals, vals_append a b]
  | .err :: a, b => by simp [vals, vals_append a b]

theorem fun_untimed (f : Nat → Msg) : Untimed (functionProcess f) := by
  intro x; simp only [functionProcess]; split <;> simp

theorem fun_closeEnds (f : Nat → Msg) : CloseEnds (functionProcess f) := by
  intro x hx
  simp only [functionProcess] at hx ⊢
  split at hx <;> simp_all [PState.isYield]

/-- What is bound. -/
def bound : Option (Option Nat) → List Nat
  | some (some v) => [v]
  | _ => []

structure FInv (f : Nat → Msg) (s : St (Option Nat)) : Prop where
  aw : ∀ j v, s.pc j = .inAwait v → (vals s.took).map f = s.outs ++ [f v]
  na : (∀ j v, s.pc j ≠ .inAwait v) → (vals s.took).map f = s.outs ++ (bound s.proc).map f
  cl : ∀ j, s.pc j = .clear → s.proc = some none

theorem FInv.same (h : FInv f s) (h1 : s'.took = s.took) (h2 : s'.outs = s.outs) (h3 : s'.proc = s.proc)
    (h4 : ∀ j v, s'.pc j = .inAwait v ↔ s.pc j = .inAwait v) (h5 : ∀ j, s'.pc j = .clear → s.pc j = .clear) : FInv f s' :=
  ⟨fun j v hj => by rw [h1, h2]; exact h.aw j v ((h4 j v).1 hj),
    fun hn => by rw [h1, h2, h3]; exact h.na fun j v hj => hn j v ((h4 j v).2 hj), fun j hj => by rw [h3]; exact h.cl j (h5 j hj)⟩

/-- While the main thread is elsewhere, no argument is being given. -/
theorem FInv.main (h : FInv f s) (hI : Inv (functionProcess f) n s) {j : Nat} {p : Pc} (hp : s.pc j = p) (hm : p.isMain = true)
    (hn : ∀ v, p ≠ .inAwait v) : (vals s.took).map f = s.outs ++ (bound s.proc).map f ∧ (∀ i v, s.pc i ≠ .inAwait v) ∧ ∀ i, s.pc i ≠ .clear := by
  have h1 := (hI.main hp hm).1
  have h2 : ∀ i v, s.pc i ≠ .inAwait v := by
    intro i v hi
    have := (hI.main hi rfl).1
    rw [h1] at this; cases this
    exact hn v (hp.symm.trans hi)
  exact ⟨h.na h2, h2, fun i hi => by simp [(hI.cl i hi).2] at h1⟩

theorem FInv.job (hI : Inv (functionProcess f) n s) (h : FInv f s) {j : Nat}
    (hs : stepJob (functionProcess f) n j s = .ok s') : FInv f s' := by
  have fr := hI.fr
  unfold stepJob at hs
  split at hs
  case h_1 => cases hs
  case h_5 m hp =>
    obtain ⟨h1, h2, h3⟩ := h.main hI hp rfl (by simp)
    split at hs
    · cases hs
    · rename_i x hx
      have hb : bound s.proc = [] := by
        have := hI.ay (by rw [(hI.main hp rfl).2.1]; rfl) x hx
        cases x <;> simp [functionProcess, PState.isYield] at this
        simp [hx, bound]
      cases m with
      | val v =>
        cases hs
        refine ⟨?_, ?_, ?_⟩
        · intro i w hi
          simp only [goto, upd_apply] at hi ⊢
          split at hi
          · cases hi; simp [vals_append, vals, h1, hb]
          · exact absurd hi (h2 i w)
        · intro hn; exact absurd (by simp [goto, upd_apply]) (hn j v)
        · intro i hi
          simp only [goto, upd_apply] at hi
          split at hi
          · cases hi
          · exact absurd hi (h3 i)
      | err =>
        cases hs
        refine ⟨?_, ?_, ?_⟩
        · intro i w hi
          simp only [goto, upd_apply] at hi
          split at hi
          · cases hi
          · exact absurd hi (h2 i w)
        · intro hn; simp [goto, vals_append, vals, h1]
        · intro i hi
          simp only [goto, upd_apply] at hi
          split at hi
          · cases hi
          · exact absurd hi (h3 i)
  case h_7 v hp =>
    have hm := (hI.main hp rfl).1
    split at hs
    · cases hs
      refine ⟨?_, ?_, ?_⟩
      · intro i w hi
        simp only [goto, upd_apply] at hi
        split at hi
        · cases hi
        · have := (hI.main hi rfl).1
          rw [hm] at this; cases this; contradiction
      · intro hn; exact h.aw j v hp
      · intro i hi
        simp only [goto, upd_apply] at hi
        split at hi
        · cases hi
        · simp [(hI.cl i hi).2] at hm
    · cases hs
  case h_10 b hp =>
    obtain ⟨h1, h2, h3⟩ := h.main hI hp rfl (by simp)
    obtain ⟨x, hx, hy⟩ := hI.yi b (hI.main hp rfl).2.1
    rw [hx] at hs
    cases x with
    | none => simp [functionProcess, PState.isYield] at hy
    | some w =>
      cases hs
      refine ⟨?_, ?_, ?_⟩
      · intro i w hi
        simp only [goto, upd_apply] at hi
        split at hi
        · cases hi
        · exact absurd hi (h2 i w)
      · intro hn; simp [goto, h1, hx, bound, functionProcess]
      · intro i hi
        simp only [goto, upd_apply] at hi
        split at hi
        · cases hi
        · exact absurd hi (h3 i)
  case h_16 hp =>
    obtain ⟨h1, h2, h3⟩ := h.main hI hp rfl (by simp)
    obtain ⟨x, hx, hy⟩ := hI.td (hI.main hp rfl).2.1
    have hx' : x = none := by cases x <;> simp [functionProcess] at hy ⊢
    subst hx'
    cases hs
    by_cases hc : s.q ≠ [] ∨ s.closeQ = true
    · simp only [hc, decide_true, if_true]
      refine ⟨?_, ?_, ?_⟩ <;> simp only [goto, run, spawn, upd_apply] <;> grind
    · simp only [hc, decide_false, Bool.false_eq_true, if_false]
      refine ⟨?_, ?_, ?_⟩ <;> simp only [goto, upd_apply] <;> grind
  case h_17 hp =>
    have hc := h.cl j hp
    cases hs
    have hna : ∀ i v, s.pc i ≠ .inAwait v := by
      intro i v hi
      have := (hI.main hi rfl).1
      simp [(hI.cl j hp).2] at this
    have := h.na hna
    have hu : ∀ i, s.pc i = .clear → i = j := by
      intro i hi
      have h1 := (hI.lk i).1 (by rw [hi]; rfl)
      have h2 := (hI.lk j).1 (by rw [hp]; rfl)
      rw [h1] at h2; cases h2; rfl
    refine ⟨?_, ?_, ?_⟩ <;> simp only [goto, upd_apply] <;> grind [bound]
  case h_15 hp => exact (hI.noTimeout hp rfl).elim
  case h_20 hp => exact (hI.noTimeout hp rfl).elim
  case h_21 hp => exact (hI.noTimeout hp rfl).elim
  case h_13 b hp =>
    split at hs <;> cases hs
    · refine h.same ?_ ?_ ?_ ?_ ?_ <;> cases b <;> simp only [back, goto, upd_apply] <;> grind
    · refine h.same ?_ ?_ ?_ ?_ ?_ <;> simp only [goto, upd_apply] <;> grind
  case h_14 b hp =>
    split at hs <;> cases hs
    simp only [ctsCrit]
    split
    · split
      · refine h.same ?_ ?_ ?_ ?_ ?_ <;> cases b <;> simp only [back, goto, run, spawn, upd_apply] <;> grind
      · refine h.same ?_ ?_ ?_ ?_ ?_ <;> cases b <;> simp only [back, goto, run, spawn, upd_apply] <;> grind
    · refine h.same ?_ ?_ ?_ ?_ ?_ <;> cases b <;> simp only [back, goto, run, spawn, upd_apply] <;> grind
  case h_22 hp =>
    cases hs
    simp only [decide_eq_true_eq]
    split <;> refine h.same ?_ ?_ ?_ ?_ ?_ <;> simp only [goto, run, spawn, upd_apply] <;> grind
  case h_23 hp =>
    cases hs
    simp only [decide_eq_true_eq]
    split <;> refine h.same ?_ ?_ ?_ ?_ ?_ <;> simp only [goto, run, spawn, upd_apply] <;> grind
  case h_6 hp =>
    have := hI.er (hI.main hp rfl).2.1
    simp [functionProcess] at this
  all_goals
    rename_i hp
    repeat' split at hs
    all_goals try cases hs
    all_goals
      refine h.same ?_ ?_ ?_ ?_ ?_ <;> (try simp only [goto, run, spawn, upd_apply]) <;> grind [functionProcess]

theorem FInv.step (hI : Inv (functionProcess f) n s) (h : FInv f s) {a : Act}
    (hs : step (functionProcess f) n s a = .ok s') : FInv f s' := by
  have fr := hI.fr
  cases a with
  | job j => exact h.job hI hs
  | send m =>
    simp only [Process.step] at hs
    split at hs <;> cases hs
    simp only [enqueue]
    split <;> refine h.same ?_ ?_ ?_ ?_ ?_ <;> (try simp only [run, spawn, upd_apply]) <;> grind
  | cts k =>
    simp only [Process.step] at hs
    repeat' split at hs
    all_goals cases hs
    · exact h.same rfl rfl rfl (fun _ _ => Iff.rfl) fun _ hj => hj
    · exact h.same rfl rfl rfl (fun _ _ => Iff.rfl) fun _ hj => hj
    · simp only [ctsCrit]
      repeat' split
      all_goals refine h.same ?_ ?_ ?_ ?_ ?_ <;> (try simp only [run, spawn, upd_apply]) <;> grind
  | _ =>
    simp only [Process.step] at hs
    repeat' split at hs
    all_goals cases hs
    all_goals refine h.same ?_ ?_ ?_ ?_ ?_ <;> (try simp only [goto, run, spawn, upd_apply]) <;> grind

theorem finv (h : Reachable (functionProcess f) n s) : FInv f s := by
  induction h with
  | init => exact ⟨fun j v hj => (by cases hj), fun _ => rfl, fun j hj => (by cases hj)⟩
  | step h hs ih => exact ih.step (inv (fun_untimed f) h) hs

/-- **C61**: the results are those of the function for the messages given to it, in their
order, and at most one is missing, which the function is going to be called for. -/
theorem c61_function (h : Reachable (functionProcess f) n s) :
    ∃ l, l.length ≤ 1 ∧ (vals s.took).map f = s.outs ++ l := by
  have hF := finv h
  by_cases ha : ∃ j v, s.pc j = .inAwait v
  · obtain ⟨j, v, ha⟩ := ha
    exact ⟨_, Nat.le_refl _, hF.aw j v ha⟩
  · refine ⟨_, ?_, hF.na fun j v hj => ha ⟨j, v, hj⟩⟩
    rcases s.proc with _ | _ | v <;> simp [bound]

/-- **C61**: when everything has come to rest, each receiver has got exactly the results of
the function for all messages sent, in their order; and if the last sender is gone, the receivers have learned of that. -/
theorem c61_function_rest (h : Reachable (functionProcess f) n s) (hr : s.ready = true) (hq : Quiet s) :
    (∀ k < n, s.sent k = (vals s.inp).map f) ∧ (s.snd = 0 ↔ s.down = false) := by
  have hI := inv (fun_untimed f) h
  have h1 := c60_rest (fun_untimed f) h hr hq
  have h2 := (finv h).na fun j v hj => by rw [(hq j).1] at hj; cases hj
  have hd : s.snd = 0 → s.proc = none ∧ s.down = false := fun hs =>
    (c60_close_partial (fun_untimed f) (fun_closeEnds f) h hr hq hs).2.2
  have hb : bound s.proc = [] := by
    rcases hf : s.final with _ | _
    · obtain ⟨x, hx, hy⟩ := (h1.2.2 hf).2.1
      cases x with
      | none => simp [hx, bound]
      | some v => simp [functionProcess, PState.isYield] at hy
    · simp [hd (hI.so.2 (.inr (.inl hf))), bound]
  refine ⟨fun k hk => by rw [h1.2.1 k hk, ← h1.1, h2, hb]; simp, fun hs => (hd hs).2, fun hd => ?_⟩
  exact hI.so.2 (.inr (.inl (hI.pr (hI.dw hd)).1))

/-- Doubles its argument, but throws for 0. -/
def double (v : Nat) : Msg := if v = 0 then .err else .val (2 * v)

/-- `c61_function`, `c61_function_rest`: of 3, an error and 0, the error is dropped, and the function throws for 0. -/
example : ∃ s, Reachable (functionProcess double) 1 s ∧ s.ready = true ∧ Quiet s ∧ s.snd = 0 ∧ s.inp = [.val 3, .err, .val 0] ∧
    s.sent 0 = [.val 6, .err] := by
  have hr : Reachable (functionProcess double) 1 ((exec (functionProcess double) 1 (init (functionProcess double))
      ([.ready, .job 0, .send (.val 3), .send .err, .send (.val 0), .dropSender] ++ jobs 1 14 ++ [.job 2, .pop 0, .cts 0, .cts 0] ++
        jobs 3 18 ++ [.pop 0, .cts 0, .cts 0] ++ jobs 4 8)).get rfl) :=
    exec_reachable .init (Option.some_get _).symm
  exact ⟨_, hr, rfl, quiet_iff_lt (inv (fun_untimed _) hr) (by decide) (by decide), rfl, rfl, rfl⟩

end Verif.Process
