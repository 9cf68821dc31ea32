import Verif.Channel.ProcessEnd

/-!
# Processes with `await` and `yield` come to rest (C109)
-/

namespace Verif.Process

open Verif.Channel (Msg sumTo upd)

variable {σ : Type} {P : Proc σ} {n : Nat} {s s' : St σ}

/-- The system goes from one state to another by itself, other than by failing to lock. -/
def Next (P : Proc σ) (n : Nat) (s s' : St σ) : Prop := ∃ a : Act, a.internal = true ∧ step P n s a = .ok s'

/-- ... or by failing to lock, which makes a new attempt. -/
def NextFail (P : Proc σ) (n : Nat) (s s' : St σ) : Prop := ∃ j, step P n s (.fail j) = .ok s'

theorem Next.reachable (h : Reachable P n s) (hs : Next P n s s') : Reachable P n s' := by
  obtain ⟨a, -, hs⟩ := hs
  exact .step h hs

theorem NextFail.reachable (h : Reachable P n s) (hs : NextFail P n s s') : Reachable P n s' := by
  obtain ⟨j, hs⟩ := hs
  exact .step h hs

/-- Nothing is left to do. -/
def AtRest (P : Proc σ) (n : Nat) (s : St σ) : Prop := ∀ s', ¬Next P n s s' ∧ ¬NextFail P n s s'

theorem acc_of_less (hE : StopsYielding P) {R : St σ → St σ → Prop} {Q : St σ → Prop} (hl : ∀ s s', Q s → R s s' → Less hE n s' s ∧ Q s')
    (h : Q s) : Acc (fun s' s => R s s') s := by
  have key : ∀ a r b (s : St σ), mA P s ≤ a → rankOf hE s ≤ r → muB n s ≤ b → Q s → Acc (fun s' s => R s s') s := by
    intro a
    induction a using Nat.strongRecOn with
    | ind a iha =>
      intro r
      induction r using Nat.strongRecOn with
      | ind r ihr =>
        intro b
        induction b using Nat.strongRecOn with
        | ind b ihb =>
          intro s ha hr hb hq
          constructor
          intro s' hs
          obtain ⟨hl, hq'⟩ := hl s s' hq hs
          rcases hl with h1 | ⟨h1, h2 | ⟨h2, h3⟩⟩
          · exact iha (mA P s') (by omega) _ _ s' (Nat.le_refl _) (Nat.le_refl _) (Nat.le_refl _) hq'
          · exact ihr (rankOf hE s') (by omega) _ s' (by omega) (Nat.le_refl _) (Nat.le_refl _) hq'
          · exact ihb (muB n s') (by omega) s' (by omega) (by omega) (Nat.le_refl _) hq'
  exact key _ _ _ s (Nat.le_refl _) (Nat.le_refl _) (Nat.le_refl _) h

/-- **C109**: without further messages the threads of the process, its timers and its receivers take only finitely many steps, in whatever order. -/
theorem c109_terminates (hP : Untimed P) (hE : StopsYielding P) (h : Reachable P n s) : Acc (fun s' s => Next P n s s') s :=
  acc_of_less (n := n) hE (Q := Reachable P n) (fun s s' hr hs => ⟨by obtain ⟨a, ha, hs⟩ := hs; exact (inv hP hr).less hP hE ha hs, hs.reachable hr⟩) h

theorem Inv.alive (hP : Untimed P) (h : Reachable P n s) {j : Nat} (hj : s.pc j ≠ .none) : ∃ s', Next P n s s' := by
  have I := inv hP h
  have hub : ∀ i, stepJob P n i s ≠ .ub := fun i => c60_no_undefined hP h (.job i)
  have key : ∀ i, stepJob P n i s ≠ .no → ∃ s', Next P n s s' := by
    intro i hi
    cases hs : stepJob P n i s with
    | no => exact absurd hs hi
    | ub => exact absurd hs (hub i)
    | ok s' => exact ⟨s', .job i, rfl, hs⟩
  have go : ∀ i, s.pc i ≠ .none → s.pc i ≠ .start → s.pc i ≠ .timeout → stepJob P n i s ≠ .no := by
    intro i h1 h2 h3 hs
    unfold stepJob at hs
    split at hs <;> first | contradiction | (repeat' split at hs) <;> cases hs
  by_cases h1 : s.pc j = .start
  · cases hl : s.lock with
    | none => exact key j (by simp [stepJob, h1, hl])
    | some i =>
      have := (I.lk i).2 hl
      refine key i (go i ?_ ?_ ?_) <;> intro hp <;> rw [hp] at this <;> cases this
  · refine key j (go j hj h1 fun hp => I.noTimeout hp rfl)

/-- **C109**: as long as there is anything to do, some thread has a step other than a failing `try_lock`. -/
theorem c109_goes_on (hP : Untimed P) (h : Reachable P n s) (hr : ¬AtRest P n s) : ∃ s', Next P n s s' := by
  simp only [AtRest, Classical.not_forall, Classical.not_and_iff_not_or_not, Classical.not_not] at hr
  obtain ⟨s', hs | ⟨j, hs⟩⟩ := hr
  · exact ⟨s', hs⟩
  · refine Inv.alive hP h (j := j) fun hp => ?_
    simp [step, hp] at hs

/-- **C109**: however often threads fail to lock `_timeout_function_control`, all but finitely many steps of an endless run are such failures; and
then the step of another thread is put off for ever. With a fair executor the process therefore comes to rest. -/
theorem c109_only_failures (hP : Untimed P) (hE : StopsYielding P) {f : Nat → St σ} (h : Reachable P n (f 0))
    (hf : ∀ i, Next P n (f i) (f (i + 1)) ∨ NextFail P n (f i) (f (i + 1))) :
    ∃ N, ∀ i ≥ N, NextFail P n (f i) (f (i + 1)) ∧ ∃ s', Next P n (f i) s' := by
  have hr : ∀ i, Reachable P n (f i) := by
    intro i
    induction i with
    | zero => exact h
    | succ i ih => exact (hf i).elim (fun h => h.reachable ih) (fun h => h.reachable ih)
  have key : ∀ a r b i, mA P (f i) ≤ a → rankOf hE (f i) ≤ r → muB n (f i) ≤ b → ∃ N, ∀ k ≥ N, ¬Next P n (f k) (f (k + 1)) := by
    intro a
    induction a using Nat.strongRecOn with
    | ind a iha =>
      intro r
      induction r using Nat.strongRecOn with
      | ind r ihr =>
        intro b
        induction b using Nat.strongRecOn with
        | ind b ihb =>
          intro i ha hrk hb
          by_cases hn : ∃ k ≥ i, Next P n (f k) (f (k + 1))
          · -- the measure does not grow up to the first such step
            have first : ∃ k ≥ i, Next P n (f k) (f (k + 1)) ∧ mA P (f k) = mA P (f i) ∧ rankOf hE (f k) = rankOf hE (f i) ∧ muB n (f k) = muB n (f i) := by
              obtain ⟨k, hk, hk'⟩ := hn
              obtain ⟨d, rfl⟩ : ∃ d, k = i + d := ⟨k - i, by omega⟩
              induction d using Nat.strongRecOn with
              | ind d ihd =>
                by_cases he : ∃ e < d, Next P n (f (i + e)) (f (i + e + 1))
                · obtain ⟨e, he, hn⟩ := he
                  exact ihd e he (by omega) hn
                · have hsame : ∀ e ≤ d, mA P (f (i + e)) = mA P (f i) ∧ rankOf hE (f (i + e)) = rankOf hE (f i) ∧ muB n (f (i + e)) = muB n (f i) := by
                    intro e
                    induction e with
                    | zero => intro _; exact ⟨rfl, rfl, rfl⟩
                    | succ e ihe =>
                      intro hed
                      have h1 := ihe (by omega)
                      rcases hf (i + e) with h2 | ⟨j, h2⟩
                      · exact absurd ⟨e, by omega, h2⟩ he
                      · have h3 := (inv hP (hr (i + e))).fail_same hE h2
                        rw [← Nat.add_assoc]
                        exact ⟨h3.1.trans h1.1, h3.2.1.trans h1.2.1, h3.2.2.trans h1.2.2⟩
                  exact ⟨i + d, hk, hk', hsame d (Nat.le_refl _)⟩
            obtain ⟨k, hk, ⟨c, hc, hs⟩, e1, e2, e3⟩ := first
            have hl := (inv hP (hr k)).less hP hE hc hs
            rcases hl with h1 | ⟨h1, h2 | ⟨h2, h3⟩⟩
            · exact iha (mA P (f (k + 1))) (by omega) _ _ (k + 1) (Nat.le_refl _) (Nat.le_refl _) (Nat.le_refl _)
            · exact ihr (rankOf hE (f (k + 1))) (by omega) _ (k + 1) (by omega) (Nat.le_refl _) (Nat.le_refl _)
            · exact ihb (muB n (f (k + 1))) (by omega) (k + 1) (by omega) (by omega) (Nat.le_refl _)
          · exact ⟨i, fun k hk hn' => hn ⟨k, hk, hn'⟩⟩
  obtain ⟨N, hN⟩ := key _ _ _ 0 (Nat.le_refl _) (Nat.le_refl _) (Nat.le_refl _)
  refine ⟨N, fun i hi => ?_⟩
  have h1 : NextFail P n (f i) (f (i + 1)) := (hf i).resolve_left (hN i hi)
  exact ⟨h1, c109_goes_on hP (hr i) fun hrest => (hrest _).2 h1⟩

theorem AtRest.quiet (hP : Untimed P) (h : Reachable P n s) (hr : AtRest P n s) : Quiet s := by
  intro k
  refine ⟨?_, ?_, ?_⟩
  · refine Classical.byContradiction fun hp => ?_
    obtain ⟨s', hs⟩ := Inv.alive hP h hp
    exact (hr s').1 hs
  · cases hd : s.dq k with
    | nil => rfl
    | cons m q =>
      exfalso
      cases hc : s.cts k with
      | none => exact (hr _).1 ⟨.pop k, rfl, by simp only [step, hd, hc, if_true]; rfl⟩
      | _ =>
        have := (inv hP h).dq1 k
        rw [hd, hc] at this
        simp [Cts.busy] at this
  · have : ∀ s', step P n s (.cts k) ≠ .ok s' := fun s' hs => (hr s').1 ⟨.cts k, rfl, hs⟩
    cases hc : s.cts k with
    | none => rfl
    | first => exact absurd (by simp only [step, hc]; rfl) (this _)
    | second =>
      obtain ⟨-, -, -, -, -, -, -, x, hx⟩ := (inv hP h).cts2 hc
      exact absurd (by simp only [step, hc, hx]; rfl) (this _)

/-- **C109**: at rest every message sent was given to the process object, and every result was taken by every receiver; unless the channel was closed
the object then awaits (or has not been started yet), and the next message starts it. -/
theorem c109_at_rest (hP : Untimed P) (h : Reachable P n s) (hr : AtRest P n s) (hy : s.ready = true) :
    s.took = s.inp ∧ (∀ k < n, s.sent k = s.outs ∧ s.dq k = []) ∧
    (s.final = false → s.snd ≠ 0 ∧ (∃ x, s.proc = some x ∧ ((P.state x).isYield = false ∨ x = P.start)) ∧
      ∀ m, ∃ j s', step P n s (.send m) = .ok s' ∧ s'.pc j = .start) := by
  have hq := hr.quiet hP h
  obtain ⟨h1, h2, h3⟩ := c60_rest hP h hy hq
  exact ⟨h1, fun k hk => ⟨h2 k hk, (hq k).2.1⟩, h3⟩

/-- Whatever order the steps are taken in, `Q` holds at some time. -/
inductive Eventually (P : Proc σ) (n : Nat) (Q : St σ → Prop) : St σ → Prop where
  | now {s : St σ} : Q s → Eventually P n Q s
  | later {s : St σ} : (∃ s', Next P n s s') → (∀ s', Next P n s s' → Eventually P n Q s') → Eventually P n Q s

/-- **C109**: the process does come to rest. -/
theorem c109_rest (hP : Untimed P) (hE : StopsYielding P) (h : Reachable P n s) : Eventually P n (AtRest P n) s := by
  induction c109_terminates hP hE h with
  | intro s _ ih =>
    by_cases hr : AtRest P n s
    · exact .now hr
    · exact .later (c109_goes_on hP h hr) fun s' hs => ih s' hs (hs.reachable h)

/-! ## An execution -/

theorem pairs_stops : StopsYielding pairs := by
  intro x
  by_cases h : x.length = 2
  · exact ⟨1, rfl⟩
  · exact ⟨0, by simp [pairs, after, h, PState.isYield]⟩

/-- A process that yields what it was given and all smaller numbers, one after the other, at a later time. -/
def countdown : Proc Nat where
  start := 0
  state x := if x = 0 then .forever else .later
  await _ v := (v, true)
  yield x := (x - 1, .val x)
  close x := (x, true)
  setError := none

theorem countdown_untimed : Untimed countdown := by intro x; simp only [countdown]; split <;> simp

/-- The hypothesis of `c109_terminates` is met although there is no bound on how often it yields. -/
theorem countdown_stops : StopsYielding countdown := by
  have : ∀ k x, x ≤ k → countdown.state (after countdown k x) = .forever := by
    intro k
    induction k with
    | zero => intro x hx; simp [after, countdown, Nat.le_zero.1 hx]
    | succ k ih => intro x hx; exact ih (x - 1) (by omega)
  exact fun x => ⟨x, by rw [this x x (Nat.le_refl _)]; rfl⟩

theorem Quiet.atRest (h : Quiet s) : AtRest P n s := by
  intro s'
  constructor
  · rintro ⟨a, ha, hs⟩
    cases a <;> cases ha
    case left.job.refl j => simp [step, stepJob, (h j).1] at hs
    case left.pop.refl k => simp [step, (h k).2.1] at hs
    case left.cts.refl k => simp [step, (h k).2.2] at hs
  · rintro ⟨j, hs⟩
    simp [step, (h j).1] at hs

/-- The hypotheses of `c109_at_rest`: 3 and 4 were sent, and both receivers have their sum. -/
example : ∃ s, Reachable pairs 2 s ∧ AtRest pairs 2 s ∧ s.ready = true ∧ s.final = false ∧ s.inp = [.val 3, .val 4] ∧ s.sent 1 = [.val 7] := by
  have hr : Reachable pairs 2 ((exec pairs 2 (init pairs) arrived7).get rfl) := exec_reachable .init (Option.some_get _).symm
  exact ⟨_, hr, (quiet_iff_lt (inv pairs_untimed hr) (by decide) (by decide)).atRest, rfl, rfl, rfl, rfl⟩

/-- A state that is not at rest, as in `c109_goes_on`: 2 was sent, 2 was yielded, and another `yield` is waiting for its time. -/
example : ∃ s, Reachable countdown 0 s ∧ ¬AtRest countdown 0 s ∧ s.outs = [.val 2] ∧ s.proc = some 1 := by
  have hr : Reachable countdown 0 ((exec countdown 0 (init countdown) ([.ready, .job 0, .send (.val 2)] ++ jobs 1 7 ++ jobs 2 6)).get rfl) :=
    exec_reachable .init (Option.some_get _).symm
  refine ⟨_, hr, fun h => ?_, rfl, rfl⟩
  have := (h.quiet countdown_untimed hr 3).1
  cases this

end Verif.Process
