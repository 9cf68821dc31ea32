import Verif.LocksInv

/-!
# Properties of the locks (C77)

Any number of threads calls any functions of the library, on any objects, from the user's code and from code that the library calls: executors,
continuations, processes, destructors. The four functions that call such code with a mutex locked are excluded in the `_partial` theorems
(`disciplined`) and are the subject of the counterexamples.
-/

namespace Verif.Locks

theorem mem_not_allTf {h : List Mutex} {m : Mutex} (hm : m ∈ h) (ht : m.isTf = false) : allTf h = false := by
  cases e : allTf h
  · rfl
  · have := List.all_eq_true.mp e m hm
    rw [ht] at this; cases this

theorem not_above_self {h : List Mutex} {m : Mutex} (hm : m ∈ h) : above h m = false := by
  cases e : above h m
  · rfl
  · simp only [above, Bool.and_eq_true, List.all_eq_true, decide_eq_true_eq] at e
    have := e.2 m hm
    omega

/-- A thread that holds a mutex can go on in the library, or it waits for a mutex above all it holds. -/
theorem holder_steps {allowed : Fn → Bool} {s : St} (I : Inv s) {u : Nat} {m : Mutex} (hm : s.owner m = some u) (ht : m.isTf = false) :
    (∃ m' k v, (s.th u).code = .lock m' :: k ∧ s.owner m' = some v ∧ v ≠ u ∧ m'.isTf = false ∧ rank m < rank m') ∨
      (InLibrary s u ∧ ∀ pick calls, ∃ s', step allowed s u pick calls = .next s') := by
  have hmem := (I.own m u).mp hm
  have hall := mem_not_allTf hmem ht
  have hc := I.chk u
  cases hcode : (s.th u).code with
  | nil => rw [hcode] at hc; simp only [checks, Option.some.injEq] at hc; rw [hc] at hmem; cases hmem
  | cons c k =>
    rw [hcode] at hc
    obtain ⟨h', h1, -⟩ := checks_cons hc
    cases c with
    | skip => exact Or.inr ⟨⟨_, _, hcode, trivial⟩, fun pick calls => by simp [step, hcode]⟩
    | lock m' =>
      simp only [check] at h1
      split at h1
      · rename_i ha
        have hr : rank m < rank m' := by
          simp only [above, Bool.and_eq_true, List.all_eq_true, decide_eq_true_eq] at ha
          exact ha.2 m hmem
        have htf : m'.isTf = false := by simp only [above, Bool.and_eq_true, Bool.not_eq_true'] at ha; exact ha.1
        cases ho : s.owner m' with
        | none => exact Or.inr ⟨⟨_, _, hcode, trivial⟩, fun pick calls => by simp [step, hcode, ho]⟩
        | some v =>
          refine Or.inl ⟨m', k, v, rfl, ho, ?_, htf, hr⟩
          intro e; subst e
          rw [not_above_self ((I.own m' v).mp ho)] at ha; cases ha
      · cases h1
    | unlock m' =>
      refine Or.inr ⟨⟨_, _, hcode, trivial⟩, fun pick calls => ?_⟩
      have : s.owner m' = some u := by
        rw [I.own]
        cases eh : (s.th u).held with
        | nil => rw [eh] at hmem; cases hmem
        | cons x xs =>
          rw [eh] at h1; simp only [check] at h1
          split at h1
          · rename_i ex; simp [ex]
          · cases h1
      simp [step, hcode, this]
    | tryLock m' yes no =>
      refine Or.inr ⟨⟨_, _, hcode, trivial⟩, fun pick calls => ?_⟩
      simp only [check, hall, Bool.and_false, Bool.or_false] at h1
      split at h1
      · rename_i ha
        cases ho : s.owner m' with
        | none => cases pick <;> simp [step, hcode, ho]
        | some v =>
          have : v ≠ u := by
            intro e; subst e
            rw [not_above_self ((I.own m' v).mp ho)] at ha; cases ha
          simp [step, hcode, ho, this]
      · cases h1
    | spin m' body => simp [check, hall] at h1
    | waits m' =>
      refine Or.inr ⟨⟨_, _, hcode, trivial⟩, fun pick calls => ?_⟩
      have : s.owner m' = some u := by
        rw [I.own]
        cases eh : (s.th u).held with
        | nil => rw [eh] at hmem; cases hmem
        | cons x xs =>
          rw [eh] at h1; simp only [check] at h1
          split at h1
          · rename_i ex; simp only [Bool.and_eq_true, decide_eq_true_eq] at ex; simp [ex.1.1]
          · cases h1
      cases pick <;> simp [step, hcode, this]
    | asleep m' => simp [check, hall] at h1
    | user => simp [check, hall] at h1
    | call f => simp [check, hall] at h1
    | seq a b => exact Or.inr ⟨⟨_, _, hcode, trivial⟩, fun pick calls => by simp [step, hcode]⟩
    | choose a b => exact Or.inr ⟨⟨_, _, hcode, trivial⟩, fun pick calls => by simp [step, hcode]⟩
    | loop b => simp [check, hall] at h1

theorem rank_le (m : Mutex) : rank m ≤ 3 := by cases m <;> simp [rank]

theorem chain_end {allowed : Fn → Bool} {s : St} (I : Inv s) (n : Nat) : ∀ {t u : Nat} {m : Mutex} {k : List Code}, 3 - rank m ≤ n →
    (s.th t).code = .lock m :: k → s.owner m = some u → m.isTf = false →
    ∃ v, Chain s t v ∧ Holds s v ∧ InLibrary s v ∧ ∀ pick calls, ∃ s', step allowed s v pick calls = .next s' := by
  induction n with
  | zero =>
    intro t u m k hn hcode ho ht
    rcases holder_steps (allowed := allowed) I ho ht with ⟨m', k', v, -, -, -, -, hr⟩ | ⟨h1, h2⟩
    · have := rank_le m'; omega
    · exact ⟨u, .one ⟨m, k, hcode, ho⟩, ⟨m, ho, ht⟩, h1, h2⟩
  | succ n ih =>
    intro t u m k hn hcode ho ht
    rcases holder_steps (allowed := allowed) I ho ht with ⟨m', k', v, hc', ho', -, ht', hr⟩ | ⟨h1, h2⟩
    · have := rank_le m'
      obtain ⟨w, hw, h3⟩ := ih (by omega) hc' ho' ht'
      exact ⟨w, .more ⟨m, k, hcode, ho⟩ hw, h3⟩
    · exact ⟨u, .one ⟨m, k, hcode, ho⟩, ⟨m, ho, ht⟩, h1, h2⟩

/-- C77: no deadlock. A thread that waits for a mutex waits, directly or through others, for a thread that holds one and can go on, in code of
the library. -/
theorem c77_no_deadlock_partial {allowed : Fn → Bool} (ha : ∀ f, allowed f = true → disciplined f = true) {s : St} (h : Reachable allowed s)
    {t : Nat} {pick : Bool} {calls : List Fn} {m : Mutex} (hb : step allowed s t pick calls = .blocked m) :
    ∃ v, Chain s t v ∧ Holds s v ∧ InLibrary s v ∧ ∀ pick calls, ∃ s', step allowed s v pick calls = .next s' := by
  have I := inv_reachable ha h
  have hc := I.chk t
  unfold step at hb
  split at hb
  case h_3 =>
    rename_i m' k hcode
    split at hb
    · cases hb
    · rename_i u ho
      refine chain_end I 3 (by omega) hcode ho ?_
      rw [hcode] at hc
      obtain ⟨h', h1, -⟩ := checks_cons hc
      simp only [check] at h1
      split at h1
      · rename_i hab; simp only [above, Bool.and_eq_true, Bool.not_eq_true'] at hab; exact hab.1
      · cases h1
  all_goals ((repeat' split at hb) <;> cases hb)

theorem no_ub {allowed : Fn → Bool} (ha : ∀ f, allowed f = true → disciplined f = true) {s : St} (h : Reachable allowed s)
    {t : Nat} {pick : Bool} {calls : List Fn} {m : Mutex} (hb : step allowed s t pick calls = .ub m) : m.isTf = true := by
  have I := inv_reachable ha h
  have hc := I.chk t
  unfold step at hb
  split at hb
  · cases hb
  · cases hb
  · rename_i m' k hcode
    rw [hcode] at hc
    obtain ⟨h', h1, -⟩ := checks_cons hc
    simp only [check] at h1
    split at h1
    · rename_i hab
      split at hb
      · cases hb
      · rename_i u ho
        split at hb
        · rename_i e; subst e
          rw [not_above_self ((I.own _ _).mp ho)] at hab; cases hab
        · cases hb
    · cases h1
  · rename_i m' k hcode
    rw [hcode] at hc
    obtain ⟨h', h1, -⟩ := checks_cons hc
    split at hb
    · cases hb
    · rename_i hno
      exfalso; apply hno
      rw [I.own]
      cases eh : (s.th t).held with
      | nil => rw [eh] at h1; simp [check] at h1
      | cons x xs =>
        rw [eh] at h1; simp only [check] at h1
        split at h1
        · rename_i ex; simp [ex]
        · cases h1
  · rename_i m' yes no k hcode
    rw [hcode] at hc
    obtain ⟨h', h1, -⟩ := checks_cons hc
    simp only [check] at h1
    split at h1
    · rename_i hab
      split at hb
      · split at hb <;> cases hb
      · rename_i u ho
        split at hb
        · rename_i e; subst e
          simp only [Out.ub.injEq] at hb; subst hb
          rw [not_above_self ((I.own _ _).mp ho)] at hab
          simp only [Bool.false_or, Bool.and_eq_true] at hab
          exact hab.1
        · cases hb
    · cases h1
  · rename_i m' body k hcode
    rw [hcode] at hc
    obtain ⟨h', h1, -⟩ := checks_cons hc
    simp only [check] at h1
    split at h1
    · rename_i hab
      simp only [Bool.and_eq_true] at hab
      split at hb
      · split at hb <;> cases hb
      · split at hb
        · simp only [Out.ub.injEq] at hb; subst hb; exact hab.1.1
        · cases hb
    · cases h1
  · rename_i m' k hcode
    rw [hcode] at hc
    obtain ⟨h', h1, -⟩ := checks_cons hc
    split at hb
    · split at hb <;> cases hb
    · rename_i hno
      exfalso; apply hno
      rw [I.own]
      cases eh : (s.th t).held with
      | nil => rw [eh] at h1; simp [check] at h1
      | cons x xs =>
        rw [eh] at h1; simp only [check] at h1
        split at h1
        · rename_i ex; simp only [Bool.and_eq_true, decide_eq_true_eq] at ex; simp [ex.1.1]
        · cases h1
  all_goals ((repeat' split at hb) <;> cases hb)

/-- C77: no thread locks, or tries to lock, a mutex it owns, or unlocks one it does not own — except that a call of `step` or of the timeout
function of a process, nested in another one of the same process, tries to lock its `_timeout_function_control` again. -/
theorem c77_no_ub_partial {allowed : Fn → Bool} (ha : ∀ f, allowed f = true → disciplined f = true) {s : St} (h : Reachable allowed s)
    {t : Nat} {pick : Bool} {calls : List Fn} {m : Mutex} (hb : step allowed s t pick calls = .ub m) :
    (∃ p, m = .tf p) ∧ s.owner m = some t ∧
      ∃ k, (∃ yes no, (s.th t).code = .tryLock m yes no :: k) ∨ ∃ body, (s.th t).code = .spin m body :: k := by
  have ht := no_ub ha h hb
  have I := inv_reachable ha h
  have hc := I.chk t
  refine ⟨(by cases m <;> first | exact ⟨_, rfl⟩ | cases ht), ?_⟩
  unfold step at hb
  split at hb
  case h_3 =>
    rename_i m' k hcode
    rw [hcode] at hc
    obtain ⟨h', h1, -⟩ := checks_cons hc
    split at hb
    · cases hb
    · split at hb
      · simp only [Out.ub.injEq] at hb; subst hb
        simp [check, above, ht] at h1
      · cases hb
  case h_4 =>
    rename_i m' k hcode
    split at hb
    · cases hb
    · rename_i hno
      rw [hcode] at hc
      obtain ⟨h', h1, -⟩ := checks_cons hc
      exfalso; apply hno
      rw [I.own]
      cases eh : (s.th t).held with
      | nil => rw [eh] at h1; simp [check] at h1
      | cons x xs =>
        rw [eh] at h1; simp only [check] at h1
        split at h1
        · rename_i ex; simp [ex]
        · cases h1
  case h_5 =>
    rename_i m' yes no k hcode
    split at hb
    · split at hb <;> cases hb
    · rename_i u ho
      split at hb
      · rename_i e; subst e
        simp only [Out.ub.injEq] at hb; subst hb
        exact ⟨ho, k, Or.inl ⟨yes, no, hcode⟩⟩
      · cases hb
  case h_6 =>
    rename_i m' body k hcode
    split at hb
    · split at hb <;> cases hb
    · rename_i u ho
      split at hb
      · rename_i e; subst e
        simp only [Out.ub.injEq] at hb; subst hb
        exact ⟨ho, k, Or.inr ⟨body, hcode⟩⟩
      · cases hb
  case h_7 =>
    rename_i m' k hcode
    split at hb
    · split at hb <;> cases hb
    · simp only [Out.ub.injEq] at hb; subst hb
      rw [hcode] at hc
      obtain ⟨h', h1, -⟩ := checks_cons hc
      cases eh : (s.th t).held with
      | nil => rw [eh] at h1; simp [check] at h1
      | cons x xs => rw [eh] at h1; simp [check, ht] at h1
  all_goals ((repeat' split at hb) <;> cases hb)

/-- C77: code that is not the library's runs with no mutex of the library's locked (but `_timeout_function_control`). -/
theorem c77_user_unlocked_partial {allowed : Fn → Bool} (ha : ∀ f, allowed f = true → disciplined f = true) {s : St}
    (h : Reachable allowed s) {t : Nat} {k : List Code} (hu : (s.th t).code = .user :: k) : ¬ Holds s t := by
  have I := inv_reachable ha h
  rintro ⟨m, hm, ht⟩
  have hc := I.chk t
  rw [hu] at hc
  obtain ⟨h', h1, -⟩ := checks_cons hc
  simp [check, mem_not_allTf ((I.own m t).mp hm) ht] at h1

/-- C77: nor does a thread that sleeps in a condition variable hold a mutex, nor one that has returned from all calls (this one none at all). -/
theorem c77_asleep_unlocked_partial {allowed : Fn → Bool} (ha : ∀ f, allowed f = true → disciplined f = true) {s : St}
    (h : Reachable allowed s) {t : Nat} :
    ((∃ m k, (s.th t).code = .asleep m :: k) → ¬ Holds s t) ∧ ((s.th t).code = [] → ∀ m, s.owner m ≠ some t) := by
  have I := inv_reachable ha h
  have hc := I.chk t
  constructor
  · rintro ⟨m', k, hu⟩ ⟨m, hm, ht⟩
    rw [hu] at hc
    obtain ⟨h', h1, -⟩ := checks_cons hc
    simp [check, mem_not_allTf ((I.own m t).mp hm) ht] at h1
  · intro hu m hm
    rw [hu] at hc
    simp only [checks, Option.some.injEq] at hc
    have := (I.own m t).mp hm
    rw [hc] at this; cases this

/-! ## A mutex is given up -/

/-- Steps until the end of the code, not counting foreign code. -/
def cost : Code → Nat
  | .tryLock _ yes no => 1 + max (cost yes) (cost no)
  | .seq a b => 1 + cost a + cost b
  | .choose a b => 1 + max (cost a) (cost b)
  | _ => 1

def costs (k : List Code) : Nat := (k.map cost).sum

theorem costs_cons (c : Code) (k : List Code) : costs (c :: k) = cost c + costs k := by simp [costs]

theorem step_other {allowed : Fn → Bool} {s s' : St} {t u : Nat} (hu : u ≠ t) {pick : Bool} {calls : List Fn}
    (h : step allowed s t pick calls = .next s') : s'.th u = s.th u := by
  unfold step at h
  (repeat' split at h) <;> (first | (cases h; done) | skip) <;> simp only [Out.next.injEq] at h <;> subst h <;>
    simp [goOn, acquire, release, upd, hu]

theorem step_costs {allowed : Fn → Bool} {s s' : St} (I : Inv s) {t : Nat} (hh : Holds s t) {pick : Bool} {calls : List Fn}
    (I' : Inv s') (h : step allowed s t pick calls = .next s') : ¬ Holds s' t ∨ costs (s'.th t).code < costs (s.th t).code := by
  obtain ⟨m0, hm0, ht0⟩ := hh
  have hall := mem_not_allTf ((I.own m0 t).mp hm0) ht0
  have hc := I.chk t
  unfold step at h
  split at h
  · cases h
  · rename_i k hcode
    simp only [Out.next.injEq] at h; subst h
    right; rw [hcode, costs_cons]; simp [goOn, upd, cost]
  · rename_i m k hcode
    split at h
    · simp only [Out.next.injEq] at h; subst h
      right; rw [hcode, costs_cons]; simp [acquire, upd, cost]
    · split at h <;> cases h
  · rename_i m k hcode
    split at h
    · simp only [Out.next.injEq] at h; subst h
      right; rw [hcode, costs_cons]; simp [release, upd, cost]
    · cases h
  · rename_i m yes no k hcode
    right
    split at h
    · split at h
      · simp only [Out.next.injEq] at h; subst h
        rw [hcode, costs_cons]; simp only [acquire, upd, if_true, costs_cons, cost]; omega
      · simp only [Out.next.injEq] at h; subst h
        rw [hcode, costs_cons]; simp only [goOn, upd, if_true, costs_cons, cost]; omega
    · split at h
      · cases h
      · simp only [Out.next.injEq] at h; subst h
        rw [hcode, costs_cons]; simp only [goOn, upd, if_true, costs_cons, cost]; omega
  · rename_i m body k hcode; rw [hcode] at hc
    obtain ⟨h', h1, -⟩ := checks_cons hc
    simp [check, hall] at h1
  · rename_i m k hcode
    split at h
    · split at h
      · simp only [Out.next.injEq] at h; subst h
        left
        have hc' := I'.chk t
        rintro ⟨m1, hm1, ht1⟩
        have hmem := (I'.own m1 t).mp hm1
        have hall' := mem_not_allTf hmem ht1
        rw [show ((release s t m (.asleep m :: .waits m :: k)).th t).code = .asleep m :: .waits m :: k by simp [release, upd]] at hc'
        obtain ⟨h', h1, -⟩ := checks_cons hc'
        simp [check, hall'] at h1
      · simp only [Out.next.injEq] at h; subst h
        right; rw [hcode, costs_cons]; simp [goOn, upd, cost]
    · cases h
  · rename_i m k hcode; rw [hcode] at hc
    obtain ⟨h', h1, -⟩ := checks_cons hc
    simp [check, hall] at h1
  · rename_i k hcode; rw [hcode] at hc
    obtain ⟨h', h1, -⟩ := checks_cons hc
    simp [check, hall] at h1
  · rename_i f k hcode; rw [hcode] at hc
    obtain ⟨h', h1, -⟩ := checks_cons hc
    simp [check, hall] at h1
  · rename_i a b k hcode
    simp only [Out.next.injEq] at h; subst h
    right; rw [hcode, costs_cons]; simp only [goOn, upd, if_true, costs_cons, cost]; omega
  · rename_i a b k hcode
    simp only [Out.next.injEq] at h; subst h
    right; rw [hcode, costs_cons]; cases pick <;> simp only [goOn, upd, if_true, costs_cons, cost] <;> simp <;> omega
  · rename_i b k hcode; rw [hcode] at hc
    obtain ⟨h', h1, -⟩ := checks_cons hc
    simp [check, hall] at h1

theorem gives_up {allowed : Fn → Bool} (ha : ∀ f, allowed f = true → disciplined f = true) {t : Nat} {as : List Act} : ∀ {s s' : St},
    Inv s → exec allowed s as = some s' → costs (s.th t).code < (as.filter (fun a => a.t == t)).length →
    ∃ as1 as2 s1, as = as1 ++ as2 ∧ exec allowed s as1 = some s1 ∧ ¬ Holds s1 t := by
  induction as with
  | nil => intro s s' _ _ hn; simp at hn
  | cons a as ih =>
    intro s s' I he hn
    by_cases hh : Holds s t
    · simp only [exec] at he
      split at he
      · rename_i s1 h1
        have I1 := inv_step ha I h1
        have key : ¬ Holds s1 t ∨ costs (s1.th t).code < (as.filter (fun a => a.t == t)).length := by
          by_cases e : a.t = t
          · subst e
            rcases step_costs I hh I1 h1 with h | h
            · exact Or.inl h
            · right; simp at hn; omega
          · right
            rw [step_other (Ne.symm e) h1]
            simpa [e] using hn
        rcases key with h | h
        · exact ⟨[a], as, s1, rfl, by simp [exec, h1], h⟩
        · obtain ⟨as1, as2, s2, e1, e2, e3⟩ := ih I1 he h
          exact ⟨a :: as1, as2, s2, by simp [e1], by simp [exec, h1, e2], e3⟩
      · cases he
    · exact ⟨[], a :: as, s, rfl, rfl, hh⟩

/-- C77: a thread gives up its mutexes after a bounded number of its own steps, whatever the others do. -/
theorem c77_gives_up_partial {allowed : Fn → Bool} (ha : ∀ f, allowed f = true → disciplined f = true) {s : St} (h : Reachable allowed s)
    (t : Nat) : ∃ n, ∀ as s', exec allowed s as = some s' → n < (as.filter (fun a => a.t == t)).length →
      ∃ as1 as2 s1, as = as1 ++ as2 ∧ exec allowed s as1 = some s1 ∧ ¬ Holds s1 t :=
  ⟨costs (s.th t).code, fun _ _ he hn => gives_up ha (inv_reachable ha h) he hn⟩

/-! ## Without processes that `yield` -/

/-- Code that does not use `_timeout_function_control`. -/
def plain : Code → Bool
  | .tryLock m yes no => !m.isTf && plain yes && plain no
  | .spin _ _ => false
  | .call f => !usesTf f
  | .seq a b => plain a && plain b
  | .choose a b => plain a && plain b
  | .loop b => plain b
  | _ => true

theorem plain_seqs {l : List Code} (h : l.all plain = true) : plain (seqs l) = true := by
  induction l with
  | nil => rfl
  | cons c l ih =>
    simp only [List.all_cons, Bool.and_eq_true] at h
    simp [seqs, plain, h.1, ih h.2]

theorem plain_tryQueues {k : Code} (hk : plain k = true) (qs : List Nat) : plain (tryQueues qs k) = true := by
  induction qs with
  | nil => exact hk
  | cons i is ih => simp [tryQueues, plain, Mutex.isTf, ih]

theorem plain_tryWaiters (ws : List Nat) : plain (tryWaiters ws) = true := by
  induction ws with
  | nil => rfl
  | cons i is ih => simp [tryWaiters, plain, Mutex.isTf, ih]

theorem plain_execute (i : Nat) (qs : List Nat) : plain (executeCode i qs) = true := by
  simp [executeCode, ptsCode, scope, plain, plain_tryQueues]

theorem plain_wake (qs ws : List Nat) : plain (wakeCode qs ws) = true := by
  simp [wakeCode, scope, plain, plain_tryQueues, plain_tryWaiters]

theorem plain_freeBuffers (ds : List Nat) (last : Bool) : plain (freeBuffersCode ds last) = true := by
  induction ds with
  | nil => rfl
  | cons q ds ih => cases last <;> simp_all [freeBuffersCode, scope, plain]

theorem plain_removeSenders (ds : List Nat) (inline : Bool) (qs : List Nat) : plain (removeSendersCode ds inline qs) = true := by
  induction ds with
  | nil => rfl
  | cons q ds ih => cases inline <;> simp_all [removeSendersCode, scope, plain, plain_execute]

theorem plain_code {f : Fn} (h : usesTf f = false) : plain (code f) = true := by
  cases f with
  | poolJoin qs ws =>
    refine plain_seqs ?_
    simp only [List.all_append, List.all_map, Bool.and_eq_true, List.all_eq_true]
    exact ⟨fun i _ => rfl, fun i _ => rfl⟩
  | whenAllFailure c inline => cases inline <;> rfl
  | singleTrigger c s inline => cases inline <;> rfl
  | broadcast p ds last => simp [code, seqs, scope, plain, plain_freeBuffers, usesTf]
  | taskDoneFinal p ds inline qs => cases inline <;> simp [code, scope, plain, plain_removeSenders]
  | awaitGet a s qs ws => simp [code, seqs, scope, plain, plain_wake, usesTf, ptsCode, addThreadCode]
  | poolExecute i qs => exact plain_execute i qs
  | poolRun i qs => simp [code, scope, plain, plain_tryQueues (k := .skip) rfl]
  | poolExpand w qs => simp [code, scope, plain, plain_tryQueues (k := .skip) rfl]
  | poolWake qs ws => exact plain_wake qs ws
  | stepYield p => cases h
  | timeout p => cases h
  | _ => rfl

/-- No thread uses a `_timeout_function_control`. -/
structure NoTf (s : St) : Prop where
  codes : ∀ t, ∀ c ∈ (s.th t).code, plain c = true
  free : ∀ m, m.isTf = true → s.owner m = none

theorem noTf_goOn {s : St} (I : NoTf s) {t : Nat} {k : List Code} (hk : ∀ c ∈ k, plain c = true) : NoTf (goOn s t k) where
  codes := by
    intro u
    by_cases e : u = t
    · subst e; simpa [goOn, upd] using hk
    · simpa [goOn, upd, e] using I.codes u
  free := I.free

theorem noTf_acquire {s : St} (I : NoTf s) {t : Nat} {m : Mutex} {k : List Code} (hm : m.isTf = false) (hk : ∀ c ∈ k, plain c = true) :
    NoTf (acquire s t m k) where
  codes := by
    intro u
    by_cases e : u = t
    · subst e; simpa [acquire, upd] using hk
    · simpa [acquire, upd, e] using I.codes u
  free := by
    intro m' h'
    have : m' ≠ m := by rintro rfl; rw [hm] at h'; cases h'
    simp [acquire, upd, this, I.free m' h']

theorem noTf_release {s : St} (I : NoTf s) {t : Nat} {m : Mutex} {k : List Code} (hk : ∀ c ∈ k, plain c = true) :
    NoTf (release s t m k) where
  codes := by
    intro u
    by_cases e : u = t
    · subst e; simpa [release, upd] using hk
    · simpa [release, upd, e] using I.codes u
  free := by
    intro m' h'
    by_cases e : m' = m
    · simp [release, upd, e]
    · simp [release, upd, e, I.free m' h']

theorem noTf_step {allowed : Fn → Bool} (ha : ∀ f, allowed f = true → usesTf f = false) {s s' : St} (I : NoTf s) (J : Inv s) {t : Nat}
    {pick : Bool} {calls : List Fn} (h : step allowed s t pick calls = .next s') : NoTf s' := by
  have hp := I.codes t
  have hc := J.chk t
  unfold step at h
  split at h
  · cases h
  · rename_i k hcode; rw [hcode] at hp
    simp only [Out.next.injEq] at h; subst h
    exact noTf_goOn I (fun c hc => hp c (by simp [hc]))
  · rename_i m k hcode; rw [hcode] at hp hc
    obtain ⟨h', h1, -⟩ := checks_cons hc
    simp only [check] at h1
    split at h1
    · rename_i hab
      simp only [above, Bool.and_eq_true, Bool.not_eq_true'] at hab
      split at h
      · simp only [Out.next.injEq] at h; subst h
        exact noTf_acquire I hab.1 (fun c hc => hp c (by simp [hc]))
      · split at h <;> cases h
    · cases h1
  · rename_i m k hcode; rw [hcode] at hp
    split at h
    · simp only [Out.next.injEq] at h; subst h
      exact noTf_release I (fun c hc => hp c (by simp [hc]))
    · cases h
  · rename_i m yes no k hcode; rw [hcode] at hp
    have h0 := hp _ (List.mem_cons_self ..)
    simp only [plain, Bool.and_eq_true, Bool.not_eq_true'] at h0
    have hno : ∀ c ∈ no :: k, plain c = true := by
      intro c hc
      rcases List.mem_cons.mp hc with rfl | hc
      · exact h0.2
      · exact hp c (by simp [hc])
    split at h
    · split at h
      · simp only [Out.next.injEq] at h; subst h
        refine noTf_acquire I h0.1.1 ?_
        intro c hc
        rcases List.mem_cons.mp hc with rfl | hc
        · exact h0.1.2
        · exact hp c (by simp [hc])
      · simp only [Out.next.injEq] at h; subst h; exact noTf_goOn I hno
    · split at h
      · cases h
      · simp only [Out.next.injEq] at h; subst h; exact noTf_goOn I hno
  · rename_i m body k hcode; rw [hcode] at hp
    have h0 := hp _ (List.mem_cons_self ..)
    simp [plain] at h0
  · rename_i m k hcode; rw [hcode] at hp
    split at h
    · split at h
      · simp only [Out.next.injEq] at h; subst h
        refine noTf_release I ?_
        intro c hc
        simp only [List.mem_cons] at hc
        rcases hc with rfl | rfl | hc
        · rfl
        · rfl
        · exact hp c (by simp [hc])
      · simp only [Out.next.injEq] at h; subst h
        exact noTf_goOn I (fun c hc => hp c (by simp [hc]))
    · cases h
  · rename_i m k hcode; rw [hcode] at hp
    split at h
    · simp only [Out.next.injEq] at h; subst h
      refine noTf_goOn I ?_
      intro c hc
      rcases List.mem_cons.mp hc with rfl | hc
      · rfl
      · exact hp c (by simp [hc])
    · cases h
  · rename_i k hcode; rw [hcode] at hp
    split at h
    · rename_i hcalls
      simp only [Out.next.injEq] at h; subst h
      refine noTf_goOn I ?_
      intro c hc
      simp only [List.mem_append, List.mem_map] at hc
      rcases hc with ⟨f, hf, rfl⟩ | hc
      · simp [plain, ha f (List.all_eq_true.mp hcalls f hf)]
      · exact hp c (by simp [hc])
    · cases h
  · rename_i f k hcode; rw [hcode] at hp
    have h0 := hp _ (List.mem_cons_self ..)
    simp only [plain, Bool.not_eq_true'] at h0
    simp only [Out.next.injEq] at h; subst h
    refine noTf_goOn I ?_
    intro c hc
    rcases List.mem_cons.mp hc with rfl | hc
    · exact plain_code h0
    · exact hp c (by simp [hc])
  · rename_i a b k hcode; rw [hcode] at hp
    have h0 := hp _ (List.mem_cons_self ..)
    simp only [plain, Bool.and_eq_true] at h0
    simp only [Out.next.injEq] at h; subst h
    refine noTf_goOn I ?_
    intro c hc
    simp only [List.mem_cons] at hc
    rcases hc with rfl | rfl | hc
    · exact h0.1
    · exact h0.2
    · exact hp c (by simp [hc])
  · rename_i a b k hcode; rw [hcode] at hp
    have h0 := hp _ (List.mem_cons_self ..)
    simp only [plain, Bool.and_eq_true] at h0
    simp only [Out.next.injEq] at h; subst h
    refine noTf_goOn I ?_
    intro c hc
    rcases List.mem_cons.mp hc with rfl | hc
    · cases pick
      · exact h0.2
      · exact h0.1
    · exact hp c (by simp [hc])
  · rename_i b k hcode; rw [hcode] at hp
    have h0 := hp _ (List.mem_cons_self ..)
    split at h
    · simp only [Out.next.injEq] at h; subst h
      refine noTf_goOn I ?_
      intro c hc
      simp only [List.mem_cons] at hc
      rcases hc with rfl | rfl | hc
      · exact h0
      · exact h0
      · exact hp c (by simp [hc])
    · simp only [Out.next.injEq] at h; subst h
      exact noTf_goOn I (fun c hc => hp c (by simp [hc]))

theorem noTf_exec {allowed : Fn → Bool} (hd : ∀ f, allowed f = true → disciplined f = true) (ha : ∀ f, allowed f = true → usesTf f = false)
    {as : List Act} : ∀ {s s' : St}, NoTf s → Inv s → exec allowed s as = some s' → NoTf s' := by
  induction as with
  | nil => intro s s' I _ h; simp only [exec, Option.some.injEq] at h; subst h; exact I
  | cons a as ih =>
    intro s s' I J h
    simp only [exec] at h
    split at h
    · rename_i s1 h1; exact ih (noTf_step ha I J h1) (inv_step hd J h1) h
    · cases h

/-- C77: without processes that `yield` there is no misuse of a mutex at all. -/
theorem c77_no_ub_plain_partial {allowed : Fn → Bool} (hd : ∀ f, allowed f = true → disciplined f = true)
    (ha : ∀ f, allowed f = true → usesTf f = false) {s : St} (h : Reachable allowed s) {t : Nat} {pick : Bool} {calls : List Fn} {m : Mutex} :
    step allowed s t pick calls ≠ .ub m := by
  intro hb
  have ht := no_ub hd h hb
  obtain ⟨as, h0⟩ := h
  have J := inv_exec hd inv_init h0
  have I : NoTf s := noTf_exec hd ha ⟨by simp [plain], fun _ _ => rfl⟩ inv_init h0
  have hf := I.free m ht
  have hp := I.codes t
  have hc := J.chk t
  unfold step at hb
  split at hb
  case h_4 =>
    rename_i m' k hcode
    split at hb
    · cases hb
    · rename_i hno
      rw [hcode] at hc
      obtain ⟨h', h1, -⟩ := checks_cons hc
      apply hno
      rw [J.own]
      cases eh : (s.th t).held with
      | nil => rw [eh] at h1; simp [check] at h1
      | cons x xs =>
        rw [eh] at h1; simp only [check] at h1
        split at h1
        · rename_i ex; simp [ex]
        · cases h1
  case h_7 =>
    rename_i m' k hcode
    split at hb
    · split at hb <;> cases hb
    · rename_i hno
      rw [hcode] at hc
      obtain ⟨h', h1, -⟩ := checks_cons hc
      apply hno
      rw [J.own]
      cases eh : (s.th t).held with
      | nil => rw [eh] at h1; simp [check] at h1
      | cons x xs =>
        rw [eh] at h1; simp only [check] at h1
        split at h1
        · rename_i ex; simp only [Bool.and_eq_true, decide_eq_true_eq] at ex; simp [ex.1.1]
        · cases h1
  all_goals ((repeat' split at hb) <;> (first | (cases hb; done) | skip) <;> simp only [Out.ub.injEq] at hb <;> subst hb <;> simp_all)

/-! ## The functions that call foreign code with a mutex locked -/

/-- All functions. -/
def every : Fn → Bool := fun _ => true

/-- `n` steps of thread `t`, the branches as in `picks`. -/
def go (t : Nat) (picks : List Bool) : List Act := picks.map (fun b => { t := t, pick := b })

/-- Thread `t` makes one call from code of the user's. -/
def does (t : Nat) (f : Fn) : List Act := [{ t := t, calls := [f] }]

/-- C77 is violated by `when_all` (future.hpp:1087-1099; also `single_trigger`, 1424-1439): the tasks of the other arguments are destroyed with
`_guard` locked. If one of them owns the promise of another argument, that argument fails then and there, and with an executor that runs its
tasks at once `failure` is called again and locks `_guard` again. -/
theorem c77_when_all_counterexample : ∃ s, Reachable every s ∧ step every s 0 true [] = .ub (.guard 0) :=
  ⟨_, ⟨does 0 (.whenAllFailure 0 true) ++ go 0 [true, true, true, true, true, false] ++ does 0 (.setException 7) ++
    go 0 [true, true, true, true, true, true, true] ++ does 0 (.whenAllFailure 0 true) ++ go 0 [true, true, true], rfl⟩, rfl⟩

/-- Two threads in `failure` of two different `when_all`, where the tasks destroyed by each own a promise of an argument of the other: each waits
for the other. -/
theorem c77_when_all_deadlock_counterexample : ∃ s, Reachable every s ∧ WaitsFor s 0 1 ∧ WaitsFor s 1 0 ∧
    step every s 0 true [] = .blocked (.guard 1) ∧ step every s 1 true [] = .blocked (.guard 0) :=
  ⟨_, ⟨does 0 (.whenAllFailure 0 true) ++ does 1 (.whenAllFailure 1 true) ++ go 0 [true, true, true, true, true, false] ++
    go 1 [true, true, true, true, true, false] ++ does 0 (.whenAllFailure 1 true) ++ does 1 (.whenAllFailure 0 true) ++
    go 0 [true, true, true] ++ go 1 [true, true, true], rfl⟩, ⟨.guard 1, _, rfl, rfl⟩, ⟨.guard 0, _, rfl, rfl⟩, rfl, rfl⟩

/-- `single_trigger` likewise. -/
theorem c77_single_trigger_counterexample : ∃ s, Reachable every s ∧ step every s 0 true [] = .ub (.guard 0) :=
  ⟨_, ⟨does 0 (.singleTrigger 0 1 true) ++ go 0 [true, true, true, true, true, false, true] ++ does 0 (.singleTrigger 0 2 true) ++
    go 0 [true, true, true], rfl⟩, rfl⟩

/-- C77 is violated by `when_any` of `future<void>`s (future.hpp:1157-1167): the lock lasts to the end of `failure`, so that `_f`, and with it the
continuations of the result, run with `_guard` locked. -/
theorem c77_when_any_void_counterexample : ∃ s k, Reachable every s ∧ (s.th 0).code = .user :: k ∧ Holds s 0 :=
  ⟨_, _, ⟨does 0 (.whenAnyVoidFailure 0) ++ go 0 [true, true, true, true, false], rfl⟩, rfl, .guard 0, rfl, rfl⟩

/-- C77 is violated by `task_done` (channel.hpp:820-824): the processes downstream are told of the end with `_downstream_mutex` locked. If one of
them runs at once (`immediate_executor`) and its `close()` pipes something to the receiver of this process, `map` locks the mutex again. -/
theorem c77_task_done_counterexample : ∃ s, Reachable every s ∧ step every s 0 true [] = .ub (.down 0) :=
  ⟨_, ⟨does 0 (.taskDoneFinal 0 [1] true []) ++ go 0 [true, true, true, true, true, true, true, true, true, true, true, true, true, true, true,
      true, true, true, false] ++ does 0 (.map 0) ++ go 0 [true, true], rfl⟩, rfl⟩

/-- C77 is violated by `broadcast` (channel.hpp:1138-1142) if the process downstream has lost its other owners in the meantime: it is destroyed
with `_downstream_mutex` locked. -/
theorem c77_broadcast_counterexample : ∃ s k, Reachable every s ∧ (s.th 0).code = .user :: k ∧ Holds s 0 :=
  ⟨_, _, ⟨does 0 (.broadcast 0 [1] true) ++ go 0 [true, true, true, true, true, true, true, true, true, true, true, true, false], rfl⟩, rfl, .down 0, rfl,
    rfl⟩

/-- C77 is violated by `step` of a process with `yield` (channel.hpp:915-919, 997-1001) on an executor that runs its tasks at once:
`clear_to_send` runs the process again within `step`, which tries to lock `_timeout_function_control` again. -/
theorem c77_yield_counterexample : ∃ s, Reachable every s ∧ step every s 0 true [] = .ub (.tf 0) :=
  ⟨_, ⟨does 0 (.stepYield 0) ++ go 0 [true, true, true] ++ does 0 (.stepYield 0) ++ go 0 [true], rfl⟩, rfl⟩

/-! ## Examples -/

/-- One thread holds the pool's mutex in `await`, inside its own; another one waits for the former; a third, in the continuation, for the latter. -/
example : ∃ s, Reachable disciplined s ∧ step disciplined s 1 true [] = .blocked .pool ∧ step disciplined s 2 true [] = .blocked (.await 5) ∧
    Holds s 0 ∧ ¬ ∃ m k, (s.th 0).code = .lock m :: k :=
  ⟨_, ⟨does 0 (.awaitGet 5 6 [] []) ++ go 0 (true :: false :: List.replicate 21 true) ++
    does 1 .poolAddThread ++ go 1 [true, true] ++ does 2 (.awaitSet 5) ++ go 2 [true, true], rfl⟩, rfl, rfl, ⟨.await 5, rfl, rfl⟩,
    by rintro ⟨m, k, h⟩; cases h⟩

end Verif.Locks
