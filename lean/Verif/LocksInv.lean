import Verif.Locks

/-!
# The order of the locks
-/

namespace Verif.Locks

/-- The order in which mutexes are locked. -/
def rank : Mutex → Nat
  | .tf _ => 0
  | .down _ => 1
  | .guard _ => 1
  | .await _ => 1
  | .init _ => 2
  | _ => 3

def allTf (h : List Mutex) : Bool := h.all Mutex.isTf

def above (h : List Mutex) (m : Mutex) : Bool := !m.isTf && h.all (fun x => decide (rank x < rank m))

/-- The functions that call foreign code only when they hold nothing but a `_timeout_function_control`. -/
def disciplined : Fn → Bool
  | .whenAllFailure _ inline => !inline
  | .singleTrigger _ _ inline => !inline
  | .whenAnyVoidFailure _ => false
  | .taskDoneFinal _ _ inline _ => !inline
  | .broadcast _ _ last => !last
  | _ => true

/-- The functions that use `_timeout_function_control`. -/
def usesTf : Fn → Bool
  | .stepYield _ => true
  | .timeout _ => true
  | _ => false

/-- Going through the code with mutexes `h` held: every lock is above those held, unlocking is in the opposite order, foreign code and loops
come only with nothing (but `tf`s) held. The result is what is held at the end. -/
def check : List Mutex → Code → Option (List Mutex)
  | h, .skip => some h
  | h, .lock m => if above h m then some (m :: h) else none
  | [], .unlock _ => none
  | x :: h, .unlock m => if x = m then some h else none
  | h, .tryLock m yes no =>
    if above h m || (m.isTf && allTf h) then
      match check (m :: h) yes, check h no with
      | some a, some b => if a = b then some a else none
      | _, _ => none
    else none
  | h, .spin m body => if (m.isTf && allTf h) && (check (m :: h) body == some h) then some h else none
  | [], .waits _ => none
  | x :: h, .waits m => if x = m && !m.isTf && allTf h then some (x :: h) else none
  | h, .asleep m => if !m.isTf && allTf h then some (m :: h) else none
  | h, .user => if allTf h then some h else none
  | h, .call f => if allTf h && disciplined f then some h else none
  | h, .seq a b => (check h a).bind (check · b)
  | h, .choose a b =>
    match check h a, check h b with
    | some x, some y => if x = y then some x else none
    | _, _ => none
  | h, .loop b => if allTf h && (check h b == some h) then some h else none

def checks : List Mutex → List Code → Option (List Mutex)
  | h, [] => some h
  | h, c :: k => (check h c).bind (checks · k)

theorem rank_pos {m : Mutex} (h : m.isTf = false) : 0 < rank m := by cases m <;> simp_all [rank, Mutex.isTf]

theorem rank_tf {m : Mutex} (h : m.isTf = true) : rank m = 0 := by cases m <;> simp_all [rank, Mutex.isTf]

theorem allTf_rank {h : List Mutex} (ht : allTf h = true) : ∀ x ∈ h, rank x = 0 := by
  intro x hx
  exact rank_tf (List.all_eq_true.mp ht x hx)

theorem above_tf {h : List Mutex} {m : Mutex} (ht : allTf h = true) (hm : m.isTf = false) : above h m = true := by
  simp only [above, hm, Bool.not_false, Bool.true_and, List.all_eq_true, decide_eq_true_eq]
  intro x hx
  rw [allTf_rank ht x hx]; exact rank_pos hm

theorem above_cons {h : List Mutex} {m x : Mutex} (ht : allTf h = true) (hm : rank x < rank m) : above (x :: h) m = true := by
  have h1 : m.isTf = false := by
    cases e : m.isTf
    · rfl
    · rw [rank_tf e] at hm; omega
  have := above_tf ht h1
  simp only [above, h1, Bool.not_false, Bool.true_and] at this ⊢
  simp [this, hm]

theorem above_cons2 {h : List Mutex} {m x y : Mutex} (ht : allTf h = true) (hm : rank x < rank m) (hy : rank y < rank m) :
    above (y :: x :: h) m = true := by
  have := above_cons ht hm
  simp only [above, Bool.and_eq_true] at this ⊢
  simp_all

/-! ## The functions keep the order -/

theorem check_scope {h : List Mutex} {m : Mutex} {b : Code} (ha : above h m = true) (hb : check (m :: h) b = some (m :: h)) :
    check h (scope m b) = some h := by simp [scope, check, ha, hb]

theorem check_scope_skip {h : List Mutex} {m : Mutex} (ha : above h m = true) : check h (scope m .skip) = some h :=
  check_scope ha rfl

theorem check_choose {h : List Mutex} {a b : Code} (ha : check h a = some h) (hb : check h b = some h) : check h (.choose a b) = some h := by
  simp [check, ha, hb]

theorem check_seq {h : List Mutex} {a b : Code} (ha : check h a = some h) (hb : check h b = some h) : check h (.seq a b) = some h := by
  simp [check, ha, hb]

theorem check_seqs {h : List Mutex} {l : List Code} (hl : ∀ c ∈ l, check h c = some h) : check h (seqs l) = some h := by
  induction l with
  | nil => rfl
  | cons c l ih => exact check_seq (hl c (by simp)) (ih (fun d hd => hl d (by simp [hd])))

theorem check_user {h : List Mutex} (ht : allTf h = true) : check h .user = some h := by simp [check, ht]

theorem check_call {h : List Mutex} {f : Fn} (ht : allTf h = true) (hf : disciplined f = true) : check h (.call f) = some h := by
  simp [check, ht, hf]

theorem check_loop {h : List Mutex} {b : Code} (ht : allTf h = true) (hb : check h b = some h) : check h (.loop b) = some h := by
  simp [check, ht, hb]

theorem check_try {h : List Mutex} {m : Mutex} (ha : above h m = true) : check h (.tryLock m (.unlock m) .skip) = some h := by
  simp [check, ha]

theorem check_waits {h : List Mutex} {m : Mutex} (ht : allTf h = true) (hm : m.isTf = false) : check (m :: h) (.waits m) = some (m :: h) := by
  simp [check, ht, hm]

theorem check_tryQueues {h : List Mutex} {qs : List Nat} {k : Code} (ha : ∀ i, above h (.queue i) = true) (hk : check h k = some h) :
    check h (tryQueues qs k) = some h := by
  induction qs with
  | nil => exact hk
  | cons i is ih => exact check_seq (check_try (ha i)) (check_choose rfl ih)

theorem check_tryWaiters {h : List Mutex} {ws : List Nat} (ha : ∀ i, above h (.waiter i) = true) : check h (tryWaiters ws) = some h := by
  induction ws with
  | nil => rfl
  | cons i is ih => exact check_seq (check_try (ha i)) (check_choose rfl ih)

theorem check_pts {h : List Mutex} (h1 : above h (.init 0) = true) (h2 : above (.init 0 :: h) .exit = true) : check h ptsCode = some h :=
  check_choose rfl (check_scope h1 (check_scope_skip h2))

theorem check_execute {h : List Mutex} (h1 : above h (.init 0) = true) (h2 : above (.init 0 :: h) .exit = true)
    (h3 : ∀ i, above h (.queue i) = true) {i : Nat} {qs : List Nat} : check h (executeCode i qs) = some h :=
  check_seq (check_pts h1 h2) (check_tryQueues h3 (check_scope_skip (h3 i)))

theorem check_wake {h : List Mutex} (h1 : ∀ i, above h (.queue i) = true) (h2 : above h .pool = true) (h3 : ∀ i, above h (.waiter i) = true)
    {qs ws : List Nat} : check h (wakeCode qs ws) = some h :=
  check_tryQueues h1 (check_seq (check_scope_skip h2) (check_tryWaiters h3))

theorem check_freeBuffers {h : List Mutex} (h1 : ∀ q, above h (.proc q) = true) {ds : List Nat} :
    check h (freeBuffersCode ds false) = some h := by
  induction ds with
  | nil => rfl
  | cons q ds ih => exact check_seq (check_scope_skip (h1 q)) (check_seq rfl ih)

theorem check_removeSenders {h : List Mutex} (h0 : ∀ q, above h (.proc q) = true) (h1 : above h (.init 0) = true)
    (h2 : above (.init 0 :: h) .exit = true) (h3 : ∀ i, above h (.queue i) = true) {ds qs : List Nat} :
    check h (removeSendersCode ds false qs) = some h := by
  induction ds with
  | nil => rfl
  | cons q ds ih =>
    exact check_seq (check_scope_skip (h0 q)) (check_seq (check_choose rfl (check_execute h1 h2 h3)) ih)

/-- Every function keeps the order of the locks and gives back what it has locked. -/
theorem check_code {h : List Mutex} (ht : allTf h = true) {f : Fn} (hf : disciplined f = true) : check h (code f) = some h := by
  have hs : ∀ m : Mutex, m.isTf = false → check h (scope m .skip) = some h := fun m hm => check_scope_skip (above_tf ht hm)
  have hu : check h (.choose .skip .user) = some h := check_choose rfl (check_user ht)
  have hinit : above h (.init 0) = true := above_tf ht rfl
  have hexit : above (.init 0 :: h) .exit = true := above_cons ht (by decide)
  have hq : ∀ i, above h (.queue i) = true := fun i => above_tf ht rfl
  have hw : ∀ i, above h (.waiter i) = true := fun i => above_tf ht rfl
  cases f with
  | attach s => exact check_seq (hs _ rfl) hu
  | detach s => exact check_seq (hs _ rfl) hu
  | setException s => exact check_seq (hs _ rfl) (check_user ht)
  | setValue s => exact check_seq (hs _ rfl) (check_user ht)
  | getTry s => exact hs _ rfl
  | attachWhenArg c s => exact check_seq (check_call ht rfl) (check_seq (hs _ rfl) rfl)
  | whenDone c s =>
    exact check_seq (check_scope (above_tf ht rfl) (check_choose rfl (check_scope_skip (above_cons ht (by simp [rank]))))) hu
  | whenAnyVoidDone c => exact check_seq (hs _ rfl) hu
  | whenAnyFailure c => exact check_seq (hs _ rfl) hu
  | whenAllFailure c inline =>
    cases inline
    · exact check_seq (check_scope (above_tf ht rfl) (check_choose rfl rfl)) hu
    · simp [disciplined] at hf
  | singleTrigger c s inline =>
    cases inline
    · exact check_seq (check_scope (above_tf ht rfl) (check_choose rfl (check_seq rfl (check_choose rfl
        (check_scope_skip (above_cons ht (by simp [rank]))))))) hu
    · simp [disciplined] at hf
  | whenAnyVoidFailure c => simp [disciplined] at hf
  | serialEnqueue q => exact check_seq (hs _ rfl) hu
  | serialAll q => exact check_seq (hs _ rfl) (check_seq (check_loop ht (check_user ht)) (check_seq (hs _ rfl) (check_seq hu rfl)))
  | serialSingle q => exact check_seq (hs _ rfl) (check_seq (check_user ht) (check_seq (hs _ rfl) (check_seq hu rfl)))
  | timerAdd => exact check_seq (check_choose rfl (hs _ rfl)) (hs _ rfl)
  | timerRun =>
    exact check_loop ht (check_seq (check_scope (above_tf ht rfl) (check_seq (check_waits ht rfl) (check_choose rfl (check_waits ht rfl))))
      (check_user ht))
  | timerDestroy => exact hs _ rfl
  | poolExecute i qs => exact check_execute hinit hexit hq
  | poolRun i qs =>
    exact check_loop ht (check_seq (check_choose (check_tryQueues hq rfl)
      (check_seq (check_tryQueues hq rfl) (check_scope (hq i) (check_waits ht rfl)))) hu)
  | poolExpand w qs =>
    exact check_loop ht (check_seq (check_tryQueues hq rfl) (check_choose (check_user ht) (check_scope (hw w) (check_waits ht rfl))))
  | poolAddThread => exact hs _ rfl
  | poolWake qs ws => exact check_wake hq (above_tf ht rfl) hw
  | poolJoin qs ws =>
    refine check_seqs ?_
    intro c hc
    simp only [List.mem_append, List.mem_map] at hc
    rcases hc with ⟨i, -, rfl⟩ | ⟨i, -, rfl⟩
    · exact hs _ rfl
    · exact hs _ rfl
  | awaitGet a s qs ws =>
    refine check_choose rfl (check_seq (check_call ht rfl) (check_seq (check_scope (above_tf ht rfl) ?_) (check_seq (check_user ht) rfl)))
    have g : ∀ m, 1 < rank m → above (.await a :: h) m = true := fun m hm => above_cons ht hm
    exact check_seq (check_pts (g _ (by decide)) (above_cons2 ht (by simp [rank]) (by simp [rank])))
      (check_seq (check_wake (fun i => g _ (by simp [rank])) (g _ (by decide)) (fun i => g _ (by simp [rank])))
        (check_seq (check_choose rfl (check_scope_skip (g _ (by decide)))) (check_seq (check_waits ht rfl) rfl)))
  | awaitSet a => exact hs _ rfl
  | atPreExit => exact hs _ rfl
  | preExit => exact check_seq (check_loop ht (check_seq (hs _ rfl) (check_user ht))) (hs _ rfl)
  | removeSender p => exact check_seq (hs _ rfl) hu
  | send p => exact check_seq (hs _ rfl) hu
  | freeBuffer p => exact hs _ rfl
  | removeReceiver p => exact check_choose rfl (check_seq (hs _ rfl) hu)
  | taskDone p => exact check_seq (hs _ rfl) hu
  | taskDoneFinal p ds inline qs =>
    cases inline
    · refine check_seq (hs _ rfl) (check_scope (above_tf ht rfl) (check_seq ?_ rfl))
      have g : ∀ m, 1 < rank m → above (.down p :: h) m = true := fun m hm => above_cons ht hm
      exact check_removeSenders (fun q => g _ (by simp [rank])) (g _ (by decide)) (above_cons2 ht (by simp [rank]) (by simp [rank]))
        (fun i => g _ (by simp [rank]))
    · simp [disciplined] at hf
  | clearToSend p =>
    exact check_seq (hs _ rfl) (check_seq (check_choose rfl (check_seq (check_user ht) (check_seq (hs _ rfl) (check_seq hu rfl)))) rfl)
  | step p => exact check_seq (hs _ rfl) (check_user ht)
  | broadcast p ds last =>
    cases last
    · exact check_seq (check_scope (above_tf ht rfl) (check_freeBuffers (fun q => above_cons ht (by simp [rank]))))
        (check_seq (hs _ rfl) (check_seq (check_user ht) (check_seq (check_call ht rfl) rfl)))
    · simp [disciplined] at hf
  | map p => exact hs _ rfl
  | stepYield p =>
    have h1 : allTf (.tf p :: h) = true := by simpa [allTf, Mutex.isTf] using ht
    simp [code, check, ht, h1, Mutex.isTf]
  | timeout p =>
    have h1 : allTf (.tf p :: h) = true := by simpa [allTf, Mutex.isTf] using ht
    simp [code, check, ht, h1, Mutex.isTf]

/-! ## The invariant -/

structure Inv (s : St) : Prop where
  own : ∀ m t, s.owner m = some t ↔ m ∈ (s.th t).held
  nodup : ∀ t, (s.th t).held.Nodup
  chk : ∀ t, checks (s.th t).held (s.th t).code = some []

theorem inv_init : Inv {} where
  own := by simp
  nodup := by simp
  chk := by intro t; rfl

theorem upd_same {α β : Type} [DecidableEq α] (f : α → β) (x : α) (y : β) : upd f x y x = y := by simp [upd]

theorem upd_other {α β : Type} [DecidableEq α] (f : α → β) {x z : α} (y : β) (h : z ≠ x) : upd f x y z = f z := by simp [upd, h]

theorem checks_cons {h r : List Mutex} {c : Code} {k : List Code} (e : checks h (c :: k) = some r) :
    ∃ h', check h c = some h' ∧ checks h' k = some r := by
  simpa [checks, Option.bind_eq_some_iff] using e

theorem inv_goOn {s : St} (I : Inv s) {t : Nat} {k : List Code} (hk : checks (s.th t).held k = some []) : Inv (goOn s t k) where
  own := by
    intro m u
    rw [show (goOn s t k).owner = s.owner from rfl, I.own]
    by_cases e : u = t
    · subst e; simp [goOn, upd]
    · simp [goOn, upd, e]
  nodup := by
    intro u
    by_cases e : u = t
    · subst e; simpa [goOn, upd] using I.nodup u
    · simpa [goOn, upd, e] using I.nodup u
  chk := by
    intro u
    by_cases e : u = t
    · subst e; simpa [goOn, upd] using hk
    · simpa [goOn, upd, e] using I.chk u

theorem inv_acquire {s : St} (I : Inv s) {t : Nat} {m : Mutex} {k : List Code} (hm : s.owner m = none)
    (hk : checks (m :: (s.th t).held) k = some []) : Inv (acquire s t m k) where
  own := by
    intro m' u
    have h0 : ∀ v, m ∉ (s.th v).held := fun v hv => by rw [(I.own m v).mpr hv] at hm; cases hm
    by_cases e : u = t
    · subst e
      by_cases e' : m' = m
      · subst e'; simp [acquire, upd]
      · simp [acquire, upd, e', I.own]
    · by_cases e' : m' = m
      · subst e'; simp [acquire, upd, e, h0 u, Ne.symm e]
      · simp [acquire, upd, e, e', I.own]
  nodup := by
    intro u
    have h0 : ∀ v, m ∉ (s.th v).held := fun v hv => by rw [(I.own m v).mpr hv] at hm; cases hm
    by_cases e : u = t
    · subst e; simpa [acquire, upd] using ⟨h0 u, I.nodup u⟩
    · simpa [acquire, upd, e] using I.nodup u
  chk := by
    intro u
    by_cases e : u = t
    · subst e; simpa [acquire, upd] using hk
    · simpa [acquire, upd, e] using I.chk u

theorem inv_release {s : St} (I : Inv s) {t : Nat} {m : Mutex} {k : List Code} (hm : s.owner m = some t)
    (hk : checks ((s.th t).held.erase m) k = some []) : Inv (release s t m k) where
  own := by
    intro m' u
    by_cases e : u = t
    · subst e
      by_cases e' : m' = m
      · subst e'; simp [release, upd, (I.nodup u).mem_erase_iff]
      · simp [release, upd, e', (I.nodup u).mem_erase_iff, I.own]
    · by_cases e' : m' = m
      · subst e'
        have : m' ∉ (s.th u).held := fun hv => by
          rw [(I.own m' u).mpr hv] at hm; simp only [Option.some.injEq] at hm; exact e hm
        simp [release, upd, e, this]
      · simp [release, upd, e, e', I.own]
  nodup := by
    intro u
    by_cases e : u = t
    · subst e; simpa [release, upd] using (I.nodup u).erase m
    · simpa [release, upd, e] using I.nodup u
  chk := by
    intro u
    by_cases e : u = t
    · subst e; simpa [release, upd] using hk
    · simpa [release, upd, e] using I.chk u

theorem check_calls {allowed : Fn → Bool} (ha : ∀ f, allowed f = true → disciplined f = true) {h r : List Mutex} (ht : allTf h = true)
    {calls : List Fn} (hc : calls.all allowed = true) {k : List Code} (hk : checks h k = some r) :
    checks h (calls.map .call ++ k) = some r := by
  induction calls with
  | nil => exact hk
  | cons f fs ih =>
    simp only [List.all_cons, Bool.and_eq_true] at hc
    simp [checks, check_call ht (ha f hc.1), ih hc.2]

theorem inv_step {allowed : Fn → Bool} (ha : ∀ f, allowed f = true → disciplined f = true) {s s' : St} (I : Inv s) {t : Nat} {pick : Bool}
    {calls : List Fn} (h : step allowed s t pick calls = .next s') : Inv s' := by
  have hc := I.chk t
  unfold step at h
  split at h
  · cases h
  · rename_i k hcode; rw [hcode] at hc
    obtain ⟨h', h1, h2⟩ := checks_cons hc
    simp only [check, Option.some.injEq] at h1; subst h1
    simp only [Out.next.injEq] at h; subst h
    exact inv_goOn I h2
  · rename_i m k hcode; rw [hcode] at hc
    obtain ⟨h', h1, h2⟩ := checks_cons hc
    simp only [check] at h1
    split at h1
    · simp only [Option.some.injEq] at h1; subst h1
      split at h
      · rename_i ho
        simp only [Out.next.injEq] at h; subst h
        exact inv_acquire I ho h2
      · split at h <;> cases h
    · cases h1
  · rename_i m k hcode; rw [hcode] at hc
    obtain ⟨h', h1, h2⟩ := checks_cons hc
    split at h
    · rename_i ho
      simp only [Out.next.injEq] at h; subst h
      refine inv_release I ho ?_
      cases eh : (s.th t).held with
      | nil => rw [eh] at h1; simp [check] at h1
      | cons x xs =>
        rw [eh] at h1
        simp only [check] at h1
        split at h1
        · rename_i ex; subst ex
          simp only [Option.some.injEq] at h1; subst h1
          simpa using h2
        · cases h1
    · cases h
  · rename_i m yes no k hcode; rw [hcode] at hc
    obtain ⟨h', h1, h2⟩ := checks_cons hc
    simp only [check] at h1
    split at h1
    · split at h1
      · rename_i a b e1 e2
        split at h1
        · rename_i eab; subst eab
          simp only [Option.some.injEq] at h1; subst h1
          split at h
          · rename_i ho
            split at h
            · simp only [Out.next.injEq] at h; subst h
              exact inv_acquire I ho (by simp [checks, e1, h2])
            · simp only [Out.next.injEq] at h; subst h
              exact inv_goOn I (by simp [checks, e2, h2])
          · split at h
            · cases h
            · simp only [Out.next.injEq] at h; subst h
              exact inv_goOn I (by simp [checks, e2, h2])
        · cases h1
      · cases h1
    · cases h1
  · rename_i m body k hcode; rw [hcode] at hc
    obtain ⟨h', h1, h2⟩ := checks_cons hc
    simp only [check] at h1
    split at h1
    · rename_i hcond
      simp only [Bool.and_eq_true, beq_iff_eq] at hcond
      simp only [Option.some.injEq] at h1; subst h1
      split at h
      · rename_i ho
        split at h
        · simp only [Out.next.injEq] at h; subst h
          exact inv_acquire I ho (by simp [checks, hcond.2, h2])
        · simp only [Out.next.injEq] at h; subst h; exact I
      · split at h
        · cases h
        · simp only [Out.next.injEq] at h; subst h; exact I
    · cases h1
  · rename_i m k hcode; rw [hcode] at hc
    obtain ⟨h', h1, h2⟩ := checks_cons hc
    cases eh : (s.th t).held with
    | nil => rw [eh] at h1; simp [check] at h1
    | cons x xs =>
      rw [eh] at h1
      simp only [check] at h1
      split at h1
      · rename_i hcond
        simp only [Bool.and_eq_true, decide_eq_true_eq, Bool.not_eq_true'] at hcond
        obtain ⟨⟨ex, hm⟩, hall⟩ := hcond
        subst ex
        simp only [Option.some.injEq] at h1; subst h1
        split at h
        · rename_i ho
          split at h
          · simp only [Out.next.injEq] at h; subst h
            refine inv_release I ho ?_
            rw [eh]
            simp [checks, check, hm, hall, h2]
          · simp only [Out.next.injEq] at h; subst h
            exact inv_goOn I (by rw [eh]; exact h2)
        · cases h
      · cases h1
  · rename_i m k hcode; rw [hcode] at hc
    obtain ⟨h', h1, h2⟩ := checks_cons hc
    simp only [check] at h1
    split at h1
    · rename_i hcond
      simp only [Bool.and_eq_true, Bool.not_eq_true'] at hcond
      simp only [Option.some.injEq] at h1; subst h1
      split at h
      · simp only [Out.next.injEq] at h; subst h
        exact inv_goOn I (by simp [checks, check, above_tf hcond.2 hcond.1, h2])
      · cases h
    · cases h1
  · rename_i k hcode; rw [hcode] at hc
    obtain ⟨h', h1, h2⟩ := checks_cons hc
    simp only [check] at h1
    split at h1
    · rename_i hall
      simp only [Option.some.injEq] at h1; subst h1
      split at h
      · rename_i hcalls
        simp only [Out.next.injEq] at h; subst h
        exact inv_goOn I (check_calls ha hall hcalls h2)
      · cases h
    · cases h1
  · rename_i f k hcode; rw [hcode] at hc
    obtain ⟨h', h1, h2⟩ := checks_cons hc
    simp only [check] at h1
    split at h1
    · rename_i hcond
      simp only [Bool.and_eq_true] at hcond
      simp only [Option.some.injEq] at h1; subst h1
      simp only [Out.next.injEq] at h; subst h
      exact inv_goOn I (by simp [checks, check_code hcond.1 hcond.2, h2])
    · cases h1
  · rename_i a b k hcode; rw [hcode] at hc
    obtain ⟨h', h1, h2⟩ := checks_cons hc
    simp only [check, Option.bind_eq_some_iff] at h1
    obtain ⟨x, h3, h4⟩ := h1
    simp only [Out.next.injEq] at h; subst h
    exact inv_goOn I (by simp [checks, h3, h4, h2])
  · rename_i a b k hcode; rw [hcode] at hc
    obtain ⟨h', h1, h2⟩ := checks_cons hc
    simp only [check] at h1
    split at h1
    · rename_i x y e1 e2
      split at h1
      · rename_i exy; subst exy
        simp only [Option.some.injEq] at h1; subst h1
        simp only [Out.next.injEq] at h; subst h
        refine inv_goOn I ?_
        cases pick
        · simp [checks, e2, h2]
        · simp [checks, e1, h2]
      · cases h1
    · cases h1
  · rename_i b k hcode; rw [hcode] at hc
    obtain ⟨h', h1, h2⟩ := checks_cons hc
    simp only [check] at h1
    split at h1
    · rename_i hcond
      have hcond' := hcond
      simp only [Bool.and_eq_true, beq_iff_eq] at hcond'
      simp only [Option.some.injEq] at h1; subst h1
      split at h
      · simp only [Out.next.injEq] at h; subst h
        refine inv_goOn I ?_
        simp [checks, check, hcond'.1, hcond'.2, h2]
      · simp only [Out.next.injEq] at h; subst h
        exact inv_goOn I h2
    · cases h1

theorem inv_exec {allowed : Fn → Bool} (ha : ∀ f, allowed f = true → disciplined f = true) {s s' : St} (I : Inv s) {as : List Act}
    (h : exec allowed s as = some s') : Inv s' := by
  induction as generalizing s with
  | nil => simp only [exec, Option.some.injEq] at h; subst h; exact I
  | cons a as ih =>
    simp only [exec] at h
    split at h
    · rename_i s1 h1; exact ih (inv_step ha I h1) h
    · cases h

theorem inv_reachable {allowed : Fn → Bool} (ha : ∀ f, allowed f = true → disciplined f = true) {s : St} (h : Reachable allowed s) : Inv s :=
  let ⟨_, h⟩ := h; inv_exec ha inv_init h

end Verif.Locks
