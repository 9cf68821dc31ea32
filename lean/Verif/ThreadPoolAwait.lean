import Verif.ThreadPoolProps

/-!
# C54: what waking or adding a thread achieves

`invoke_waiting` (await.hpp:41-47) wakes a thread, or adds one. If that thread gets the locks of the queues it looks at, it starts a
task unless the queue in question is emptied by others first. (`c54_await_counterexample`: it may fail to get a lock.)
-/

namespace Verif.ThreadPool

open Verif.NotificationQueue

/-! ## Only sleeping threads are waiting -/

structure Sleepers (N : Nat) (s : St) : Prop where
  q : ∀ k, k < N → (s.q k).waiting = true → s.th k = .asleep ∨ s.th k = .awake
  w : ∀ j, s.wWaiting j = true → N + j < s.nth ∧ (s.th (N + j) = .asleep ∨ s.th (N + j) = .awake)
  n : N ≤ s.nth

theorem sleepers_init (N : Nat) : Sleepers N (init N) := by
  constructor <;> simp [init]

theorem popNotEmpty_waiting {q q' : NQ} {e : Elem} (h : popNotEmpty q = some (e, q')) : q'.waiting = q.waiting ∧ q'.done = q.done := by
  unfold popNotEmpty at h
  split at h
  · cases h
  · cases h; exact ⟨rfl, rfl⟩

attribute [local grind =] upd

theorem Sleepers.pop {N : Nat} {s : St} (S : Sleepers N s) {i k : Nat} {p : Pc} {q' : NQ} {e : Elem} (tr : List Event)
    (hi : s.th i ≠ .asleep) (hi2 : s.th i ≠ .awake) (h : popNotEmpty (s.q k) = some (e, q')) :
    Sleepers N { s with q := upd s.q k q', th := upd s.th i p, trace := tr } := by
  obtain ⟨hw, _⟩ := popNotEmpty_waiting h
  obtain ⟨a, b, c⟩ := S
  exact ⟨by grind, by grind, c⟩

theorem Sleepers.evalPop {N : Nat} {s : St} {i : Nat} (h1 : ∀ k, k < N → k ≠ i → (s.q k).waiting = true → s.th k = .asleep ∨ s.th k = .awake)
    (h2 : ∀ j, s.wWaiting j = true → N + j < s.nth ∧ (s.th (N + j) = .asleep ∨ s.th (N + j) = .awake)) (h3 : N ≤ s.nth) (hi : i < N) :
    Sleepers N (evalPop s i) := by
  unfold ThreadPool.evalPop
  split
  · exact ⟨by grind, by grind, h3⟩
  · split
    · exact ⟨by grind, by grind, h3⟩
    · rename_i e q' hp
      obtain ⟨hw, _⟩ := popNotEmpty_waiting hp
      exact ⟨by grind, by grind, h3⟩

theorem Sleepers.evalWait {N : Nat} {s : St} {i : Nat} (h1 : ∀ k, k < N → (s.q k).waiting = true → s.th k = .asleep ∨ s.th k = .awake)
    (h2 : ∀ j, N + j ≠ i → s.wWaiting j = true → N + j < s.nth ∧ (s.th (N + j) = .asleep ∨ s.th (N + j) = .awake)) (h3 : N ≤ s.nth)
    (hi : ¬ i < N) (hn : i < s.nth) : Sleepers N (evalWait N s i) := by
  unfold ThreadPool.evalWait
  have hj : ∀ j, j = i - N ↔ N + j = i := by omega
  split
  · refine ⟨by grind, ?_, h3⟩
    intro j hw
    by_cases e : N + j = i
    · subst e; exact ⟨hn, by simp⟩
    · have := h2 j e hw
      simpa [upd_other _ _ e] using this
  · refine ⟨by grind, ?_, h3⟩
    intro j hw
    by_cases e : N + j = i
    · have : j = i - N := (hj j).2 e
      subst this; simp at hw
    · have e' : j ≠ i - N := fun h => e ((hj j).1 h)
      simp only [upd_other _ _ e'] at hw
      have := h2 j e hw
      simpa [upd_other _ _ e] using this

theorem Sleepers.step {N limit : Nat} {s s' : St} (S : Sleepers N s) {a : Act} (h : ThreadPool.step N limit s a = some s') : Sleepers N s' := by
  have S' := S
  obtain ⟨h1, h2, h3⟩ := S
  cases a with
  | submit prio i =>
    simp only [ThreadPool.step] at h
    split at h <;> cases h
    exact ⟨h1, h2, h3⟩
  | tryPush j locked =>
    simp only [ThreadPool.step] at h
    split at h
    · cases h
    · split at h
      · cases h
      · split at h <;> cases h
        · exact ⟨by simp only [pushTo, push]; grind, h2, h3⟩
        · exact ⟨h1, h2, h3⟩
  | push j =>
    simp only [ThreadPool.step] at h
    split at h
    · cases h
    · split at h <;> cases h
      exact ⟨by simp only [pushTo, push]; grind, h2, h3⟩
  | notify j =>
    simp only [ThreadPool.step] at h
    split at h <;> cases h
    exact ⟨by grind, by grind, h3⟩
  | tryPop i locked =>
    simp only [ThreadPool.step] at h
    split at h
    · split at h
      · rename_i n hn
        split at h
        · cases h
        · split at h
          · split at h
            · cases h; exact ⟨by grind, by grind, h3⟩
            · rename_i e q' hp
              cases h
              exact S'.pop _ (by simp [hn]) (by simp [hn]) hp
          · cases h; exact ⟨by grind, by grind, h3⟩
      · cases h
    · cases h
  | enter i =>
    simp only [ThreadPool.step] at h
    split at h
    · rename_i hi
      split at h <;> cases h
      · rename_i hlt
        exact Sleepers.evalPop (by grind) h2 h3 hlt
      · rename_i hlt
        refine Sleepers.evalWait h1 ?_ h3 hlt hi.1
        intro j hj hw
        have : j ≠ i - N := by omega
        simp only [upd_other _ _ this] at hw
        exact h2 j hw
    · cases h
  | spurious i =>
    simp only [ThreadPool.step] at h
    split at h <;> cases h
    exact ⟨by grind, by grind, h3⟩
  | resume i =>
    simp only [ThreadPool.step] at h
    split at h
    · rename_i hi
      split at h <;> cases h
      · exact Sleepers.evalPop (fun k hk _ => h1 k hk) h2 h3 ‹_›
      · exact Sleepers.evalWait h1 (fun j _ => h2 j) h3 ‹_› hi.1
    · cases h
  | finish i =>
    simp only [ThreadPool.step] at h
    split at h
    · split at h <;> cases h
      exact ⟨by grind, by grind, h3⟩
    · cases h
  | wakeQ k =>
    simp only [ThreadPool.step] at h
    split at h <;> cases h
    exact ⟨by grind, h2, h3⟩
  | wakeW j =>
    simp only [ThreadPool.step] at h
    split at h <;> cases h
    exact ⟨h1, by grind, h3⟩
  | wNotify j =>
    simp only [ThreadPool.step] at h
    split at h <;> cases h
    exact ⟨by grind, by grind, h3⟩
  | addThread =>
    simp only [ThreadPool.step] at h
    split at h <;> cases h
    exact ⟨by grind, by grind, by simp only; omega⟩
  | join =>
    simp only [ThreadPool.step] at h
    split at h <;> cases h
    exact ⟨h1, h2, h3⟩
  | doneQ k =>
    simp only [ThreadPool.step] at h
    split at h <;> cases h
    exact ⟨by grind, h2, h3⟩
  | doneW j =>
    simp only [ThreadPool.step] at h
    split at h <;> cases h
    exact ⟨h1, h2, h3⟩

theorem sleepers_exec {N limit : Nat} : ∀ {as : List Act} {s s' : St}, Sleepers N s → exec N limit s as = some s' → Sleepers N s'
  | [], s, s', S, h => by cases h; exact S
  | a :: as, s, s', S, h => by
    simp only [exec] at h
    split at h
    · cases h
    · rename_i s1 h1; exact sleepers_exec (S.step h1) h

/-! ## A thread on its way to a queue -/

/-- Nothing keeps thread `i` from returning from its condition variable. -/
def Up (N : Nat) (s : St) (i : Nat) : Prop := if i < N then (s.q i).waiting = false else s.wWaiting (i - N) = false

/-- The notification is about to be sent. -/
def Called (N : Nat) (s : St) (i : Nat) : Prop := if i < N then 0 < s.notif i else 0 < s.wNotif (i - N)

/-- Thread `i` is going to look at queue `k`. -/
def Coming (N : Nat) (s : St) (i k : Nat) : Prop := match s.th i with
  | .scan n => ∃ m, n ≤ m ∧ m < N ∧ (i + m) % N = k
  | .asleep => Up N s i ∧ Called N s i
  | .awake => Up N s i
  | .calling _ => True
  | .exited => False

/-- The steps of thread `i`, and the delivery of a notification to it. -/
def Own' (N i : Nat) (s : St) : Act → Prop
  | .tryPop j _ => j = i
  | .enter j => j = i
  | .resume j => j = i
  | .notify j => j = i ∧ i < N ∧ s.th i = .asleep
  | .wNotify j => N + j = i ∧ s.th i = .asleep
  | _ => False

instance (N i : Nat) (s : St) (a : Act) : Decidable (Own' N i s a) := by
  cases a <;> simp only [Own'] <;> infer_instance

/-- Steps thread `i` needs at most before it takes a task. -/
def rank' (N : Nat) : Pc → Nat
  | .asleep => N + 2
  | .awake => N + 1
  | .scan n => N - n
  | _ => 0

theorem reaches {N i k : Nat} (hk : k < N) : ∃ m, 0 ≤ m ∧ m < N ∧ (i + m) % N = k := by
  have hN : 0 < N := by omega
  have hi := Nat.mod_lt i hN
  refine ⟨(k + (N - i % N)) % N, Nat.zero_le _, Nat.mod_lt _ hN, ?_⟩
  rw [Nat.add_mod, Nat.mod_mod, ← Nat.add_mod_mod, Nat.mod_mod, Nat.add_mod_mod]
  have : i % N + (k + (N - i % N)) = k + N := by omega
  rw [this, Nat.add_mod_right, Nat.mod_eq_of_lt hk]

/-- Steps of others. -/
theorem Coming.other {N : Nat} {s s' : St} {i k : Nat} (C : Coming N s i k) (ht : s'.th i = s.th i) (hu : Up N s i → Up N s' i)
    (hc : s.th i = .asleep → Called N s i → Called N s' i) : Coming N s' i k := by
  unfold Coming at C ⊢
  rw [ht]
  split at C
  · exact C
  · rename_i hs; exact ⟨hu C.1, hc hs C.2⟩
  · exact hu C
  · trivial
  · exact C

theorem evalPop_q {s : St} {i j : Nat} (h : j ≠ i) : (evalPop s i).q j = s.q j := by
  unfold evalPop; split
  · rfl
  · split <;> exact upd_other _ _ h

theorem evalPop_rest (s : St) (i : Nat) : (evalPop s i).notif = s.notif ∧ (evalPop s i).wNotif = s.wNotif ∧
    (evalPop s i).wWaiting = s.wWaiting := by
  unfold evalPop; split
  · exact ⟨rfl, rfl, rfl⟩
  · split <;> exact ⟨rfl, rfl, rfl⟩

theorem evalWait_rest (N : Nat) (s : St) (i : Nat) : (evalWait N s i).notif = s.notif ∧ (evalWait N s i).wNotif = s.wNotif ∧
    (evalWait N s i).q = s.q := by
  unfold evalWait; split <;> exact ⟨rfl, rfl, rfl⟩

theorem evalWait_w {N : Nat} {s : St} {i j : Nat} (h : j ≠ i - N) : (evalWait N s i).wWaiting j = s.wWaiting j := by
  unfold evalWait; split
  · rfl
  · exact upd_other _ _ h

theorem coming_step {N limit : Nat} {s s' : St} (I : Inv N s) (S : Sleepers N s) {i k : Nat} (hk : k < N) (hin : i < s.nth)
    (C : Coming N s i k) (hq : (s.q k).items ≠ [])
    (hc : ∀ t, s.th i ≠ .calling t) (hj : s.joining = false) {a : Act} (ha : a ≠ .tryPop i false)
    (h : step N limit s a = some s') :
    (∃ t, s'.trace = s.trace ++ [.start i t]) ∨
    (Coming N s' i k ∧ i < s'.nth ∧ (∀ t, s'.th i ≠ .calling t) ∧
      rank' N (s'.th i) + (if Own' N i s a then 1 else 0) ≤ rank' N (s.th i)) := by
  have hdone := (I.shut.idle hj).1
  have hwdone := (I.shut.idle hj).2.1
  have other : ∀ (s' : St), ¬ Own' N i s a → s'.th i = s.th i → s.nth ≤ s'.nth → (Up N s i → Up N s' i) →
      (s.th i = .asleep → Called N s i → Called N s' i) → (∃ t, s'.trace = s.trace ++ [.start i t]) ∨
      (Coming N s' i k ∧ i < s'.nth ∧ (∀ t, s'.th i ≠ .calling t) ∧
        rank' N (s'.th i) + (if Own' N i s a then 1 else 0) ≤ rank' N (s.th i)) := by
    intro s' ho ht hn hu hcl
    refine .inr ⟨C.other ht hu hcl, by omega, ?_, ?_⟩
    · rw [ht]; exact hc
    · rw [ht]; simp [ho]
  cases a with
  | submit prio j =>
    simp only [step] at h
    split at h <;> cases h
    exact other _ (by simp [Own']) rfl (Nat.le_refl _) id (fun _ => id)
  | tryPush j locked =>
    simp only [step] at h
    split at h
    · cases h
    · split at h
      · cases h
      · split at h <;> cases h
        · refine other _ (by simp [Own']) rfl (Nat.le_refl _) ?_ ?_
          · simp only [Up, pushTo, push]; grind
          · intro hsl; simp only [Called, pushTo]; grind
        · exact other _ (by simp [Own']) rfl (Nat.le_refl _) id (fun _ => id)
  | push j =>
    simp only [step] at h
    split at h
    · cases h
    · split at h <;> cases h
      refine other _ (by simp [Own']) rfl (Nat.le_refl _) ?_ ?_
      · simp only [Up, pushTo, push]; grind
      · intro hsl; simp only [Called, pushTo]; grind
  | notify j =>
    simp only [step] at h
    split at h <;> cases h
    rename_i hjn
    by_cases e : j = i ∧ s.th i = .asleep
    · obtain ⟨rfl, hs⟩ := e
      right
      simp only [Coming, hs] at C
      refine ⟨?_, hin, ?_, ?_⟩
      · simp only [Coming, hs, if_true, upd_same]; exact C.1
      · simp [hs]
      · simp [hs, Own', hjn.1, rank']
    · refine other _ (by simp only [Own']; grind) ?_ (Nat.le_refl _) id ?_
      · simp only; split
        · rename_i hsl
          exact upd_other _ _ (fun he => e ⟨he.symm, he ▸ hsl⟩)
        · rfl
      · intro hsl; simp only [Called]
        by_cases e2 : j = i
        · subst e2
          exact absurd ⟨rfl, hsl⟩ e
        · simp only [upd_other _ _ (Ne.symm e2)]; exact id
  | tryPop j locked =>
    simp only [step] at h
    split at h
    · split at h
      · rename_i n hn
        split at h
        · cases h
        · rename_i hne
          by_cases e : j = i
          · subst e
            have hl : locked = true := by
              cases locked with
              | true => rfl
              | false => exact absurd rfl ha
            subst hl
            simp only [if_true] at h
            simp only [Coming, hn] at C
            obtain ⟨m, h1, h2, h3⟩ := C
            split at h
            · rename_i hp
              cases h
              have hemp := (c25_pop_some _).1 hp
              have hnm : n ≠ m := by rintro rfl; rw [h3] at hemp; exact hq hemp
              right
              refine ⟨?_, hin, by simp, ?_⟩
              · simp only [Coming, upd_same]; exact ⟨m, by omega, h2, h3⟩
              · simp only [upd_same, hn, rank', Own', if_true]; omega
            · cases h
              exact .inl ⟨_, rfl⟩
          · have ho : ¬ Own' N i s (.tryPop j locked) := by simp [Own', e]
            split at h
            · split at h
              · cases h
                exact other _ ho (upd_other _ _ (Ne.symm e)) (Nat.le_refl _) id (fun _ => id)
              · rename_i e' q' hp
                cases h
                obtain ⟨hw, _⟩ := popNotEmpty_waiting hp
                refine other _ ho (upd_other _ _ (Ne.symm e)) (Nat.le_refl _) ?_ (fun _ => id)
                simp only [Up]; grind
            · cases h
              exact other _ ho (upd_other _ _ (Ne.symm e)) (Nat.le_refl _) id (fun _ => id)
      · cases h
    · cases h
  | enter j =>
    simp only [step] at h
    split at h
    · rename_i hjn
      have e : j ≠ i := by
        rintro rfl
        simp only [Coming, hjn.2] at C
        obtain ⟨m, h1, h2, _⟩ := C
        omega
      have ho : ¬ Own' N i s (.enter j) := by simp [Own', e]
      split at h <;> cases h
      · refine other _ ho ?_ ?_ ?_ ?_
        · rw [evalPop_th (Ne.symm e)]
        · unfold evalPop; split
          · exact Nat.le_refl _
          · split <;> exact Nat.le_refl _
        · simp only [Up, evalPop_q (Ne.symm e), (evalPop_rest _ _).2.2, upd_other _ _ (Ne.symm e)]; exact id
        · intro hsl; simp only [Called, (evalPop_rest _ _).1, (evalPop_rest _ _).2.1]; exact id
      · rename_i hlt
        have : ¬ i < N → i - N ≠ j - N := by omega
        refine other _ ho ?_ ?_ ?_ ?_
        · rw [evalWait_th (Ne.symm e)]
        · unfold evalWait; split <;> exact Nat.le_refl _
        · simp only [Up, (evalWait_rest _ _ _).2.2]
          split
          · exact id
          · rename_i hi
            rw [evalWait_w (this hi)]
            simp only [upd_other _ _ (this hi)]; exact id
        · intro hsl; simp only [Called, (evalWait_rest _ _ _).1, (evalWait_rest _ _ _).2.1]; exact id
    · cases h
  | spurious j =>
    simp only [step] at h
    split at h <;> cases h
    rename_i hjn
    by_cases e : j = i
    · subst e
      simp only [Coming, hjn.2] at C
      right
      refine ⟨?_, hin, by simp, ?_⟩
      · simp only [Coming, upd_same]; exact C.1
      · simp [hjn.2, rank', Own']
    · exact other _ (by simp [Own']) (upd_other _ _ (Ne.symm e)) (Nat.le_refl _) id (fun _ => id)
  | resume j =>
    simp only [step] at h
    split at h
    · rename_i hjn
      by_cases e : j = i
      · subst e
        simp only [Coming, hjn.2, Up] at C
        split at h <;> cases h
        · rename_i hlt
          simp only [hlt, if_true] at C
          have hd := hdone j
          unfold evalPop
          simp only [C, Bool.false_eq_true, and_false, if_false, hd]
          split
          · right
            refine ⟨?_, hin, by simp, ?_⟩
            · simp only [Coming, upd_same]; exact reaches hk
            · simp only [upd_same, hjn.2, rank', Own', if_true]; omega
          · exact .inl ⟨_, rfl⟩
        · rename_i hlt
          simp only [hlt, if_false] at C
          have hd := hwdone (j - N)
          unfold evalWait
          simp only [C, Bool.false_eq_true, false_and, if_false, hd]
          right
          refine ⟨?_, hin, by simp, ?_⟩
          · simp only [Coming, upd_same]; exact reaches hk
          · simp only [upd_same, hjn.2, rank', Own', if_true]; omega
      · have ho : ¬ Own' N i s (.resume j) := by simp [Own', e]
        split at h <;> cases h
        · refine other _ ho ?_ ?_ ?_ ?_
          · rw [evalPop_th (Ne.symm e)]
          · unfold evalPop; split
            · exact Nat.le_refl _
            · split <;> exact Nat.le_refl _
          · simp only [Up, evalPop_q (Ne.symm e), (evalPop_rest _ _).2.2]; exact id
          · intro hsl; simp only [Called, (evalPop_rest _ _).1, (evalPop_rest _ _).2.1]; exact id
        · rename_i hlt
          have : ¬ i < N → i - N ≠ j - N := by omega
          refine other _ ho ?_ ?_ ?_ ?_
          · rw [evalWait_th (Ne.symm e)]
          · unfold evalWait; split <;> exact Nat.le_refl _
          · simp only [Up, (evalWait_rest _ _ _).2.2]
            split
            · exact id
            · rename_i hi
              rw [evalWait_w (this hi)]
              exact id
          · intro hsl; simp only [Called, (evalWait_rest _ _ _).1, (evalWait_rest _ _ _).2.1]; exact id
    · cases h
  | finish j =>
    simp only [step] at h
    split at h
    · split at h
      · rename_i t ht
        cases h
        have e : j ≠ i := by rintro rfl; exact hc t ht
        exact other _ (by simp [Own']) (upd_other _ _ (Ne.symm e)) (Nat.le_refl _) id (fun _ => id)
      · cases h
    · cases h
  | wakeQ j =>
    simp only [step] at h
    split at h <;> cases h
    refine other _ (by simp [Own']) rfl (Nat.le_refl _) ?_ ?_
    · simp only [Up]; grind
    · intro hsl; simp only [Called]; grind
  | wakeW j =>
    simp only [step] at h
    split at h <;> cases h
    refine other _ (by simp [Own']) rfl (Nat.le_refl _) ?_ ?_
    · simp only [Up]; grind
    · intro hsl; simp only [Called]; grind
  | wNotify j =>
    simp only [step] at h
    split at h <;> cases h
    rename_i hjn
    by_cases e : N + j = i ∧ s.th i = .asleep
    · obtain ⟨rfl, hs⟩ := e
      right
      simp only [Coming, hs] at C
      refine ⟨?_, hin, ?_, ?_⟩
      · simp only [Coming, hs, if_true, upd_same]; exact C.1
      · simp [hs]
      · simp [hs, Own', rank']
    · refine other _ (by simp only [Own']; grind) ?_ (Nat.le_refl _) id ?_
      · simp only; split
        · rename_i hsl
          exact upd_other _ _ (fun he => e ⟨he.symm, he ▸ hsl⟩)
        · rfl
      · intro hsl
        by_cases e2 : N + j = i
        · exact absurd ⟨e2, hsl⟩ e
        · simp only [Called]
          split
          · exact id
          · rename_i hi
            rw [upd_other _ _ (by omega)]; exact id
  | addThread =>
    simp only [step] at h
    split at h <;> cases h
    exact other _ (by simp [Own']) (upd_other _ _ (by omega)) (Nat.le_succ _) id (fun _ => id)
  | join =>
    simp only [step] at h
    split at h <;> cases h
    exact other _ (by simp [Own']) rfl (Nat.le_refl _) id (fun _ => id)
  | doneQ j =>
    simp only [step, hj] at h
    simp at h
  | doneW j =>
    simp only [step, hj] at h
    simp at h

/-- An execution along which queue `k` does not become empty and thread `i` gets every lock it tries to get; `n` counts the steps of
thread `i`. -/
def Lucky (N limit i k : Nat) : St → List Act → Nat → Prop
  | s, [], n => (s.q k).items ≠ [] ∧ n = 0
  | s, a :: as, n => (s.q k).items ≠ [] ∧ a ≠ .tryPop i false ∧ ∃ s' m, step N limit s a = some s' ∧ Lucky N limit i k s' as m ∧
      n = m + if Own' N i s a then 1 else 0

theorem coming_exec {N limit i k : Nat} (hN : 0 < N) (hk : k < N) : ∀ {as : List Act} {s s' : St} {n : Nat}, Inv N s → Sleepers N s →
    exec N limit s as = some s' → Lucky N limit i k s as n → Event.join ∉ s'.trace → i < s.nth → Coming N s i k →
    (∀ t, s.th i ≠ .calling t) →
    (∃ t ev, s.trace ++ ev <+: s'.trace ∧ Event.start i t ∈ ev) ∨
    (Coming N s' i k ∧ i < s'.nth ∧ (∀ t, s'.th i ≠ .calling t) ∧ rank' N (s'.th i) + n ≤ rank' N (s.th i))
  | [], s, s', n, I, S, he, hb, hj, hi, C, hc => by
    cases he
    exact .inr ⟨C, hi, hc, by have := hb.2; omega⟩
  | a :: as, s, s', n, I, S, he, hb, hj, hi, C, hc => by
    obtain ⟨hq, ha, s1, m, h1, hb1, hn⟩ := hb
    have he' := he
    simp only [exec, h1] at he
    have hnj : s.joining = false := by
      cases hjo : s.joining with
      | false => rfl
      | true => exact absurd ((exec_mono he').subset (I.shut.act hjo)) hj
    rcases coming_step I S hk hi C hq hc hnj ha h1 with ⟨t, ht⟩ | ⟨C1, hi1, hc1, hr⟩
    · exact .inl ⟨t, [.start i t], ht ▸ exec_mono he, by simp⟩
    · rcases coming_exec hN hk (inv_step hN I h1) (S.step h1) he hb1 hj hi1 C1 hc1 with ⟨t, ev, hp, hm⟩ | ⟨C2, hi2, hc2, hr2⟩
      · obtain ⟨ev0, h0⟩ := trace_mono h1
        refine .inl ⟨t, ev0 ++ ev, ?_, List.mem_append_right _ hm⟩
        rw [← List.append_assoc, h0]; exact hp
      · exact .inr ⟨C2, hi2, hc2, by omega⟩

/-! ## The theorems -/

/-- `a`, done by `invoke_waiting`, wakes thread `i` or adds it. -/
def Woken (N : Nat) (s : St) (a : Act) (i : Nat) : Prop := a = .wakeQ i ∨ (∃ j, a = .wakeW j ∧ i = N + j) ∨ (a = .addThread ∧ i = s.nth)

theorem Woken.coming {N limit : Nat} {s s' : St} (S : Sleepers N s) {a : Act} {i : Nat} (w : Woken N s a i) (h : step N limit s a = some s')
    {k : Nat} (hk : k < N) : Coming N s' i k ∧ i < s'.nth ∧ (∀ t, s'.th i ≠ .calling t) := by
  obtain ⟨h1, h2, h3⟩ := S
  rcases w with rfl | ⟨j, rfl, rfl⟩ | ⟨rfl, rfl⟩
  · simp only [step] at h
    split at h <;> cases h
    rename_i hi
    have hi2 : i < s.nth := by omega
    rcases h1 i hi.1 hi.2 with hs | hs <;> simp [Coming, Up, Called, hs, hi.1, hi2]
  · simp only [step] at h
    split at h <;> cases h
    rename_i hw
    have hi := h2 j hw
    have hlt : ¬ N + j < N := by omega
    have he : N + j - N = j := by omega
    rcases hi.2 with hs | hs <;> simp [Coming, Up, Called, hs, hi.1, he] <;> omega
  · simp only [step] at h
    split at h <;> cases h
    refine ⟨?_, by simp, by simp⟩
    simp only [Coming, upd_same]
    exact reaches hk

theorem rank'_le (N : Nat) (p : Pc) : rank' N p ≤ N + 2 := by
  cases p <;> simp only [rank'] <;> omega

/-- C54: a thread woken or added by `invoke_waiting` starts a task within `N + 3` steps of its own, whatever the other threads do,
if it gets the locks and one of the queues stays non-empty. Missing: a thread that fails to get the lock passes over that queue,
and then goes to sleep although there are tasks (`c54_await_counterexample`). -/
theorem c54_await_partial {N limit : Nat} (hN : 0 < N) {s s1 s' : St} (hr : Reachable N limit s) {a : Act} {i : Nat} (hw : Woken N s a i)
    (h1 : step N limit s a = some s1) {as : List Act} (he : exec N limit s1 as = some s') {k n : Nat} (hk : k < N)
    (hl : Lucky N limit i k s1 as n) (hn : N + 3 ≤ n) (hj : Event.join ∉ s'.trace) :
    ∃ t ev, s1.trace ++ ev <+: s'.trace ∧ Event.start i t ∈ ev := by
  obtain ⟨as0, h0⟩ := hr
  have S := sleepers_exec (sleepers_init N) h0
  have I := inv_exec hN (inv_init N) h0
  obtain ⟨C, hi, hc⟩ := hw.coming S h1 hk
  rcases coming_exec hN hk (inv_step hN I h1) (S.step h1) he hl hj hi C hc with h | ⟨_, _, _, hle⟩
  · exact h
  · have := rank'_le N (s1.th i)
    omega

/-- C54: until the thread starts a task there is a step it can make. -/
theorem c54_await_enabled_partial {N limit : Nat} (hN : 0 < N) {s s1 s' : St} (hr : Reachable N limit s) {a : Act} {i : Nat}
    (hw : Woken N s a i) (h1 : step N limit s a = some s1) {as : List Act} (he : exec N limit s1 as = some s') {k n : Nat} (hk : k < N)
    (hl : Lucky N limit i k s1 as n) (hj : Event.join ∉ s'.trace) (hs : ∀ t ev, s1.trace ++ ev = s'.trace → Event.start i t ∉ ev) :
    ∃ b s2, step N limit s' b = some s2 ∧ Own' N i s' b ∧ b ≠ .tryPop i false := by
  obtain ⟨as0, h0⟩ := hr
  have S := sleepers_exec (sleepers_init N) h0
  have I := inv_exec hN (inv_init N) h0
  obtain ⟨C, hi, hc⟩ := hw.coming S h1 hk
  rcases coming_exec hN hk (inv_step hN I h1) (S.step h1) he hl hj hi C hc with ⟨t, ev, ⟨ev', hp⟩, hm⟩ | ⟨C', hi', hc', _⟩
  · exact absurd (List.mem_append_left _ hm) (hs t (ev ++ ev') (by rw [← hp, List.append_assoc]))
  · unfold Coming at C'
    split at C'
    · rename_i m hm
      obtain ⟨m', h1, h2, -⟩ := C'
      have : m ≠ N := by omega
      cases hp : popNotEmpty (s'.q ((i + m) % N)) with
      | none => exact ⟨.tryPop i true, _, by simp [step, hi', hm, this, hp]; rfl, rfl, by simp⟩
      | some r => exact ⟨.tryPop i true, _, by simp [step, hi', hm, this, hp]; rfl, rfl, by simp⟩
    · rename_i hm
      obtain ⟨-, C'⟩ := C'
      by_cases hlt : i < N
      · simp only [Called, hlt, if_true] at C'
        exact ⟨.notify i, _, by simp [step, hlt, C', hm]; rfl, ⟨rfl, hlt, hm⟩, by simp⟩
      · simp only [Called, hlt, if_false] at C'
        exact ⟨.wNotify (i - N), _, by simp [step, C']; rfl, ⟨by omega, hm⟩, by simp⟩
    · rename_i hm
      by_cases hlt : i < N
      · exact ⟨.resume i, _, by simp [step, hi', hm, hlt]; rfl, rfl, by simp⟩
      · exact ⟨.resume i, _, by simp [step, hi', hm, hlt]; rfl, rfl, by simp⟩
    · rename_i t ht; exact absurd ht (hc' t)
    · exact C'.elim

/-! ## The hypotheses are met -/

def wakeActs : List Act :=
  [.tryPop 0 true, .tryPop 0 true, .enter 0, .submit 1 1, .submit 1 1, .submit 1 1, .tryPush 0 true, .tryPush 0 true, .tryPush 0 true]

def wakeStart : St := (exec 2 9 (init 2) wakeActs).getD (init 2)

def woken : St := (step 2 9 wakeStart (.wakeQ 0)).getD wakeStart

def wokenActs : List Act := [.notify 0, .resume 0, .tryPop 0 true, .tryPop 0 true, .finish 0, .tryPop 0 true]

/-- Thread 0 of two is asleep, the other one's queue has three tasks. Woken, it takes one. -/
example : Reachable 2 9 wakeStart ∧ wakeStart.th 0 = .asleep ∧ Woken 2 wakeStart (.wakeQ 0) 0 ∧
    step 2 9 wakeStart (.wakeQ 0) = some woken ∧ (∃ s', exec 2 9 woken wokenActs = some s' ∧ Event.join ∉ s'.trace) ∧
    Lucky 2 9 0 1 woken wokenActs 5 ∧ 2 + 3 ≤ 5 := by
  refine ⟨⟨wakeActs, rfl⟩, by decide, .inl rfl, rfl, ⟨_, rfl, by decide⟩, ?_, by decide⟩
  exact ⟨by decide, by decide, _, 4, rfl, ⟨by decide, by decide, _, 3, rfl, ⟨by decide, by decide, _, 2, rfl, ⟨by decide, by decide, _, 1, rfl,
    ⟨by decide, by decide, _, 1, rfl, ⟨by decide, by decide, _, 0, rfl, ⟨by decide, rfl⟩, by decide⟩, by decide⟩, by decide⟩, by decide⟩,
    by decide⟩, by decide⟩

/-- The same with an added thread, before it has taken a task. -/
example : Woken 2 wakeStart .addThread 2 ∧ ∃ s1 s' , step 2 9 wakeStart .addThread = some s1 ∧
    exec 2 9 s1 [.tryPop 2 true] = some s' ∧ Lucky 2 9 2 1 s1 [.tryPop 2 true] 1 ∧ Event.join ∉ s'.trace ∧ s'.trace = s1.trace := by
  refine ⟨.inr (.inr ⟨rfl, rfl⟩), _, _, rfl, rfl, ?_, by decide, by decide⟩
  exact ⟨by decide, by decide, _, 0, rfl, ⟨by decide, rfl⟩, by decide⟩

end Verif.ThreadPool
