/-
Futures on the executors of the library: the invariant is preserved by the steps of serial queues, hence by all steps.
-/
import Verif.LayersInv

namespace Verif.Layers

variable {C : Cfg} {s s' : St}

/-- A step of a serial queue that changes neither the tasks submitted nor the tasks started nor the jobs given to the pool. -/
theorem Inv.quiet (I : Inv C s) {j : Nat} {q : SerialQueue.St} {a : SerialQueue.Act} (hq : SerialQueue.step (C.mode j) (s.q j) a = .ok q)
    (h1 : q.next = (s.q j).next) (h2 : q.pending = (s.q j).pending) (h3 : (s.q j).jobs ≠ []) (h4 : q.jobs ≠ [])
    (h5 : ∀ i, .start i ∈ q.trace ↔ .start i ∈ (s.q j).trace) (h6 : ∀ n, s.g.pc n = .running → C.exe n ≠ .serial j) :
    Inv C { s with q := upd s.q j q } := by
  have hqr := serial_snoc (I.qr j) hq
  obtain ⟨gr, pr, nj, qr, nodes, nodup, late, pjob, pinj, djob, qjob, qinj, gave, pend, fin, beg, ph, ph', dr, dr', dinj, run⟩ := I
  refine ⟨gr, pr, nj, ?_, nodes, nodup, late, pjob, pinj, djob, ?_, ?_, ?_, ?_, fin, beg, ph, ph', ?_, ?_, dinj, ?_⟩
  · grind
  · grind
  · grind
  · intro m hm hms
    rcases gave m hm hms with h7 | ⟨k, i, h7, h8, h9⟩
    · exact .inl h7
    · exact .inr ⟨k, i, by grind, h8, by grind⟩
  · intro k
    have := pend k
    show (upd s.q j q k).pending = waitingFor s k
    grind
  · grind
  · grind
  · intro m k hm hk
    obtain ⟨t, ts, h7, h8⟩ := run m k hm hk
    have hkj : k ≠ j := fun h => h6 m hm (h ▸ hk)
    exact ⟨t, ts, by simp [upd, hkj, h7], h8⟩

/-- The job of a serial queue calls its next task. -/
theorem Inv.serveCall (I : Inv C s) {j t : Nat} {ts : List Nat} {q : SerialQueue.St} {g : Graph.St} (hj : (s.q j).jobs = [.loop (t :: ts)])
    (hq : SerialQueue.step (C.mode j) (s.q j) (.advance 0) = .ok q) (h : Graph.step s.g (.run (s.node j t)) = .ok g) :
    Inv C { s with q := upd s.q j q, g := g } := by
  have hqr := serial_snoc (I.qr j) hq
  obtain ⟨F1, F2, F3, F4, F5, F6, F7, F8⟩ := run_frame h
  have hk : q.next = (s.q j).next ∧ q.trace = (s.q j).trace ++ [.start t] ∧ q.jobs = [.calling t ts] ∧ q.pending = (s.q j).pending := by
    simp only [SerialQueue.step, hj] at hq
    cases hq
    exact ⟨rfl, rfl, rfl, rfl⟩
  obtain ⟨hk1, hk2, hk3, hk4⟩ := hk
  have htn : t < (s.q j).next := by
    have J := (I.qr j).inv.order
    have h2 : t ∈ List.range (s.q j).next := by rw [← J, hj]; simp [SerialQueue.localTasks]
    simpa using h2
  have hstart : ∀ i, SerialQueue.Event.start i ∈ q.trace ↔ SerialQueue.Event.start i ∈ (s.q j).trace ∨ i = t := by
    intro i; rw [hk2]; simp
  obtain ⟨gr, pr, nj, qr, nodes, nodup, late, pjob, pinj, djob, qjob, qinj, gave, pend, fin, beg, ph, ph', dr, dr', dinj, run⟩ := I
  have hex := (qjob j t htn).2.1
  refine ⟨graph_snoc gr h, pr, nj, ?_, ?_, nodup, ?_, ?_, pinj, djob, ?_, ?_, ?_, ?_, fin, beg, ph, ph', ?_, ?_, dinj, ?_⟩
  · grind
  · intro m; rw [nodes m]; exact (F7 m).symm
  · intro m hm; exact F6 m (late m hm).1 (late m hm).2
  · intro u m hu hm
    obtain ⟨h1, ⟨pr', h2⟩, h3⟩ := pjob u m hu hm
    refine ⟨h1, ⟨pr', h2⟩, fun h4 => F4 m ?_ (h3 h4)⟩
    intro h5
    rw [h5, hex] at h2
    cases h2
  · intro k i hi
    by_cases hkj : k = j
    · subst hkj
      have hi' : i < (s.q k).next := by simpa [upd, hk1] using hi
      obtain ⟨h1, h2, h3⟩ := qjob k i hi'
      refine ⟨h1, h2, fun h4 => ?_⟩
      have h5 := mt (hstart i).2 (by simpa [upd] using h4)
      refine F4 _ (fun h6 => ?_) (h3 fun h => h5 (.inl h))
      exact h5 (.inr (qinj k i t hi' htn h6))
    · obtain ⟨h1, h2, h3⟩ := qjob k i (by simpa [upd, hkj] using hi)
      refine ⟨h1, h2, fun h4 => F4 _ (fun h6 => ?_) (h3 (by simpa [upd, hkj] using h4))⟩
      have : C.exe (s.node k i) = C.exe (s.node j t) := congrArg C.exe h6
      rw [h2, hex] at this
      cases this
      exact hkj rfl
  · grind
  · intro m hm hms
    have hmn : m ≠ s.node j t := fun h => F2 (h ▸ hms)
    have h1 : s.g.pc m = .sched := by
      rcases F8 m hms with h | h | h
      · exact h
      · exact absurd h (late m hm).2
      · exact absurd h (late m hm).1
    rcases gave m hm h1 with h7 | ⟨k, i, h7, h8, h9⟩
    · exact .inl h7
    · refine .inr ⟨k, i, by grind, h8, ?_⟩
      by_cases hkj : k = j
      · subst hkj
        simp only [upd, if_true]
        rw [hstart]
        rintro (h | h)
        · exact h9 h
        · subst h; exact hmn h8.symm
      · simpa [upd, hkj] using h9
  · intro k
    have := pend k
    show (upd s.q j q k).pending = waitingFor s k
    grind
  · grind
  · grind
  · intro m k hm hk
    by_cases hmn : m = s.node j t
    · subst hmn
      rw [hex] at hk
      cases hk
      exact ⟨t, ts, by simp [upd, hk3], rfl⟩
    · obtain ⟨t', ts', h7, h8⟩ := run m k (F5 m hmn hm) hk
      have hkj : k ≠ j := fun h => by subst h; rw [hj] at h7; cases h7
      exact ⟨t', ts', by simp [upd, hkj, h7], h8⟩

/-- The job of a serial queue ends. -/
theorem Inv.serveOver (I : Inv C s) {i j : Nat} {q : SerialQueue.St} {a : SerialQueue.Act} (hi : s.phase i = .drain j)
    (hq : SerialQueue.step (C.mode j) (s.q j) a = .ok q) (h1 : q.next = (s.q j).next) (h2 : q.pending = (s.q j).pending) (h4 : q.jobs = [])
    (h5 : q.trace = (s.q j).trace) (h6 : ∀ t ts, (s.q j).jobs ≠ [.calling t ts]) :
    Inv C { s with q := upd s.q j q, phase := upd s.phase i .over } := by
  have hqr := serial_snoc (I.qr j) hq
  obtain ⟨gr, pr, nj, qr, nodes, nodup, late, pjob, pinj, djob, qjob, qinj, gave, pend, fin, beg, ph, ph', dr, dr', dinj, run⟩ := I
  refine ⟨gr, pr, nj, ?_, nodes, nodup, late, pjob, pinj, djob, ?_, ?_, ?_, ?_, fin, beg, ?_, ?_, ?_, ?_, ?_, ?_⟩
  · grind
  · grind
  · grind
  · intro m hm hms
    rcases gave m hm hms with h7 | ⟨k, i, h7, h8, h9⟩
    · exact .inl h7
    · exact .inr ⟨k, i, by grind, h8, by grind⟩
  · intro k
    have := pend k
    show (upd s.q j q k).pending = waitingFor s k
    grind
  · grind
  · grind
  · grind
  · intro k hk
    by_cases hkj : k = j
    · subst hkj; simp [upd, h4] at hk
    · obtain ⟨i', hi'⟩ := dr' k (by simpa [upd, hkj] using hk)
      refine ⟨i', ?_⟩
      have : i' ≠ i := fun h => by subst h; rw [hi] at hi'; cases hi'; exact hkj rfl
      simp [upd, this, hi']
  · grind
  · intro m k hm hk
    obtain ⟨t, ts, h7, h8⟩ := run m k hm hk
    have hkj : k ≠ j := fun h => by subst h; exact h6 t ts h7
    exact ⟨t, ts, by simp [upd, hkj, h7], h8⟩

/-- The job of a serial queue ends and gives the pool another one. -/
theorem Inv.serveAgain (I : Inv C s) (hC : C.Ok) {i j k : Nat} {q : SerialQueue.St} {p : ThreadPool.St} (hi : s.phase i = .drain j)
    (hjobs : (s.q j).jobs = [.resubmit])
    (hq : SerialQueue.step (C.mode j) (s.q j) (.advance 0) = .ok q) (hp : ThreadPool.step C.N C.limit s.p (.submit 1 k) = some p) :
    Inv C { s with q := upd s.q j q, p := p, job := upd s.job s.p.next (.drain j), begun := upd s.begun s.p.next false,
                   phase := upd s.phase i .over } := by
  obtain ⟨h1, h2, h3, h4⟩ := pool_submit hp
  have hqr := serial_snoc (I.qr j) hq
  have hk : q.next = (s.q j).next ∧ q.trace = (s.q j).trace ∧ q.jobs = [] ∧ q.pending = (s.q j).pending + 1 := by
    simp only [SerialQueue.step, hjobs] at hq
    cases hq
    exact ⟨rfl, rfl, rfl, rfl⟩
  obtain ⟨hk1, hk2, hk3, hk4⟩ := hk
  have hj : j < C.M := by
    have J := (I.qr j).inv
    have hn : 0 < (s.q j).next := by
      have := J.order
      cases J.token with
      | idle _ _ _ _ h => rw [hjobs] at h; cases h
      | kick _ _ _ _ h => rw [hjobs] at h; cases h
      | pending _ _ _ _ h => rw [hjobs] at h; cases h
      | job pc _ _ _ h h' =>
        rw [hjobs] at h
        cases h
        have hl := congrArg List.length this
        simp only [List.length_append, List.length_range] at hl
        have := List.length_pos_iff.2 (h' (.inr rfl))
        omega
    exact hC.serial _ j (I.qjob j 0 hn).2.1
  have hw := fun k => waitingFor_submit (s := { s with q := upd s.q j q }) (b := .drain j) h1 k
  have hw0 : ∀ k, waitingFor { s with q := upd s.q j q } k = waitingFor s k := fun k => rfl
  have hbl := fun t => I.begun_lt hC (t := t)
  obtain ⟨gr, pr, nj, qr, nodes, nodup, late, pjob, pinj, djob, qjob, qinj, gave, pend, fin, beg, ph, ph', dr, dr', dinj, run⟩ := I
  refine ⟨gr, pool_snoc pr hp, ?_, ?_, nodes, nodup, late, ?_, ?_, ?_, ?_, ?_, ?_, ?_, ?_, ?_, ?_, ?_, ?_, ?_, ?_, ?_⟩
  · simp [h4, nj]
  · grind
  · grind
  · grind
  · grind
  · grind
  · grind
  · intro m hm hms
    rcases gave m hm hms with ⟨t, h5, h6, h7⟩ | ⟨k, i', h5, h6, h7⟩
    · exact .inl ⟨t, by simp only [h1]; omega, by simp [upd, show t ≠ s.p.next by omega, h6], by simp [upd, show t ≠ s.p.next by omega, h7]⟩
    · exact .inr ⟨k, i', by grind, h6, by grind⟩
  · intro k
    have h5 := hw k
    rw [hw0] at h5
    have := pend k
    show (upd s.q j q k).pending = waitingFor { s with q := upd s.q j q, p := p, job := upd s.job s.p.next (.drain j), begun := upd s.begun s.p.next false } k
    rw [h5]
    grind
  · grind
  · grind
  · grind
  · grind
  · grind
  · intro k hk
    by_cases hkj : k = j
    · subst hkj; simp [upd, hk3] at hk
    · obtain ⟨i', hi'⟩ := dr' k (by simpa [upd, hkj] using hk)
      refine ⟨i', ?_⟩
      have : i' ≠ i := fun h => by subst h; rw [hi] at hi'; cases hi'; exact hkj rfl
      simp [upd, this, hi']
  · grind
  · intro m k hm hk
    obtain ⟨t, ts, h7, h8⟩ := run m k hm hk
    have hkj : k ≠ j := fun h => by subst h; rw [hjobs] at h7; cases h7
    exact ⟨t, ts, by simp [upd, hkj, h7], h8⟩

theorem Inv.none_running (I : Inv C s) {j : Nat} (h : ∀ t ts, (s.q j).jobs = [.calling t ts] → s.g.pc (s.node j t) ≠ .running) :
    ∀ n, s.g.pc n = .running → C.exe n ≠ .serial j := by
  intro n hn he
  obtain ⟨t, ts, h1, h2⟩ := I.run n j hn he
  exact h t ts h1 (h2 ▸ hn)

theorem Inv.one_job (I : Inv C s) {i j : Nat} (hi : s.phase i = .drain j) : ∃ pc, (s.q j).jobs = [pc] := by
  have h1 := SerialQueue.c22_one_job (I.qr j)
  have h2 := I.dr i j hi
  cases hj : (s.q j).jobs with
  | nil => exact absurd hj h2
  | cons pc l =>
    cases l with
    | nil => exact ⟨pc, rfl⟩
    | cons a l => rw [hj] at h1; simp at h1; omega

theorem Inv.serve (I : Inv C s) (hC : C.Ok) {i j k : Nat} (hi : s.phase i = .drain j) (h : serve C s i j k = .ok s') : Inv C s' := by
  obtain ⟨pc, hj⟩ := I.one_job hi
  simp only [Layers.serve, hj] at h
  cases pc with
  | begin =>
    obtain ⟨q, hq, rfl⟩ := serial_ok h
    have hn := I.none_running (j := j) (by rw [hj]; simp)
    have hk : q.next = (s.q j).next ∧ q.trace = (s.q j).trace ∧ q.jobs ≠ [] ∧ q.pending = (s.q j).pending := by
      simp only [SerialQueue.step, hj] at hq
      simp only [List.getElem?_cons_zero, List.set_cons_zero] at hq
      split at hq <;> cases hq
      exact ⟨rfl, rfl, by simp, rfl⟩
    exact I.quiet hq hk.1 hk.2.2.2 (by simp [hj]) hk.2.2.1 (by simp [hk.2.1]) hn
  | loop ts =>
    cases ts with
    | nil =>
      obtain ⟨s1, h1, h⟩ := bind_ok h
      obtain ⟨q, hq, rfl⟩ := serial_ok h1
      have hn := I.none_running (j := j) (by rw [hj]; simp)
      have hk : q.next = (s.q j).next ∧ q.trace = (s.q j).trace ∧ q.pending = (s.q j).pending := by
        simp only [SerialQueue.step, hj, List.getElem?_cons_zero] at hq
        split at hq <;> cases hq <;> exact ⟨rfl, rfl, rfl⟩
      cases h
      by_cases hz : q.jobs = []
      · simp only [upd, if_true, hz]
        exact I.serveOver hi hq hk.1 hk.2.2 hz hk.2.1 (by simp [hj])
      · simp only [upd, if_true, hz, if_false]
        exact I.quiet hq hk.1 hk.2.2 (by simp [hj]) hz (by simp [hk.2.1]) hn
    | cons t ts =>
      obtain ⟨s1, h1, h⟩ := bind_ok h
      obtain ⟨q, hq, rfl⟩ := serial_ok h1
      obtain ⟨g, hg, rfl⟩ := call_ok h
      exact I.serveCall hj hq hg
  | calling t ts =>
    simp only at h
    split at h
    · cases h
    · rename_i hr
      obtain ⟨q, hq, rfl⟩ := serial_ok h
      have hn := I.none_running (j := j) (by rw [hj]; rintro _ _ h; cases h; exact hr)
      have hk : q.next = (s.q j).next ∧ (∀ i, .start i ∈ q.trace ↔ .start i ∈ (s.q j).trace) ∧ q.jobs ≠ [] ∧ q.pending = (s.q j).pending := by
        simp only [SerialQueue.step, hj] at hq
        cases hq
        exact ⟨rfl, by simp, by simp, rfl⟩
      exact I.quiet hq hk.1 hk.2.2.2 (by simp [hj]) hk.2.2.1 hk.2.1 hn
  | resubmit =>
    obtain ⟨s1, h1, h⟩ := bind_ok h
    obtain ⟨q, hq, rfl⟩ := serial_ok h1
    obtain ⟨s2, h2, h⟩ := bind_ok h
    obtain ⟨p, hp, rfl⟩ := submit_ok h2
    cases h
    exact I.serveAgain hC hi hj hq hp

theorem Inv.step (I : Inv C s) (hC : C.Ok) (a : Act) (h : step C s a = .ok s') : Inv C s' := by
  cases a with
  | graph a => exact I.graph h
  | give n i =>
    simp only [Layers.step] at h
    split at h
    · cases h
    · rename_i hn
      simp only [not_or, Decidable.not_not, Bool.not_eq_true] at hn
      split at h
      · exact I.givePool hC hn.1 hn.2 ‹_› h
      · obtain ⟨s1, h1, h⟩ := bind_ok h
        obtain ⟨q, hq, rfl⟩ := serial_ok h1
        cases h
        exact I.giveSerial hn.1 hn.2 ‹_› hq
      · obtain ⟨g, hg, rfl⟩ := call_ok h
        exact I.giveImmediate hn.2 ‹_› hg
  | kick j i => exact I.kick hC h
  | pool a =>
    simp only [Layers.step] at h
    split at h
    · split at h <;> cases h
      exact I.pool hC ‹_› ‹_›
    · cases h
  | begin i =>
    simp only [Layers.step] at h
    split at h
    · rename_i hi
      split at h
      · rename_i t ht
        split at h
        · cases h
        · rename_i hb
          split at h
          · obtain ⟨s1, h1, h⟩ := bind_ok h
            obtain ⟨g, hg, rfl⟩ := call_ok h1
            cases h
            exact I.beginNode hC hi ht (by simpa using hb) ‹_› hg
          · obtain ⟨s1, h1, h⟩ := bind_ok h
            obtain ⟨q, hq, rfl⟩ := serial_ok h1
            cases h
            exact I.beginDrain hC hi ht (by simpa using hb) ‹_› hq
      · cases h
    · cases h
  | serve i k =>
    simp only [Layers.step] at h
    split at h
    · exact I.serve hC ‹_› h
    · cases h
  | finish i =>
    simp only [Layers.step] at h
    split at h
    · rename_i ho
      split at h <;> cases h
      refine I.finish hC (fun h => ?_) (fun j h => ?_) ‹_› <;> simp [isOver, h] at ho
    · cases h

theorem Reachable.inv (hC : C.Ok) (h : Reachable C s) : Inv C s := by
  induction h with
  | init => exact Inv.init
  | step a _ h ih => exact ih.step hC a h

end Verif.Layers
