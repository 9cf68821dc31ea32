import Verif.LayersProps
import Mathlib.Data.List.Perm.Subperm

/-!
# Which thread calls the function of a future (C107)

A function of a future whose executor is the pool or a serial queue is called by a thread of the pool, which calls nothing else meanwhile.
-/

namespace Verif.Layers

variable {C : Cfg} {s s' : St}

structure Thr (C : Cfg) (s : St) : Prop where
  phn : ∀ i n, s.phase i = .node n → ∃ t, t < s.p.next ∧ s.p.th i = .calling t ∧ s.job t = .node n
  prun : ∀ n p, s.g.pc n = .running → C.exe n = .pool p → ∃ i, s.phase i = .node n

theorem Thr.submit (T : Thr C s) {prio i : Nat} {b : Job} (h : submit C s prio i b = .ok s') : Thr C s' := by
  obtain ⟨p, hp, rfl⟩ := submit_ok h
  obtain ⟨h1, h2, h3, h4⟩ := pool_submit hp
  refine ⟨fun k n hk => ?_, T.prun⟩
  obtain ⟨t, h5, h6, h7⟩ := T.phn k n hk
  exact ⟨t, by simp only [h1]; omega, by simp [h3, h6], by simp [upd, show t ≠ s.p.next by omega, h7]⟩

/-- The queues do not matter. -/
theorem Thr.serial (T : Thr C s) {j : Nat} {a : SerialQueue.Act} (h : serial C s j a = .ok s') : Thr C s' := by
  obtain ⟨q, -, rfl⟩ := serial_ok h
  exact ⟨T.phn, T.prun⟩

theorem Thr.over (T : Thr C s) {i j : Nat} (hi : s.phase i = .drain j) : Thr C { s with phase := upd s.phase i .over } := by
  refine ⟨fun k n hk => ?_, fun n p h1 h2 => ?_⟩
  · by_cases hki : k = i
    · subst hki; simp [upd] at hk
    · exact T.phn k n (by simpa [upd, hki] using hk)
  · obtain ⟨k, hk⟩ := T.prun n p h1 h2
    refine ⟨k, ?_⟩
    have : k ≠ i := fun h => by subst h; rw [hi] at hk; cases hk
    simpa [upd, this] using hk

/-- A packaged task of another executor is called. -/
theorem Thr.call (T : Thr C s) {n : Nat} (hn : ∀ p, C.exe n ≠ .pool p) (h : call s n = .ok s') : Thr C s' := by
  obtain ⟨g, hg, rfl⟩ := call_ok h
  obtain ⟨-, -, -, -, F5, -⟩ := run_frame hg
  refine ⟨T.phn, fun m p h1 h2 => T.prun m p (F5 m (fun h => ?_) h1) h2⟩
  subst h
  exact hn p h2

theorem Thr.step (T : Thr C s) (hC : C.Ok) (I : Inv C s) (a : Act) (h : step C s a = .ok s') : Thr C s' := by
  cases a with
  | graph a =>
    simp only [Layers.step] at h
    split at h
    · cases h
    · cases h
    · rename_i hr hd
      split at h <;> cases h
      rename_i g hg
      refine ⟨T.phn, fun n p h1 h2 => T.prun n p ((graph_frame hg n ?_).2.1 h1) h2⟩
      cases a <;> simp [calledBy] <;> first | exact (hr _ rfl).elim | exact (hd _ rfl).elim
  | give n i =>
    simp only [Layers.step] at h
    split at h
    · cases h
    · split at h
      · exact Thr.submit (s := { s with given := upd s.given n true }) ⟨T.phn, T.prun⟩ h
      · obtain ⟨s1, h1, h⟩ := bind_ok h
        cases h
        have := T.serial h1
        exact ⟨this.phn, this.prun⟩
      · rename_i he
        exact T.call (by simp [he]) h
  | kick j i =>
    obtain ⟨s1, h1, h⟩ := bind_ok h
    exact (T.serial h1).submit h
  | pool a =>
    simp only [Layers.step] at h
    split at h
    · rename_i hw
      split at h <;> cases h
      rename_i p hp
      obtain ⟨h1, h2, h3, -, -⟩ := pool_frame hw hp
      refine ⟨fun k n hk => ?_, T.prun⟩
      obtain ⟨t, h5, h6, h7⟩ := T.phn k n hk
      exact ⟨t, by simp only [h1]; exact h5, h3 k t (I.ph' k (by rw [show s.phase k = .node n from hk]; simp)).1 h6, h7⟩
    · cases h
  | begin i =>
    simp only [Layers.step] at h
    split at h
    · rename_i hi
      split at h
      · rename_i t ht
        split at h
        · cases h
        · rename_i hb
          have hidle : s.phase i = .idle := by
            refine Classical.byContradiction fun hp => ?_
            obtain ⟨-, u, hu, hub⟩ := I.ph' i hp
            rw [ht] at hu
            cases hu
            exact hb hub
          have hlt : t < s.p.next := by obtain ⟨k, hk⟩ := calling_start hC.N I.pr hi ht; exact started_lt hC.N I.pr hk
          split at h
          · rename_i n hj
            obtain ⟨s1, h1, h⟩ := bind_ok h
            obtain ⟨g, hg, rfl⟩ := call_ok h1
            cases h
            obtain ⟨-, -, -, -, F5, -⟩ := run_frame hg
            refine ⟨fun k m hk => ?_, fun m p h1 h2 => ?_⟩
            · by_cases hki : k = i
              · subst hki
                simp only [upd, if_true, Phase.node.injEq] at hk
                subst hk
                exact ⟨t, hlt, ht, hj⟩
              · exact T.phn k m (by simpa [upd, hki] using hk)
            · by_cases hmn : m = n
              · exact ⟨i, by simp [upd, hmn]⟩
              · obtain ⟨k, hk⟩ := T.prun m p (F5 m hmn h1) h2
                have : k ≠ i := fun h => by subst h; rw [hidle] at hk; cases hk
                exact ⟨k, by simpa [upd, this] using hk⟩
          · rename_i j hj
            obtain ⟨s1, h1, h⟩ := bind_ok h
            obtain ⟨q, -, rfl⟩ := serial_ok h1
            cases h
            refine ⟨fun k m hk => ?_, fun m p h1 h2 => ?_⟩
            · by_cases hki : k = i
              · subst hki; simp [upd] at hk
              · exact T.phn k m (by simpa [upd, hki] using hk)
            · obtain ⟨k, hk⟩ := T.prun m p h1 h2
              have : k ≠ i := fun h => by subst h; rw [hidle] at hk; cases hk
              exact ⟨k, by simpa [upd, this] using hk⟩
      · cases h
    · cases h
  | serve i k =>
    simp only [Layers.step] at h
    split at h
    · rename_i j hi
      simp only [serve] at h
      split at h
      · rename_i t ts hj
        obtain ⟨s1, h1, h⟩ := bind_ok h
        refine (T.serial h1).call (fun p hp => ?_) h
        have htn : t < (s.q j).next := by
          have J := (I.qr j).inv.order
          have h2 : t ∈ List.range (s.q j).next := by rw [← J, hj]; simp [SerialQueue.localTasks]
          simpa using h2
        obtain ⟨q, -, rfl⟩ := serial_ok h1
        rw [show C.exe (s.node j t) = _ from (I.qjob j t htn).2.1] at hp
        cases hp
      · split at h
        · cases h
        · exact T.serial h
      · obtain ⟨s1, h1, h⟩ := bind_ok h
        cases h
        have T1 := T.serial h1
        split
        · obtain ⟨q, -, rfl⟩ := serial_ok h1
          exact T1.over hi
        · exact T1
      · obtain ⟨s1, h1, h⟩ := bind_ok h
        obtain ⟨s2, h2, h⟩ := bind_ok h
        cases h
        have T2 := (T.serial h1).submit h2
        obtain ⟨q, -, rfl⟩ := serial_ok h1
        obtain ⟨p, -, rfl⟩ := submit_ok h2
        exact T2.over hi
      · exact T.serial h
    · cases h
  | finish i =>
    simp only [Layers.step] at h
    split at h
    · rename_i ho
      split at h <;> cases h
      rename_i p hp
      have hf : p.next = s.p.next ∧ p.th = ThreadPool.upd s.p.th i (.scan 0) := by
        simp only [ThreadPool.step] at hp
        repeat' split at hp
        all_goals cases hp
        exact ⟨rfl, rfl⟩
      refine ⟨fun k m hk => ?_, fun m pr h1 h2 => ?_⟩
      · by_cases hki : k = i
        · subst hki; simp [upd] at hk
        · obtain ⟨t, h5, h6, h7⟩ := T.phn k m (by simpa [upd, hki] using hk)
          exact ⟨t, by simp only [hf.1]; exact h5, by simp [hf.2, ThreadPool.upd, hki, h6], h7⟩
      · obtain ⟨k, hk⟩ := T.prun m pr h1 h2
        have : k ≠ i := fun h => by
          subst h
          simp [isOver, hk, show s.g.pc m = .running from h1] at ho
        exact ⟨k, by simpa [upd, this] using hk⟩
    · cases h

theorem Reachable.thr (hC : C.Ok) (h : Reachable C s) : Thr C s := by
  induction h with
  | init => exact ⟨by simp [Layers.init], by simp [Layers.init]⟩
  | step a hr h ih => exact ih.step hC (hr.inv hC) a h

/-- Thread `i` of the pool calls the function of node `n`: the task it took is the packaged task of `n`, or it serves the queue of `n` and is at `n`. -/
def CalledBy (C : Cfg) (s : St) (n i : Nat) : Prop :=
  i < s.p.nth ∧ ∃ t, t < s.p.next ∧ s.p.th i = .calling t ∧
    (s.job t = .node n ∨ ∃ j u us, C.exe n = .serial j ∧ s.phase i = .drain j ∧ (s.q j).jobs = [.calling u us] ∧ s.node j u = n)

/-- **C107**: the function of a future whose executor is not `immediate_executor` is called by a thread of the pool. -/
theorem c107_called_by (hC : C.Ok) (h : Reachable C s) {n : Nat} (hn : s.g.pc n = .running) (he : C.exe n ≠ .immediate) : ∃ i, CalledBy C s n i := by
  have I := h.inv hC
  have T := h.thr hC
  cases hx : C.exe n with
  | immediate => exact absurd hx he
  | pool p =>
    obtain ⟨i, hi⟩ := T.prun n p hn hx
    obtain ⟨t, h1, h2, h3⟩ := T.phn i n hi
    exact ⟨i, (I.ph' i (by simp [hi])).1, t, h1, h2, .inl h3⟩
  | serial j =>
    obtain ⟨u, us, h1, h2⟩ := I.run n j hn hx
    obtain ⟨i, hi⟩ := I.dr' j (by simp [h1])
    obtain ⟨h3, t, h4, h5⟩ := I.ph' i (by simp [hi])
    exact ⟨i, h3, t, I.begun_lt hC h5, h4, .inr ⟨j, u, us, hx, hi, h1, h2⟩⟩

/-- **C107**: and a thread calls one function at a time. -/
theorem c107_one_per_thread (hC : C.Ok) (h : Reachable C s) {n m i : Nat} (hn : CalledBy C s n i) (hm : CalledBy C s m i)
    (rn : s.g.pc n = .running) (rm : s.g.pc m = .running) : n = m := by
  have I := h.inv hC
  have T := h.thr hC
  obtain ⟨-, t, h1, h2, h3⟩ := hn
  obtain ⟨-, t', h1', h2', h3'⟩ := hm
  rw [h2] at h2'
  cases h2'
  -- a thread that serves a queue does not execute a packaged task of the pool
  have key : ∀ (n m : Nat), s.job t = .node n → s.g.pc n = .running → (∃ j u us, C.exe m = .serial j ∧ s.phase i = .drain j ∧ (s.q j).jobs = [.calling u us] ∧ s.node j u = m) → False := by
    rintro n m hj hr ⟨j, u, us, -, hd, -⟩
    obtain ⟨p, hp⟩ := (I.pjob t n h1 hj).2.1
    obtain ⟨k, hk⟩ := T.prun n p hr hp
    obtain ⟨t2, h4, h5, h6⟩ := T.phn k n hk
    have := I.pinj t t2 n h1 h4 hj h6
    subst this
    have hki := calling_unique hC.N I.pr (I.ph' i (by simp [hd])).1 h2 (I.ph' k (by simp [hk])).1 h5
    subst hki
    rw [hd] at hk
    cases hk
  rcases h3 with h3 | h3 <;> rcases h3' with h3' | h3'
  · rw [h3] at h3'
    cases h3'
    rfl
  · exact (key n m h3 rn h3').elim
  · exact (key m n h3' rm h3).elim
  · obtain ⟨j, u, us, -, hd, hc, hu⟩ := h3
    obtain ⟨j', u', us', -, hd', hc', hu'⟩ := h3'
    rw [hd] at hd'
    cases hd'
    rw [hc] at hc'
    cases hc'
    rw [← hu, ← hu']

/-- **C107**: hence no more of these functions are being called at the same time than the pool has threads. -/
theorem c107_threads (hC : C.Ok) (h : Reachable C s) {l : List Nat} (hl : l.Nodup)
    (hr : ∀ n ∈ l, s.g.pc n = .running ∧ C.exe n ≠ .immediate) : l.length ≤ s.p.nth := by
  have : ∀ l : List Nat, (∀ n ∈ l, s.g.pc n = .running ∧ C.exe n ≠ .immediate) → l.Nodup →
      ∃ is : List Nat, is.length = l.length ∧ is.Nodup ∧ ∀ i ∈ is, ∃ n ∈ l, CalledBy C s n i := by
    intro l
    induction l with
    | nil => intro _ _; exact ⟨[], rfl, List.nodup_nil, by simp⟩
    | cons n l ih =>
      intro hr hl
      obtain ⟨hn, hl⟩ := List.nodup_cons.1 hl
      obtain ⟨is, h1, h2, h3⟩ := ih (fun m hm => hr m (List.mem_cons_of_mem _ hm)) hl
      obtain ⟨i, hi⟩ := c107_called_by hC h (hr n (by simp)).1 (hr n (by simp)).2
      refine ⟨i :: is, by simp [h1], List.nodup_cons.2 ⟨fun hm => ?_, h2⟩, ?_⟩
      · obtain ⟨m, hml, hm⟩ := h3 i hm
        have := c107_one_per_thread hC h hi hm (hr n (by simp)).1 (hr m (List.mem_cons_of_mem _ hml)).1
        subst this
        exact hn hml
      · intro k hk
        rcases List.mem_cons.1 hk with rfl | hk
        · exact ⟨n, by simp, hi⟩
        · obtain ⟨m, hm, hc⟩ := h3 k hk
          exact ⟨m, List.mem_cons_of_mem _ hm, hc⟩
  obtain ⟨is, h1, h2, h3⟩ := this l hr hl
  have h4 := (List.subperm_of_subset h2 (l₂ := List.range s.p.nth) (fun i hi => by
    obtain ⟨n, -, hn⟩ := h3 i hi
    exact List.mem_range.2 hn.1)).length_le
  simpa [h1] using h4

/-- Two functions are being called, one by a thread of the pool for itself, one by the thread that serves the queue. -/
example : ∃ s, Reachable cfg s ∧ s.g.pc 1 = .running ∧ s.g.pc 4 = .running ∧ s.p.nth = 2 ∧ s.p.th 0 = .calling 1 ∧ s.p.th 1 = .calling 2 ∧
    s.job 1 = .drain 0 ∧ s.job 2 = .node 4 := by
  obtain ⟨s, h, hf⟩ := test_ok (o := exec cfg (init cfg) (first ++ [.graph (.async 4 4), .give 4 1, .pool (.tryPush 0 true), .pool (.notify 1),
      .pool (.resume 1), .begin 1]))
    (f := fun s => decide (s.g.pc 1 = .running ∧ s.g.pc 4 = .running ∧ s.p.nth = 2 ∧ s.p.th 0 = .calling 1 ∧ s.p.th 1 = .calling 2 ∧
      s.job 1 = .drain 0 ∧ s.job 2 = .node 4)) (by decide)
  exact ⟨s, exec_reachable .init h, by simpa using hf⟩

end Verif.Layers
