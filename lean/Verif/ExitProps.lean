import Verif.Exit

/-!
# The end of the program with the portable task system: properties (C76)
-/

namespace Verif.Exit

open ThreadPool (AllExited Early)

/-! ## Steps -/

/-- A step of the pool adds at most one event. -/
theorem pool_trace {N limit : Nat} {p p' : ThreadPool.St} {a : ThreadPool.Act} (h : ThreadPool.step N limit p a = some p') :
    ∃ es, p'.trace = p.trace ++ es ∧ es.length ≤ 1 := by
  cases a <;> simp only [ThreadPool.step, ThreadPool.evalPop, ThreadPool.evalWait, ThreadPool.pushTo] at h <;>
    (repeat' split at h) <;> first
      | (simp at h; done)
      | (simp only [Option.some.injEq] at h; subst h
         first | exact ⟨[], (List.append_nil _).symm, Nat.zero_le _⟩ | exact ⟨_, rfl, Nat.le_refl _⟩)

/-- A step of the timer adds at most one event. -/
theorem timer_trace {p p' : Timer.St} {a : Timer.Act} (h : Timer.step p a = .ok p') :
    ∃ es, p'.trace = p.trace ++ es ∧ es.length ≤ 1 := by
  cases a <;> simp only [Timer.step, Timer.evalEmpty, Timer.evalUntil] at h <;>
    (repeat' split at h) <;> first
      | (simp at h; done)
      | (simp only [Timer.Out.ok.injEq] at h; subst h
         first | exact ⟨[], (List.append_nil _).symm, Nat.zero_le _⟩ | exact ⟨_, rfl, Nat.le_refl _⟩)

/-- The event of the pool, if it is one. -/
def poolEv : Event → Option ThreadPool.Event
  | .pool e => some e
  | _ => none

theorem filterMap_pool (l : List ThreadPool.Event) : (l.map Event.pool).filterMap poolEv = l := by
  induction l with
  | nil => rfl
  | cons a l ih => simp [poolEv, ih]

theorem filterMap_timer (l : List Timer.Event) : (l.map Event.timer).filterMap poolEv = [] := by
  induction l with
  | nil => rfl
  | cons a l ih => simp [poolEv, ih]

/-- The pool after all threads have ended. -/
theorem exited_step {N limit : Nat} {p p' : ThreadPool.St} {a : ThreadPool.Act} (hj : p.joining = true) (hx : AllExited p)
    (hn : N ≤ p.nth) (h : ThreadPool.step N limit p a = some p') :
    p'.joining = true ∧ AllExited p' ∧ ∀ i t, ThreadPool.Event.start i t ∉ p'.trace.drop p.trace.length := by
  have e : ∀ i, i < p.nth → p.th i = .exited := hx
  cases a with
  | tryPop i l =>
    simp only [ThreadPool.step] at h
    split at h
    · rename_i hi; rw [e i hi] at h; simp at h
    · simp at h
  | enter i =>
    simp only [ThreadPool.step] at h
    split at h
    · rename_i hi; rw [e i hi.1] at hi; simp at hi
    · simp at h
  | spurious i =>
    simp only [ThreadPool.step] at h
    split at h
    · rename_i hi; rw [e i hi.1] at hi; simp at hi
    · simp at h
  | resume i =>
    simp only [ThreadPool.step] at h
    split at h
    · rename_i hi; rw [e i hi.1] at hi; simp at hi
    · simp at h
  | finish i =>
    simp only [ThreadPool.step] at h
    split at h
    · rename_i hi; rw [e i hi] at h; simp at h
    · simp at h
  | addThread => simp [ThreadPool.step, hj] at h
  | notify k =>
    simp only [ThreadPool.step] at h
    split at h
    · rename_i hk
      simp only [Option.some.injEq] at h; subst h
      refine ⟨hj, fun i hi => ?_, by simp⟩
      have := e k (by omega)
      simp only [this, reduceCtorEq, if_false]
      exact e i hi
    · simp at h
  | wNotify j =>
    simp only [ThreadPool.step] at h
    split at h
    · simp only [Option.some.injEq] at h; subst h
      refine ⟨hj, fun i hi => ?_, by simp⟩
      simp only
      split
      · rename_i hs
        simp only [ThreadPool.upd]
        split
        · subst_vars
          rw [e _ hi] at hs; simp at hs
        · exact e i hi
      · exact e i hi
    · simp at h
  | _ =>
    simp only [ThreadPool.step, ThreadPool.pushTo] at h
    repeat' split at h
    all_goals first | (simp at h; done) | skip
    all_goals
      simp only [Option.some.injEq] at h; subst h
      refine ⟨by first | exact hj | rfl, fun i hi => e i hi, ?_⟩
      simp

/-! ## Invariant -/

/-- How often the handler that joins the pool is on the stack. -/
def onStack (s : St) : Nat := (s.pre.stack.map Prod.snd).count .join

structure Inv (N limit : Nat) (s : St) : Prop where
  pool : ∀ p, s.pool = some p → ThreadPool.Reachable N limit p ∧ p.trace = s.trace.filterMap poolEv
  none : s.pool = none → s.trace.filterMap poolEv = []
  cur : s.cur = .none ∨ s.pre.phase = .inHandler
  jn : onStack s + (if Event.run .join ∈ s.trace then 1 else 0) = if s.pool.isSome then 1 else 0
  cw : s.cur = some .join → Event.run .join ∈ s.trace
  rc : Event.ret ∈ s.trace ↔ s.pre.closed = true
  cs : s.pre.closed = true → s.pre.stack = [] ∧ s.cur = .none
  join : ∀ p, s.pool = some p → p.joining = true → Event.run .join ∈ s.trace
  order : ∀ c d, s.trace = c ++ .run .join :: d → Event.pool .join ∉ c
  cl : s.cleared = true → ∃ p, s.pool = some p ∧ p.joining = true ∧ AllExited p
  done : Event.run .join ∈ s.trace → s.cur ≠ some .join → s.cleared = true

theorem inv_init {N limit : Nat} : Inv N limit {} := by
  constructor <;> simp [onStack]

theorem register_ok {s s' : St} {h : Handler} (hs : register s h = .ok s') :
    s.pre.closed = false ∧ s' = { s with
      pre := { s.pre with stack := (s.pre.next, h) :: s.pre.stack, next := s.pre.next + 1,
                          trace := s.pre.trace ++ [.reg s.pre.next h] } } := by
  simp only [register, PreExit.push] at hs
  split at hs
  · simp at hs
  · rename_i p hp
    split at hp
    · simp at hp
    · rename_i hc
      simp only [Option.some.injEq] at hp
      subst hp
      simp only [Out.ok.injEq] at hs
      exact ⟨by simpa using hc, hs.symm⟩

theorem split_append {tr a b : List Event} {x e : Event} (h : tr ++ [e] = a ++ x :: b) :
    (a = tr ∧ x = e ∧ b = []) ∨ ∃ b', b = b' ++ [e] ∧ tr = a ++ x :: b' := by
  rcases List.eq_nil_or_concat b with rfl | ⟨b', y, rfl⟩
  · have := List.append_inj' h rfl
    simp only [List.cons.injEq, and_true] at this
    exact .inl ⟨this.1.symm, this.2.symm, rfl⟩
  · right
    rw [List.concat_eq_append] at h ⊢
    rw [← List.cons_append, ← List.append_assoc] at h
    have := List.append_inj' h rfl
    simp only [List.cons.injEq, and_true] at this
    exact ⟨b', by rw [this.2], this.1⟩

/-- Events that are not calls of the handler. -/
theorem order_append {tr es : List Event} (hl : es.length ≤ 1) (hn : Event.run .join ∉ es)
    (h : ∀ c d, tr = c ++ .run .join :: d → Event.pool .join ∉ c) (c d : List Event) (ht : tr ++ es = c ++ .run .join :: d) :
    Event.pool .join ∉ c := by
  match es, hl with
  | [], _ => exact h c d (by simpa using ht)
  | [e], _ =>
    rcases split_append ht with ⟨-, rfl, -⟩ | ⟨b', -, htr⟩
    · simp at hn
    · exact h c b' htr

theorem reach_step {N limit : Nat} {p p' : ThreadPool.St} {a : ThreadPool.Act} (h : ThreadPool.Reachable N limit p)
    (hs : ThreadPool.step N limit p a = some p') : ThreadPool.Reachable N limit p' := by
  obtain ⟨as, h⟩ := h
  refine ⟨as ++ [a], ?_⟩
  have : ∀ (as : List ThreadPool.Act) (s : ThreadPool.St), ThreadPool.exec N limit s as = some p →
      ThreadPool.exec N limit s (as ++ [a]) = some p' := by
    intro as
    induction as with
    | nil => intro s hs'; simp only [ThreadPool.exec, Option.some.injEq] at hs'; subst hs'; simp [ThreadPool.exec, hs]
    | cons b as ih =>
      intro s hs'
      simp only [ThreadPool.exec, List.cons_append] at hs' ⊢
      split at hs'
      · simp at hs'
      · exact ih _ hs'
  exact this as _ h

/-- Only `join` itself makes the pool join. -/
theorem joining_step {N limit : Nat} {p p' : ThreadPool.St} {a : ThreadPool.Act} (h : ThreadPool.step N limit p a = some p')
    (hj : p'.joining = true) : p.joining = true ∨ a = .join := by
  cases a <;> simp only [ThreadPool.step, ThreadPool.evalPop, ThreadPool.evalWait, ThreadPool.pushTo] at h <;>
    (repeat' split at h) <;> first
      | (simp at h; done)
      | (simp only [Option.some.injEq] at h; subst h
         first | exact .inl hj | exact .inr rfl)

theorem Inv.step {N limit : Nat} (hN : 0 < N) {s s' : St} {a : Act} (h : Inv N limit s) (hs : step N limit s a = .ok s') :
    Inv N limit s' := by
  obtain ⟨h1, h2, h3, h4, h5, h6, h7, h8, h9, h10, h11⟩ := h
  cases a with
  | atPreExit n =>
    obtain ⟨hc, rfl⟩ := register_ok hs
    refine ⟨h1, h2, h3, ?_, h5, h6, fun hcl => ?_, h8, h9, h10, h11⟩
    · simp only [onStack, List.map_cons, List.count_cons] at h4 ⊢
      simpa using h4
    · rw [show s.pre.closed = true from hcl] at hc; simp at hc
  | callPreExit =>
    simp only [Exit.step, PreExit.step] at hs
    split at hs
    · simp at hs
    · rename_i q hq
      simp only [Out.ok.injEq] at hs; subst hs
      have hcn : s.cur = .none := by
        rcases h3 with h | h
        · exact h
        · rw [h] at hq; simp at hq
      have hq' : q = { s.pre with phase := .inLoop } := by
        revert hq
        split <;> simp <;> intro e <;> exact e.symm
      subst hq'
      exact ⟨h1, h2, .inl hcn, h4, h5, h6, h7, h8, h9, h10, h11⟩
  | pop =>
    simp only [Exit.step, pop, PreExit.pop] at hs
    split at hs
    · rename_i hph
      have hcn : s.cur = .none := by
        rcases h3 with h1 | h1
        · exact h1
        · rw [h1] at hph; simp at hph
      cases hst : s.pre.stack with
      | nil =>
        simp only [hst] at hs
        split at hs
        · simp at hs
        · rename_i p hp
          split at hp
          · simp at hp
          · simp only [Option.some.injEq] at hp
            subst hp
            simp only [Out.ok.injEq] at hs; subst hs
            refine ⟨?_, ?_, .inl hcn, ?_, by simp [hcn], by simp, fun _ => ⟨rfl, hcn⟩, ?_, ?_, h10, ?_⟩
            · intro p hp
              obtain ⟨ha, hb⟩ := h1 p hp
              exact ⟨ha, by rw [hb]; simp [poolEv]⟩
            · intro hp; simp [h2 hp, poolEv]
            · simp only [onStack, hst, List.mem_append, List.mem_singleton, reduceCtorEq, or_false] at h4 ⊢
              exact h4
            · intro p hp hj; exact List.mem_append_left _ (h8 p hp hj)
            · exact order_append (by simp) (by simp) h9
            · simp only [List.mem_append, List.mem_singleton, reduceCtorEq, or_false]; exact h11
      | cons e l =>
        obtain ⟨m, x⟩ := e
        simp only [hst, Out.ok.injEq] at hs
        subst hs
        simp only [onStack, hst, List.map_cons, List.count_cons] at h4
        have hle : (if s.pool.isSome = true then 1 else 0) ≤ 1 := by split <;> omega
        refine ⟨?_, ?_, .inr rfl, ?_, ?_, ?_, ?_, ?_, ?_, h10, ?_⟩
        · intro p hp
          obtain ⟨ha, hb⟩ := h1 p hp
          exact ⟨ha, by rw [hb]; simp [poolEv]⟩
        · intro hp; simp [h2 hp, poolEv]
        · simp only [onStack, List.mem_append, List.mem_singleton, Event.run.injEq]
          by_cases hx : x = .join
          · subst hx
            simp only [beq_self_eq_true, if_true, or_true] at h4 ⊢
            split at h4 <;> omega
          · simp only [beq_iff_eq, hx, if_false, Ne.symm hx, or_false] at h4 ⊢
            exact h4
        · intro hw
          simp only [Option.some.injEq] at hw
          simp [hw]
        · simp only [List.mem_append, List.mem_singleton, reduceCtorEq, or_false]; exact h6
        · intro hcl
          have := (h7 hcl).1
          rw [hst] at this; simp at this
        · intro p hp hj; exact List.mem_append_left _ (h8 p hp hj)
        · intro c d ht
          rcases split_append ht with ⟨rfl, hx, -⟩ | ⟨b', -, htr⟩
          · simp only [Event.run.injEq] at hx
            subst hx
            simp only [beq_self_eq_true, if_true] at h4
            intro hm
            have hne : s.pool ≠ .none := by
              intro hp
              have := h2 hp
              rw [List.filterMap_eq_nil_iff] at this
              have := this _ hm
              simp [poolEv] at this
            obtain ⟨p, hp⟩ := Option.ne_none_iff_exists'.1 hne
            obtain ⟨ha, hb⟩ := h1 p hp
            have hjm : ThreadPool.Event.join ∈ p.trace := by
              rw [hb, List.mem_filterMap]; exact ⟨_, hm, rfl⟩
            have hjo : p.joining = true := by
              cases hjo : p.joining with
              | true => rfl
              | false => exact absurd hjm ((ha.inv hN).shut.idle hjo).2.2.2
            rw [if_pos (h8 p hp hjo)] at h4
            omega
          · exact h9 c b' htr
        · intro hw hc
          simp only [List.mem_append, List.mem_singleton, Event.run.injEq] at hw
          have hx : x ≠ .join := by rintro rfl; exact hc rfl
          exact h11 (hw.resolve_right (Ne.symm hx)) (by rw [hcn]; simp)
    · simp at hs
  | handlerReturns =>
    simp only [Exit.step, handlerReturns, PreExit.step] at hs
    split at hs
    · simp at hs
    · rename_i q hq
      split at hq
      · simp only [Option.some.injEq] at hq
        subst hq
        split at hs
        · rename_i hcur
          split at hs
          · simp at hs
          · rename_i p hp
            split at hs
            · rename_i hjx
              simp only [Out.ok.injEq] at hs; subst hs
              exact ⟨h1, h2, .inl rfl, h4, by simp, h6, fun hc => ⟨(h7 hc).1, rfl⟩, h8, h9, fun _ => ⟨p, hp, hjx⟩, fun _ _ => rfl⟩
            · simp at hs
        · rename_i hn
          simp only [Out.ok.injEq] at hs; subst hs
          exact ⟨h1, h2, .inl rfl, h4, by simp, h6, fun hc => ⟨(h7 hc).1, rfl⟩, h8, h9, h10, fun hw _ => h11 hw hn⟩
      · simp at hq
  | makePool =>
    simp only [Exit.step] at hs
    split at hs
    · rename_i hp
      obtain ⟨hc, rfl⟩ := register_ok hs
      simp only [hp, Option.isSome_none, Bool.false_eq_true, if_false] at h4
      have hnr : Event.run .join ∉ s.trace := by
        intro hm; rw [if_pos hm] at h4; omega
      refine ⟨?_, by simp, h3, ?_, h5, h6, ?_, ?_, h9, ?_, h11⟩
      · intro p hp'
        simp only [Option.some.injEq] at hp'
        subst hp'
        exact ⟨⟨[], rfl⟩, by rw [h2 hp]; rfl⟩
      · simp only [onStack, List.map_cons, List.count_cons, beq_self_eq_true, if_true, Option.isSome_some] at h4 ⊢
        omega
      · intro hcl
        rw [show s.pre.closed = true from hcl] at hc; simp at hc
      · intro p hp' hj
        simp only [Option.some.injEq] at hp'
        subst hp'
        simp [ThreadPool.init] at hj
      · intro hcl
        obtain ⟨p, hp', -⟩ := h10 hcl
        rw [hp] at hp'; simp at hp'
    · simp at hs
  | pool a =>
    simp only [Exit.step, poolStep] at hs
    split at hs
    · simp at hs
    · rename_i p hp
      split at hs
      · simp at hs
      · rename_i hoj
        split at hs
        · simp at hs
        · split at hs
          · simp at hs
          · rename_i p' hp'
            simp only [Out.ok.injEq] at hs; subst hs
            obtain ⟨es, he, hl⟩ := pool_trace hp'
            obtain ⟨hr, ht⟩ := h1 p hp
            have hdrop : p'.trace.drop p.trace.length = es := by rw [he]; simp
            rw [hdrop]
            have hnr : Event.run .join ∉ es.map Event.pool := by simp
            refine ⟨?_, by simp, h3, ?_, ?_, ?_, h7, ?_, ?_, ?_, ?_⟩
            · intro p2 hp2
              simp only [Option.some.injEq] at hp2
              subst hp2
              refine ⟨reach_step hr hp', ?_⟩
              simp only [List.filterMap_append, filterMap_pool, he, ht]
            · simp only [onStack, hp, Option.isSome_some] at h4 ⊢
              simp only [List.mem_append, hnr, or_false]
              exact h4
            · intro hc; exact List.mem_append_left _ (h5 hc)
            · simp only [List.mem_append]
              have : Event.ret ∉ es.map Event.pool := by simp
              simp only [this, or_false]; exact h6
            · intro p2 hp2 hj
              simp only [Option.some.injEq] at hp2
              subst hp2
              refine List.mem_append_left _ ?_
              rcases joining_step hp' hj with hj | rfl
              · exact h8 p hp hj
              · simp only [ofJoin, Bool.true_and, bne_iff_ne, ne_eq, Decidable.not_not] at hoj
                exact h5 hoj
            · exact order_append (by simpa using hl) hnr h9
            · intro hcl
              obtain ⟨p2, hp2, hj, hx⟩ := h10 hcl
              rw [hp] at hp2
              simp only [Option.some.injEq] at hp2
              subst hp2
              obtain ⟨ha, hb, -⟩ := exited_step hj hx (hr.inv hN).counts.nth hp'
              exact ⟨p', rfl, ha, hb⟩
            · intro hw hc
              simp only [List.mem_append, hnr, or_false] at hw
              exact h11 hw hc
  | makeTimer =>
    simp only [Exit.step] at hs
    split at hs
    · simp only [Out.ok.injEq] at hs; subst hs
      exact ⟨h1, h2, h3, h4, h5, h6, h7, h8, h9, h10, h11⟩
    · simp at hs
  | timer a =>
    simp only [Exit.step, timerStep] at hs
    split at hs
    · simp at hs
    · rename_i t ht
      split at hs
      · simp at hs
      · split at hs
        · simp at hs
        · simp at hs
        · rename_i t' ht'
          simp only [Out.ok.injEq] at hs; subst hs
          obtain ⟨es, he, hl⟩ := timer_trace ht'
          have hdrop : t'.trace.drop t.trace.length = es := by rw [he]; simp
          rw [hdrop]
          have hnr : Event.run .join ∉ es.map Event.timer := by simp
          have hnt : Event.ret ∉ es.map Event.timer := by simp
          refine ⟨?_, ?_, h3, ?_, ?_, ?_, h7, ?_, ?_, h10, ?_⟩
          · intro p hp
            obtain ⟨ha, hb⟩ := h1 p hp
            exact ⟨ha, by rw [hb, List.filterMap_append, filterMap_timer, List.append_nil]⟩
          · intro hp; rw [List.filterMap_append, filterMap_timer, h2 hp]; rfl
          · simp only [onStack, List.mem_append, hnr, or_false] at h4 ⊢
            exact h4
          · intro hc; exact List.mem_append_left _ (h5 hc)
          · simp only [List.mem_append, hnt, or_false]; exact h6
          · intro p hp hj; exact List.mem_append_left _ (h8 p hp hj)
          · exact order_append (by simpa using hl) hnr h9
          · intro hw hc
            simp only [List.mem_append, hnr, or_false] at hw
            exact h11 hw hc

theorem Reachable.inv {N limit : Nat} (hN : 0 < N) {s : St} (h : Reachable N limit s) : Inv N limit s := by
  induction h with
  | init => exact inv_init
  | step _ a hs ih => exact ih.step hN hs

/-! ## What holds -/

/-- After `pre_exit()` the pool, if there is one, has been joined. -/
theorem after_ret {N limit : Nat} {s : St} (h : Inv N limit s) (hr : Event.ret ∈ s.trace) {p : ThreadPool.St}
    (hp : s.pool = some p) : Event.run .join ∈ s.trace ∧ p.joining = true ∧ AllExited p := by
  obtain ⟨hst, hcn⟩ := h.cs (h.rc.1 hr)
  have hj := h.jn
  simp only [onStack, hst, List.map_nil, List.count_nil, Nat.zero_add, hp, Option.isSome_some, if_true] at hj
  have hw : Event.run .join ∈ s.trace := by
    by_cases hw : Event.run .join ∈ s.trace
    · exact hw
    · rw [if_neg hw] at hj; simp at hj
  obtain ⟨p2, hp2, h2⟩ := h.cl (h.done hw (by rw [hcn]; simp))
  rw [hp] at hp2
  simp only [Option.some.injEq] at hp2
  exact ⟨hw, hp2 ▸ h2⟩

/-- A step adds at most one event; an event of the pool is one of a step of the pool. -/
theorem step_event {N limit : Nat} {s s' : St} {a : Act} (hs : step N limit s a = .ok s') :
    s'.trace = s.trace ∨ ∃ e, s'.trace = s.trace ++ [e] ∧
      ∀ x, e = .pool x → ∃ p p' b, s.pool = some p ∧ ThreadPool.step N limit p b = some p' ∧ x ∈ p'.trace.drop p.trace.length := by
  cases a with
  | atPreExit n => obtain ⟨-, rfl⟩ := register_ok hs; exact .inl rfl
  | callPreExit =>
    simp only [step] at hs
    split at hs
    · simp at hs
    · simp only [Out.ok.injEq] at hs; subst hs; exact .inl rfl
  | pop =>
    simp only [step, pop] at hs
    repeat' split at hs
    all_goals first | (simp at hs; done) | skip
    all_goals
      simp only [Out.ok.injEq] at hs; subst hs
      exact .inr ⟨_, rfl, by simp⟩
  | handlerReturns =>
    simp only [step, handlerReturns] at hs
    repeat' split at hs
    all_goals first | (simp at hs; done) | skip
    all_goals
      simp only [Out.ok.injEq] at hs; subst hs
      exact .inl rfl
  | makePool =>
    simp only [step] at hs
    split at hs
    · obtain ⟨-, rfl⟩ := register_ok hs; exact .inl rfl
    · simp at hs
  | pool a =>
    simp only [step, poolStep] at hs
    repeat' split at hs
    all_goals first | (simp at hs; done) | skip
    rename_i p hp _ _ _ p' hp'
    simp only [Out.ok.injEq] at hs; subst hs
    obtain ⟨es, he, hl⟩ := pool_trace hp'
    have hdrop : p'.trace.drop p.trace.length = es := by rw [he]; simp
    match es, hl with
    | [], _ => left; rw [hdrop]; simp
    | [e], _ =>
      right
      refine ⟨.pool e, by rw [hdrop]; simp, fun x hx => ⟨p, p', a, hp, hp', ?_⟩⟩
      simp only [Event.pool.injEq] at hx
      rw [hdrop, hx]; simp
  | makeTimer =>
    simp only [step] at hs
    split at hs
    · simp only [Out.ok.injEq] at hs; subst hs; exact .inl rfl
    · simp at hs
  | timer a =>
    simp only [step, timerStep] at hs
    repeat' split at hs
    all_goals first | (simp at hs; done) | skip
    rename_i t ht _ _ t' ht'
    simp only [Out.ok.injEq] at hs; subst hs
    obtain ⟨es, he, hl⟩ := timer_trace ht'
    have hdrop : t'.trace.drop t.trace.length = es := by rw [he]; simp
    match es, hl with
    | [], _ => left; rw [hdrop]; simp
    | [e], _ => exact .inr ⟨.timer e, by rw [hdrop]; simp, by simp⟩

/-- **C76**, the part that holds, whatever else happens: when `pre_exit()` returns, every task of the pool whose `execute` had
returned before `pre_exit()` came to join the pool has been executed to its end; if any task was given to the pool the pool has been
joined; no task of the pool is started later. -/
theorem c76_pool_partial {N limit : Nat} (hN : 0 < N) {s : St} (h : Reachable N limit s) {a b : List Event}
    (ht : s.trace = a ++ .ret :: b) :
    (∀ c d t, a = c ++ .run .join :: d → Event.pool (.accept t) ∈ c → Event.pool (.finish t) ∈ a) ∧
    (∀ t, Event.pool (.accept t) ∈ a → Event.run .join ∈ a) ∧
    (∀ i t, Event.pool (.start i t) ∉ b) := by
  induction h generalizing b with
  | init => simp at ht
  | @step s s' h x hs ih =>
    rcases step_event hs with he | ⟨e, he, hb⟩
    · exact ih (he ▸ ht)
    · have hI := h.inv hN
      have hI' := (h.step x hs).inv hN
      rw [he] at ht
      have some_of : ∀ {e : ThreadPool.Event}, Event.pool e ∈ s'.trace → ∃ p, s'.pool = some p := by
        intro e hm
        cases hp : s'.pool with
        | some p => exact ⟨p, rfl⟩
        | none =>
          have := hI'.none hp
          rw [List.filterMap_eq_nil_iff] at this
          have := this _ hm
          simp [poolEv] at this
      rcases split_append ht with ⟨rfl, rfl, rfl⟩ | ⟨b', rfl, htr⟩
      · have hr : Event.ret ∈ s'.trace := by rw [he]; simp
        refine ⟨fun c d t hc hm => ?_, fun t hm => ?_, by simp⟩
        · have hm' : Event.pool (.accept t) ∈ s'.trace := by rw [he, hc]; simp [hm]
          obtain ⟨p, hp⟩ := some_of hm'
          obtain ⟨-, -, hx⟩ := after_ret hI' hr hp
          obtain ⟨hre, htp⟩ := hI'.pool p hp
          have hcd : s'.trace = c ++ .run .join :: (d ++ [.ret]) := by rw [he, hc]; simp
          have hE : Early t p.trace := by
            refine ⟨c.filterMap poolEv, (Event.run Handler.join :: (d ++ [.ret])).filterMap poolEv, ?_, ?_, ?_⟩
            · rw [htp, hcd, List.filterMap_append]
            · rw [List.mem_filterMap]; exact ⟨_, hm, rfl⟩
            · intro hj
              rw [List.mem_filterMap] at hj
              obtain ⟨y, hy, hyj⟩ := hj
              cases y <;> simp only [poolEv, Option.some.injEq, reduceCtorEq] at hyj
              subst hyj
              exact hI'.order c _ hcd hy
          have hf := ThreadPool.c53_join_partial hN hre hx hE
          rw [htp, List.mem_filterMap] at hf
          obtain ⟨y, hy, hyj⟩ := hf
          cases y <;> simp only [poolEv, Option.some.injEq, reduceCtorEq] at hyj
          subst hyj
          rw [he] at hy
          simpa using hy
        · obtain ⟨p, hp⟩ := some_of (e := .accept t) (by rw [he]; simp [hm])
          have := (after_ret hI' hr hp).1
          rw [he] at this
          simpa using this
      · obtain ⟨i1, i2, i3⟩ := ih htr
        refine ⟨i1, i2, fun i t => ?_⟩
        simp only [List.mem_append, List.mem_singleton, not_or]
        refine ⟨i3 i t, fun hx => ?_⟩
        obtain ⟨p, p', c, hp, hp', hm⟩ := hb _ hx.symm
        obtain ⟨-, hj, hxx⟩ := after_ret hI (by rw [htr]; simp) hp
        exact (exited_step hj hxx ((hI.pool p hp).1.inv hN).counts.nth hp').2.2 i t hm

/-! ## What does not -/

/-- A task is given to the timer, to be called after five units of time. `pre_exit()` is called and returns at once. -/
def timerActs : List Act :=
  [.makeTimer, .timer (.submit 5), .callPreExit, .pop, .timer (.tick 5), .timer .run, .timer .run]

/-- **C76** fails for the timer: `pre_exit()` does not stop it, so that its tasks are called after `pre_exit()` has returned. -/
theorem c76_timer_counterexample : ∃ s, Reachable 1 9 s ∧
    s.trace = [.timer (.submit 0 5), .ret, .timer (.take 0), .timer (.start 0 5)] :=
  ⟨_, exec_reachable (as := timerActs) .init rfl, rfl⟩

/-- A task is given to a delayed executor for the pool after another one was executed. `pre_exit()` joins the pool. Then the thread of the
timer gives the task to the pool. -/
def delayedActs : List Act :=
  [.makePool, .pool (.submit 1 0), .pool (.tryPush 0 true), .pool (.notify 0), .pool (.tryPop 0 true), .pool (.finish 0),
   .makeTimer, .timer (.submit 5), .callPreExit, .pop, .pool .join, .pool (.doneQ 0), .pool (.notify 0), .pool (.tryPop 0 true),
   .pool (.enter 0), .handlerReturns, .pop, .timer (.tick 5), .timer .run, .timer .run, .pool (.submit 1 1)]

/-- **C76** fails for delayed executors: a task that becomes due after `pre_exit()` has returned is given to the pool by the thread of
the timer, and `execute` uses a queue that has been destroyed. -/
theorem c76_delayed_counterexample : ∃ s, Reachable 1 9 s ∧ step 1 9 s (.pool (.tryPush 0 true)) = .ub ∧ s.trace =
    [.pool (.submit 0), .pool (.accept 0), .pool (.start 0 0), .pool (.finish 0), .timer (.submit 0 5), .run .join, .pool .join, .ret,
     .timer (.take 0), .timer (.start 0 5), .pool (.submit 1)] :=
  ⟨_, exec_reachable (as := delayedActs) .init rfl, rfl, rfl⟩

/-- **C76** fails in the same way if the pool has not been used before: creating it then fails the assertion of `at_pre_exit`
(src/pre_exit.cpp:29). -/
theorem c76_first_use_counterexample : ∃ s, Reachable 1 9 s ∧ step 1 9 s .makePool = .abort ∧
    s.trace = [.timer (.submit 0 5), .ret, .timer (.take 0), .timer (.start 0 5)] :=
  ⟨_, exec_reachable (as := timerActs) .init rfl, rfl, rfl⟩

/-- `c76_pool_partial`: a pool that is joined while one of its tasks is being executed. -/
example : ∃ s, Reachable 1 9 s ∧ s.trace =
    [.pool (.submit 0), .pool (.accept 0), .pool (.start 0 0), .run .join, .pool .join, .pool (.finish 0)] ++ Event.ret :: [] :=
  ⟨_, exec_reachable (as := [.makePool, .pool (.submit 1 0), .pool (.tryPush 0 true), .pool (.tryPop 0 true), .callPreExit, .pop,
    .pool .join, .pool (.doneQ 0), .pool (.finish 0), .pool (.tryPop 0 true), .pool (.enter 0), .handlerReturns, .pop]) .init rfl, rfl⟩

end Verif.Exit
