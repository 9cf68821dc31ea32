import Mathlib.Data.List.Nodup
import Verif.Sync.Timer

/-!
# Property theorems C86: the timer is free of data races if nobody submits tasks after its destruction has begun
-/

namespace Verif.Sync.Timer

variable {s s' : St} {t : Nat}

/-! ## Accesses -/

theorem upd_upd {α : Type} (f : Nat → α) (k : Nat) (a b : α) : upd (upd f k a) k b = upd f k b := by
  funext i; simp only [upd]; split <;> rfl

theorem upd_self {α : Type} (f : Nat → α) (k : Nat) : upd f k (f k) = f := by
  funext i; simp only [upd]; split
  · next h => rw [h]
  · rfl

theorem leq_upd {vc : Nat → Clock} {c : Clock} (h : leq (vc t) c) (u : Nat) : leq (vc u) (upd vc t c u) := by
  by_cases hu : u = t
  · subst hu; rw [upd_same]; exact h
  · rw [upd_ne _ _ hu]; exact leq.refl _

theorem access_shape (s : St) (t : Nat) (l : Loc) (w : Bool) :
    access s t l w = .race ∨ access s t l w = .ok { s with vc := tick s.vc t, acc := ⟨l, w, ⟨t, s.vc t t + 1⟩⟩ :: s.acc } := by
  unfold access
  split
  · exact .inl rfl
  · exact .inr rfl

theorem access_safe {l : Loc} {w : Bool} (h : ∀ a ∈ s.acc, a.loc = l → (a.write = true ∨ w = true) → a.stamp.le (s.vc t)) :
    access s t l w = .ok { s with vc := tick s.vc t, acc := ⟨l, w, ⟨t, s.vc t t + 1⟩⟩ :: s.acc } := by
  unfold access
  rw [if_neg]
  intro hc
  simp only [List.any_eq_true, Bool.and_eq_true, decide_eq_true_eq, Bool.or_eq_true] at hc
  obtain ⟨a, ha, ⟨h1, h2⟩, h3⟩ := hc
  exact h3 (h a ha h1 h2)

theorem accesses_shape (ls : List (Loc × Bool)) (s : St) (t : Nat) :
    accesses s t ls = .race ∨ ∃ c new, accesses s t ls = .ok { s with vc := upd s.vc t c, acc := new ++ s.acc } ∧ leq (s.vc t) c ∧
      ∀ a ∈ new, (a.loc, a.write) ∈ ls ∧ a.stamp.le c := by
  induction ls generalizing s with
  | nil => exact .inr ⟨s.vc t, [], by simp only [accesses, upd_self]; rfl, leq.refl _, by simp⟩
  | cons l ls ih =>
    simp only [accesses]
    rcases access_shape s t l.1 l.2 with h | h <;> rw [h] <;> simp only [Out.bind]
    · exact .inl trivial
    · rcases ih { s with vc := tick s.vc t, acc := ⟨l.1, l.2, ⟨t, s.vc t t + 1⟩⟩ :: s.acc } with g | ⟨c, new, g1, g2, g3⟩
      · exact .inl g
      · refine .inr ⟨c, new ++ [⟨l.1, l.2, ⟨t, s.vc t t + 1⟩⟩], ?_, (leq_tick _ _ _).trans g2, ?_⟩
        · rw [g1]; simp only [tick, upd_upd, List.append_assoc, List.singleton_append]
        · intro a ha
          rcases List.mem_append.mp ha with ha | ha
          · exact ⟨List.mem_cons_of_mem _ (g3 a ha).1, (g3 a ha).2⟩
          · simp only [List.mem_singleton] at ha
            subst ha
            exact ⟨by simp, (tick_stamp _ _).mono g2⟩

theorem accesses_safe (ls : List (Loc × Bool)) (s : St) (t : Nat)
    (h : ∀ a ∈ s.acc, ∀ y ∈ ls, a.loc = y.1 → (a.write = true ∨ y.2 = true) → a.stamp.le (s.vc t)) : accesses s t ls ≠ .race := by
  induction ls generalizing s with
  | nil => simp [accesses]
  | cons l ls ih =>
    simp only [accesses]
    rw [access_safe (fun a ha => h a ha l (by simp))]
    simp only [Out.bind]
    refine ih _ ?_
    intro a ha y hy e1 e2
    rcases List.mem_cons.mp ha with rfl | ha
    · exact tick_stamp _ _
    · exact (h a ha y (List.mem_cons_of_mem _ hy) e1 e2).mono (leq_tick _ _ _)

/-- What a critical section does if it does not race. -/
theorem critical_shape (s : St) (t : Nat) (ls : List (Loc × Bool)) (f : St → St) :
    critical s t ls f = .race ∨ ∃ c new, critical s t ls f =
        .ok { f { s with vc := upd s.vc t c, acc := new ++ s.acc } with
              lm := Sync.join (f { s with vc := upd s.vc t c, acc := new ++ s.acc }).lm ((f { s with vc := upd s.vc t c, acc := new ++ s.acc }).vc t) } ∧
      leq (s.vc t) c ∧ leq s.lm c ∧ ∀ a ∈ new, ((a.loc, a.write) ∈ ls ∨ (a.loc = .mutex ∧ a.write = false)) ∧ a.stamp.le c := by
  unfold critical
  rcases access_shape s t .mutex false with h | h <;> rw [h] <;> simp only [Out.bind]
  · exact .inl trivial
  · rcases accesses_shape ls { s with vc := acquire (tick s.vc t) t s.lm, acc := ⟨.mutex, false, ⟨t, s.vc t t + 1⟩⟩ :: s.acc } t with g | ⟨c, new, g1, g2, g3⟩
    · rw [g]; exact .inl rfl
    · right
      refine ⟨c, new ++ [⟨.mutex, false, ⟨t, s.vc t t + 1⟩⟩], ?_, ?_, ?_, ?_⟩
      · rw [g1]; simp only [tick, acquire, upd_upd, List.append_assoc, List.singleton_append]
      · exact ((leq_tick _ _ _).trans (leq_acquire _ _ _ _)).trans g2
      · exact (acquire_leq _ _ _).trans g2
      · intro a ha
        rcases List.mem_append.mp ha with ha | ha
        · exact ⟨.inl (g3 a ha).1, (g3 a ha).2⟩
        · simp only [List.mem_singleton] at ha
          subst ha
          exact ⟨.inr ⟨rfl, rfl⟩, ((tick_stamp _ _).mono (leq_acquire _ _ _ _)).mono g2⟩

theorem critical_safe (s : St) (t : Nat) (ls : List (Loc × Bool)) (f : St → St)
    (hm : ∀ a ∈ s.acc, a.loc = .mutex → a.write = true → a.stamp.le (s.vc t))
    (h : ∀ a ∈ s.acc, ∀ y ∈ ls, a.loc = y.1 → (a.write = true ∨ y.2 = true) → a.stamp.le (s.vc t) ∨ a.stamp.le s.lm)
    (hl : ∀ y ∈ ls, y.1 ≠ .mutex) : critical s t ls f ≠ .race := by
  unfold critical
  rw [access_safe (fun a ha e1 e2 => hm a ha e1 (by simpa using e2))]
  simp only [Out.bind]
  have := accesses_safe ls { s with vc := acquire (tick s.vc t) t s.lm, acc := ⟨.mutex, false, ⟨t, s.vc t t + 1⟩⟩ :: s.acc } t (by
    intro a ha y hy e1 e2
    rcases List.mem_cons.mp ha with rfl | ha
    · exact absurd e1.symm (hl y hy)
    · rcases h a ha y hy e1 e2 with g | g
      · exact g.mono ((leq_tick _ _ _).trans (leq_acquire _ _ _ _))
      · exact g.mono (acquire_leq _ _ _))
  rcases accesses_shape ls { s with vc := acquire (tick s.vc t) t s.lm, acc := ⟨.mutex, false, ⟨t, s.vc t t + 1⟩⟩ :: s.acc } t with g | ⟨c, new, g1, -, -⟩
  · exact absurd g this
  · rw [g1]; simp

/-! ## What holds in every execution -/

structure Inv (s : St) : Prop where
  know1 : 1 ≤ s.vc 1 0
  know0 : 1 ≤ s.vc 0 0
  knowg : ∀ c, s.gc = some c → 1 ≤ c 0
  dtorg : s.dtor ≠ .none → s.gc.isSome = true
  queue : ∀ k ∈ s.queue, k < s.subs.length
  subs : ∀ st ∈ s.subs, st.le s.lm
  nodup : (s.calls.map (·.1) ++ s.queue).Nodup
  calls : ∀ x ∈ s.calls, ∃ st, s.subs[x.1]? = some st ∧ st.le x.2
  ends : ∀ x ∈ s.ends, x.2.le (s.vc 1)
  ended : ∀ x ∈ s.calls, (∃ st, (x.1, st) ∈ s.ends) ∨ s.pc = .calling x.1
  joined : ∀ t, s.dtor = .joined t ∨ s.dtor = .done t → s.pc = .ended ∧ ∀ x ∈ s.ends, x.2.le (s.vc t)

theorem Inv.init : Inv init := by
  constructor <;> simp [Timer.init]

theorem Inv.mono (I : Inv s) {vc : Nat → Clock} {lm : Clock} {acc : List Access} (h : ∀ u, leq (s.vc u) (vc u)) (hl : leq s.lm lm) :
    Inv { s with vc := vc, lm := lm, acc := acc } :=
  ⟨Nat.le_trans I.know1 (h 1 0), Nat.le_trans I.know0 (h 0 0), I.knowg, I.dtorg, I.queue, fun st hs => (I.subs st hs).mono hl, I.nodup, I.calls,
    fun x hx => (I.ends x hx).mono (h 1), I.ended, fun t ht => ⟨(I.joined t ht).1, fun x hx => ((I.joined t ht).2 x hx).mono (h t)⟩⟩

/-- The timer thread can not be in a task, about to look, after it was joined. -/
theorem Inv.not_joined (I : Inv s) (h : s.pc ≠ .ended) (t : Nat) : ¬ (s.dtor = .joined t ∨ s.dtor = .done t) :=
  fun hd => h (I.joined t hd).1

theorem Inv.step (I : Inv s) {a : Act} (h : step s a = .ok s') : Inv s' := by
  cases a with
  | work t => cases h; exact I.mono (leq_tick _ _) (leq.refl _)
  | sync t u => cases h; exact I.mono (fun w => leq_acquire _ _ _ _) (leq.refl _)
  | constructed =>
    simp only [Timer.step] at h
    split at h
    · rename_i hg
      rcases access_shape s 0 .thread true with g | g <;> rw [g] at h <;> simp only [Out.bind] at h <;> cases h
      have J := I.mono (acc := ⟨.thread, true, ⟨0, s.vc 0 0 + 1⟩⟩ :: s.acc) (leq_tick s.vc 0) (leq.refl s.lm)
      exact ⟨J.know1, J.know0, fun c hc => by cases hc; exact J.know0, by simp, J.queue, J.subs, J.nodup, J.calls, J.ends, J.ended, J.joined⟩
    · cases h
  | submit t =>
    simp only [Timer.step] at h
    split at h
    · cases h
    · split at h
      · cases h
      · cases h
      · rename_i c hg _
        obtain ⟨d, new, g1, g2, g3, -⟩ := (critical_shape _ _ _ _).resolve_left (by rw [h]; simp)
        rw [g1] at h
        cases h
        simp only at g2 g3 ⊢
        have J : Inv { s with vc := tick (upd (acquire s.vc t c) t d) t, lm := Sync.join s.lm (tick (upd (acquire s.vc t c) t d) t t), acc := new ++ s.acc } :=
          I.mono (fun u => ((leq_acquire _ _ _ _).trans (leq_upd g2 u)).trans (leq_tick _ _ _)) (leq_joinl _ _)
        refine ⟨J.know1, J.know0, J.knowg, J.dtorg, ?_, ?_, ?_, ?_, J.ends, J.ended, J.joined⟩
        · intro k hk
          simp only [List.mem_append, List.mem_singleton, List.length_append, List.length_singleton] at hk ⊢
          rcases hk with hk | rfl
          · exact Nat.lt_succ_of_lt (I.queue k hk)
          · omega
        · intro st hs
          rcases List.mem_append.mp hs with hs | hs
          · exact J.subs st hs
          · simp only [List.mem_singleton] at hs
            subst hs
            exact (tick_stamp _ _).mono (leq_joinr _ _)
        · rw [← List.append_assoc, List.nodup_append]
          refine ⟨I.nodup, by simp, ?_⟩
          intro k hk b hb
          simp only [List.mem_singleton] at hb
          subst hb
          rintro rfl
          rcases List.mem_append.mp hk with hk | hk
          · obtain ⟨x, hx, hx'⟩ := List.mem_map.mp hk
            obtain ⟨st, e, -⟩ := I.calls x hx
            have := (List.getElem?_eq_some_iff.mp e).1
            omega
          · exact Nat.lt_irrefl _ (I.queue _ hk)
        · intro x hx
          obtain ⟨st, e1, e2⟩ := I.calls x hx
          refine ⟨st, ?_, e2⟩
          rw [List.getElem?_append_left (List.getElem?_eq_some_iff.mp e1).1]
          exact e1
  | look k =>
    simp only [Timer.step] at h
    split at h
    · rename_i hp
      split at h
      · obtain ⟨d, new, g1, g2, g3, -⟩ := (critical_shape _ _ _ _).resolve_left (by rw [h]; simp)
        rw [g1] at h
        cases h
        have J : Inv { s with vc := upd s.vc 1 d, lm := Sync.join s.lm (upd s.vc 1 d 1), acc := new ++ s.acc } := I.mono (leq_upd g2) (leq_joinl _ _)
        refine ⟨J.know1, J.know0, J.knowg, J.dtorg, J.queue, J.subs, J.nodup, J.calls, J.ends, ?_, ?_⟩
        · intro x hx
          rcases I.ended x hx with e | e
          · exact .inl e
          · rw [hp] at e; cases e
        · intro t ht
          exact absurd ht (I.not_joined (by rw [hp]; simp) t)
      · split at h
        · obtain ⟨d, new, g1, g2, g3, -⟩ := (critical_shape _ _ _ _).resolve_left (by rw [h]; simp)
          rw [g1] at h
          cases h
          exact I.mono (leq_upd g2) (leq_joinl _ _)
        · rename_i k
          split at h
          · rename_i hk
            obtain ⟨d, new, g1, g2, g3, -⟩ := (critical_shape _ _ _ _).resolve_left (by rw [h]; simp)
            rw [g1] at h
            cases h
            simp only
            have J : Inv { s with vc := upd s.vc 1 d, lm := Sync.join s.lm (upd s.vc 1 d 1), acc := new ++ s.acc } := I.mono (leq_upd g2) (leq_joinl _ _)
            have hq := (List.nodup_append.mp I.nodup).2.1
            refine ⟨J.know1, J.know0, J.knowg, J.dtorg, fun j hj => I.queue j (List.mem_of_mem_erase hj), J.subs, ?_, ?_, J.ends, ?_, ?_⟩
            · obtain ⟨n1, n2, n3⟩ := List.nodup_append.mp I.nodup
              simp only [List.map_cons, List.cons_append, List.nodup_cons]
              refine ⟨?_, ?_⟩
              · intro hm
                rcases List.mem_append.mp hm with hm | hm
                · exact n3 k hm k hk rfl
                · exact ((hq.mem_erase_iff).mp hm).1 rfl
              · exact List.nodup_append.mpr ⟨n1, n2.erase _, fun x hx y hy => n3 x hx y (List.mem_of_mem_erase hy)⟩
            · intro x hx
              rcases List.mem_cons.mp hx with rfl | hx
              · refine ⟨s.subs[k]'(I.queue k hk), List.getElem?_eq_getElem _, ?_⟩
                simp only [upd_same]
                exact (I.subs _ (List.getElem_mem _)).mono g3
              · exact I.calls x hx
            · intro x hx
              rcases List.mem_cons.mp hx with rfl | hx
              · exact .inr rfl
              · rcases I.ended x hx with e | e
                · exact .inl e
                · rw [hp] at e; cases e
            · intro t ht
              exact absurd ht (I.not_joined (by rw [hp]; simp) t)
          · cases h
    · cases h
  | ret =>
    simp only [Timer.step] at h
    split at h
    · rename_i k hp
      cases h
      have J := I.mono (acc := s.acc) (leq_tick s.vc 1) (leq.refl s.lm)
      refine ⟨J.know1, J.know0, J.knowg, J.dtorg, J.queue, J.subs, J.nodup, J.calls, ?_, ?_, ?_⟩
      · intro x hx
        rcases List.mem_cons.mp hx with rfl | hx
        · exact tick_stamp _ _
        · exact J.ends x hx
      · intro x hx
        rcases I.ended x hx with ⟨st, e⟩ | e
        · exact .inl ⟨st, List.mem_cons_of_mem _ e⟩
        · rw [hp] at e
          cases e
          exact .inl ⟨_, List.mem_cons_self ..⟩
      · intro t ht
        exact absurd ht (I.not_joined (by rw [hp]; simp) t)
    · cases h
  | close t =>
    simp only [Timer.step] at h
    split at h
    · split at h
      · cases h
      · rename_i c hg hd _
        obtain ⟨d, new, g1, g2, g3, -⟩ := (critical_shape _ _ _ _).resolve_left (by rw [h]; simp)
        rw [g1] at h
        cases h
        simp only at g2 g3 ⊢
        have J : Inv { s with vc := upd (acquire s.vc t c) t d, lm := Sync.join s.lm (upd (acquire s.vc t c) t d t), acc := new ++ s.acc } :=
          I.mono (fun u => (leq_acquire _ _ _ _).trans (leq_upd g2 u)) (leq_joinl _ _)
        exact ⟨J.know1, J.know0, J.knowg, fun _ => by simp [hg], J.queue, J.subs, J.nodup, J.calls, J.ends, J.ended, by simp⟩
    · cases h
  | notify =>
    simp only [Timer.step] at h
    split at h
    · rename_i t hd
      rcases access_shape s t .cond false with g | g <;> rw [g] at h <;> simp only [Out.bind] at h <;> cases h
      have J := I.mono (acc := ⟨.cond, false, ⟨t, s.vc t t + 1⟩⟩ :: s.acc) (leq_tick s.vc t) (leq.refl s.lm)
      exact ⟨J.know1, J.know0, J.knowg, fun _ => I.dtorg (by rw [hd]; simp), J.queue, J.subs, J.nodup, J.calls, J.ends, J.ended, by simp⟩
    · cases h
  | join =>
    simp only [Timer.step] at h
    split at h
    · rename_i t hd
      split at h
      · cases h
      · split at h
        · rename_i ht hp
          rcases access_shape s t .thread true with g | g <;> rw [g] at h <;> simp only [Out.bind] at h <;> cases h
          have J := I.mono (vc := acquire (tick s.vc t) t (tick s.vc t 1)) (acc := ⟨.thread, true, ⟨t, s.vc t t + 1⟩⟩ :: s.acc)
            (fun u => (leq_tick s.vc t u).trans (leq_acquire _ _ _ _)) (leq.refl s.lm)
          refine ⟨J.know1, J.know0, J.knowg, fun _ => I.dtorg (by rw [hd]; simp), J.queue, J.subs, J.nodup, J.calls, J.ends, J.ended, ?_⟩
          intro u hu
          simp only [Dtor.joined.injEq, reduceCtorEq, or_false] at hu
          subst hu
          refine ⟨hp, fun x hx => ?_⟩
          exact (I.ends x hx).mono ((leq_tick _ _ _).trans (acquire_leq _ _ _))
        · cases h
    · cases h
  | destroy =>
    simp only [Timer.step] at h
    split at h
    · rename_i t hd
      rcases accesses_shape (locs.map fun l => (l, true)) s t with g | ⟨c, new, g1, g2, -⟩
      · rw [g] at h; cases h
      · rw [g1] at h
        simp only [Out.bind] at h
        cases h
        have J := I.mono (acc := new ++ s.acc) (leq_upd g2) (leq.refl s.lm)
        refine ⟨J.know1, J.know0, J.knowg, fun _ => I.dtorg (by rw [hd]; simp), J.queue, J.subs, J.nodup, J.calls, J.ends, J.ended, ?_⟩
        intro u hu
        simp only [Dtor.done.injEq, reduceCtorEq, false_or] at hu
        subst hu
        exact J.joined _ (.inl hd)
    · cases h

theorem Reachable.inv (h : Reachable s) : Inv s := by
  induction h with
  | init => exact .init
  | step _ hs ih => exact ih.step hs

/-! ## What holds if nobody submits tasks after the destructor has begun -/

/-- The thread of the destructor. -/
def Dtor.who : Dtor → Option Nat
  | .none => Option.none
  | .stopped t | .notified t | .joined t | .done t => some t

/-- The thread was joined. -/
def Dtor.over : Dtor → Bool
  | .joined _ | .done _ => true
  | _ => false

structure Ord (s : St) : Prop where
  inv : Inv s
  accs : s.dtor.over = false → ∀ a ∈ s.acc, a.stamp = ⟨0, 1⟩ ∨ a.loc = .thread ∨ ((a.loc = .queue ∨ a.loc = .stop) ∧ a.stamp.le s.lm) ∨
    ((a.loc = .cond ∨ a.loc = .mutex) ∧ a.write = false)
  thr : s.dtor.over = false → ∀ a ∈ s.acc, a.loc = .thread → a.stamp = ⟨0, 1⟩ ∨ ∃ c, s.gc = some c ∧ a.stamp.le c
  pre : s.dtor = .none → ∀ a ∈ s.acc, a.stamp = ⟨0, 1⟩ ∨ (∃ c, s.gc = some c ∧ a.stamp.le c) ∨ a.stamp.le s.lm
  know : ∀ t c, s.dtor.who = some t → s.gc = some c → leq c (s.vc t)
  own : ∀ t, s.dtor.who = some t → ∀ a ∈ s.acc, a.stamp.le (s.vc t) ∨ (a.stamp.le (s.vc 1) ∧ s.dtor.over = false)
  sub : ∀ t, s.dtor.who = some t → ∀ st ∈ s.subs, st.le (s.vc t) ∨ (st.le (s.vc 1) ∧ s.dtor.over = false)

theorem Ord.init : Ord init where
  inv := .init
  accs := by intro _ a ha; left; simp only [Timer.init, List.mem_map] at ha; obtain ⟨l, -, rfl⟩ := ha; rfl
  thr := by intro _ a ha _; left; simp only [Timer.init, List.mem_map] at ha; obtain ⟨l, -, rfl⟩ := ha; rfl
  pre := by intro _ a ha; left; simp only [Timer.init, List.mem_map] at ha; obtain ⟨l, -, rfl⟩ := ha; rfl
  know := by simp [Timer.init, Dtor.who]
  own := by simp [Timer.init, Dtor.who]
  sub := by simp [Timer.init, Dtor.who]

/-- A thread gets to know more. -/
theorem Ord.mono (O : Ord s) {vc : Nat → Clock} (h : ∀ u, leq (s.vc u) (vc u)) : Ord { s with vc := vc } :=
  ⟨O.inv.mono h (leq.refl _), O.accs, O.thr, O.pre, fun t c ht hc => (O.know t c ht hc).trans (h t),
    fun t ht a ha => (O.own t ht a ha).imp (·.mono (h t)) (fun g => ⟨g.1.mono (h 1), g.2⟩),
    fun t ht a ha => (O.sub t ht a ha).imp (·.mono (h t)) (fun g => ⟨g.1.mono (h 1), g.2⟩)⟩

theorem first_le {a : Access} {c : Clock} (h : a.stamp = ⟨0, 1⟩) (hc : 1 ≤ c 0) : a.stamp.le c := by
  rw [h]; exact hc

/-- The accesses in critical sections. -/
def fair (ls : List (Loc × Bool)) : Prop := ∀ y ∈ ls, y.1 = .queue ∨ y.1 = .stop ∨ (y.1 = .cond ∧ y.2 = false)

/-- Critical sections do not race. -/
theorem Ord.critical (O : Ord s) (ho : s.dtor.over = false) (hk : 1 ≤ s.vc t 0) {ls : List (Loc × Bool)} (hl : fair ls) (f : St → St) :
    critical s t ls f ≠ .race := by
  refine critical_safe s t ls f ?_ ?_ ?_
  · intro a ha e1 e2
    rcases O.accs ho a ha with g | g | g | g
    · exact first_le g hk
    · rw [e1] at g; cases g
    · rw [e1] at g; simp at g
    · rw [e2] at g; simp at g
  · intro a ha y hy e1 e2
    rcases O.accs ho a ha with g | g | g | g
    · exact .inl (first_le g hk)
    · rw [g] at e1; rcases hl y hy with h | h | ⟨h, -⟩ <;> rw [h] at e1 <;> cases e1
    · exact .inr g.2
    · rcases hl y hy with h | h | ⟨h, h'⟩
      · rw [e1, h] at g; simp at g
      · rw [e1, h] at g; simp at g
      · rw [g.2, h'] at e2; simp at e2
  · intro y hy e
    rcases hl y hy with h | h | ⟨h, -⟩ <;> rw [h] at e <;> cases e

/-- What is known after one. -/
theorem Ord.after (O : Ord s) (ht : s.dtor = .none ∨ (t = 1 ∧ s.dtor.over = false)) {ls : List (Loc × Bool)} (hl : fair ls) {c lm' : Clock} {new : List Access}
    (hc : leq (s.vc t) c) (hm : leq s.lm lm') (hcm : leq c lm')
    (hn : ∀ a ∈ new, ((a.loc, a.write) ∈ ls ∨ (a.loc = .mutex ∧ a.write = false)) ∧ a.stamp.le c) :
    Ord { s with vc := upd s.vc t c, lm := lm', acc := new ++ s.acc } := by
  have hnt : ∀ a ∈ new, a.loc ≠ .thread := by
    intro a ha e
    rcases (hn a ha).1 with g | g
    · rcases hl _ g with h | h | ⟨h, -⟩ <;> simp only at h <;> rw [h] at e <;> cases e
    · rw [g.1] at e; cases e
  refine ⟨O.inv.mono (leq_upd hc) hm, ?_, ?_, ?_, ?_, ?_, ?_⟩
  · intro ho a ha
    rcases List.mem_append.mp ha with ha | ha
    · right; right
      obtain ⟨g, g'⟩ := hn a ha
      rcases g with g | g
      · rcases hl _ g with h | h | ⟨h, h'⟩
        · exact .inl ⟨.inl h, g'.mono hcm⟩
        · exact .inl ⟨.inr h, g'.mono hcm⟩
        · exact .inr ⟨.inl h, h'⟩
      · exact .inr ⟨.inr g.1, g.2⟩
    · rcases O.accs ho a ha with g | g | g | g
      · exact .inl g
      · exact .inr (.inl g)
      · exact .inr (.inr (.inl ⟨g.1, g.2.mono hm⟩))
      · exact .inr (.inr (.inr g))
  · intro ho a ha e
    rcases List.mem_append.mp ha with ha | ha
    · exact absurd e (hnt a ha)
    · exact O.thr ho a ha e
  · intro hd a ha
    rcases List.mem_append.mp ha with ha | ha
    · exact .inr (.inr ((hn a ha).2.mono hcm))
    · rcases O.pre hd a ha with g | g | g
      · exact .inl g
      · exact .inr (.inl g)
      · exact .inr (.inr (g.mono hm))
  · intro u d hu hd; exact (O.know u d hu hd).trans (leq_upd hc u)
  · intro u hu a ha
    rcases List.mem_append.mp ha with ha | ha
    · rcases ht with ht | ⟨rfl, ho⟩
      · simp only at hu; rw [ht] at hu; cases hu
      · right; simp only [upd_same]; exact ⟨(hn a (by assumption)).2, ho⟩
    · exact (O.own u hu a ha).imp (·.mono (leq_upd hc u)) (fun g => ⟨g.1.mono (leq_upd hc 1), g.2⟩)
  · intro u hu a ha
    exact (O.sub u hu a ha).imp (·.mono (leq_upd hc u)) (fun g => ⟨g.1.mono (leq_upd hc 1), g.2⟩)

theorem Ord.not_over (O : Ord s) (h : s.pc ≠ .ended) : s.dtor.over = false := by
  cases hd : s.dtor with
  | joined t => exact absurd (.inl hd) (O.inv.not_joined h t)
  | done t => exact absurd (.inr hd) (O.inv.not_joined h t)
  | _ => rfl

theorem step_submit (hp : ¬ (t = 1 ∧ (s.pc = .idle ∨ s.pc = .ended))) {c : Clock} (hg : s.gc = some c) (hov : s.dtor.over = false) :
    step s (.submit t) = critical { s with vc := acquire s.vc t c } t [(.queue, true), (.cond, false)] fun s =>
      { s with queue := s.queue ++ [s.subs.length], vc := tick s.vc t, subs := s.subs ++ [⟨t, s.vc t t + 1⟩] } := by
  simp only [Timer.step, if_neg hp]
  split
  · rename_i h; rw [hg] at h; cases h
  · rename_i h; rw [h] at hov; cases hov
  · rename_i h _; rw [hg] at h; cases h; rfl

theorem step_close (hp : ¬ (t = 1 ∧ (s.pc = .idle ∨ s.pc = .ended))) {c : Clock} (hg : s.gc = some c) (hd : s.dtor = .none) :
    step s (.close t) = critical { s with vc := acquire s.vc t c } t [(.stop, true)] fun s => { s with stop := true, dtor := .stopped t } := by
  simp only [Timer.step, if_neg hp]
  split
  · rename_i h _; rw [hg] at h; cases h; rfl
  · rename_i h; exact absurd hd (h c hg)

theorem Ord.step (O : Ord s) {a : Act} (ho : orderly s a) :
    step s a = .no ∨ (step s a = .terminate ∧ a = .join ∧ s.dtor = .notified 1) ∨ ∃ s', step s a = .ok s' ∧ Ord s' := by
  have hI : ∀ s', Timer.step s a = .ok s' → Inv s' := fun s' h => O.inv.step h
  cases a with
  | work t => exact .inr (.inr ⟨_, rfl, O.mono (leq_tick _ _)⟩)
  | sync t u => exact .inr (.inr ⟨_, rfl, O.mono (fun w => leq_acquire _ _ _ _)⟩)
  | constructed =>
    simp only [Timer.step] at hI ⊢
    cases hg : s.gc with
    | some c => exact .inl rfl
    | none =>
      have hd : s.dtor = .none := by
        by_contra hd
        have := O.inv.dtorg hd
        rw [hg] at this; cases this
      have e := access_safe (s := s) (t := 0) (l := .thread) (w := true) (by
        intro a ha e _
        rcases O.thr (by rw [hd]; rfl) a ha e with g | ⟨c, g, -⟩
        · exact first_le g O.inv.know0
        · rw [hg] at g; cases g)
      simp only [hg, e, Out.bind] at hI
      simp only [e, Out.bind]
      refine .inr (.inr ⟨_, rfl, hI _ rfl, ?_, ?_, ?_, ?_, ?_, ?_⟩)
      · intro ho a ha
        rcases List.mem_cons.mp ha with rfl | ha
        · exact .inr (.inl rfl)
        · exact O.accs ho a ha
      · intro ho a ha e
        rcases List.mem_cons.mp ha with rfl | ha
        · exact .inr ⟨_, rfl, tick_stamp _ _⟩
        · rcases O.thr ho a ha e with g | ⟨c, g, -⟩
          · exact .inl g
          · rw [hg] at g; cases g
      · intro hd a ha
        rcases List.mem_cons.mp ha with rfl | ha
        · exact .inr (.inl ⟨_, rfl, tick_stamp _ _⟩)
        · rcases O.pre hd a ha with g | ⟨c, g, -⟩ | g
          · exact .inl g
          · rw [hg] at g; cases g
          · exact .inr (.inr g)
      · intro t c ht; simp only [hd, Dtor.who] at ht; cases ht
      · intro t ht; simp only [hd, Dtor.who] at ht; cases ht
      · intro t ht; simp only [hd, Dtor.who] at ht; cases ht
  | submit t =>
    by_cases hp : t = 1 ∧ (s.pc = .idle ∨ s.pc = .ended)
    · left; simp only [Timer.step, if_pos hp]
    · have ht : s.dtor = .none ∨ (t = 1 ∧ s.dtor.over = false) := by
        rcases ho with ho | rfl
        · exact .inl ho
        · refine .inr ⟨rfl, O.not_over ?_⟩
          intro e; exact hp ⟨rfl, .inr e⟩
      have hov : s.dtor.over = false := by rcases ht with h | h; rw [h]; rfl; exact h.2
      cases hg : s.gc with
      | none => left; simp only [Timer.step, if_neg hp, hg]
      | some c =>
        rw [step_submit hp hg hov] at hI ⊢
        have O1 : Ord { s with vc := acquire s.vc t c } := O.mono (fun u => leq_acquire _ _ _ _)
        have hl : fair [(.queue, true), (.cond, false)] := by intro y hy; simp at hy; rcases hy with rfl | rfl <;> simp
        have hk : 1 ≤ acquire s.vc t c t 0 := Nat.le_trans (O.inv.knowg c hg) (acquire_leq _ _ _ _)
        obtain ⟨d, new, g1, g2, g3, g4⟩ := (critical_shape _ _ _ _).resolve_left (O1.critical hov hk hl
          fun s => { s with queue := s.queue ++ [s.subs.length], vc := tick s.vc t, subs := s.subs ++ [⟨t, s.vc t t + 1⟩] })
        rw [g1] at hI ⊢
        refine .inr (.inr ⟨_, rfl, ?_⟩)
        have J := hI _ rfl
        have O2 := (O1.after (t := t) ht hl g2 (lm' := Sync.join s.lm (tick (upd (acquire s.vc t c) t d) t t)) (leq_joinl _ _)
          (((by rw [upd_same]; exact leq.refl d : leq d (upd (acquire s.vc t c) t d t)).trans (leq_tick _ _ _)).trans (leq_joinr _ _)) g4).mono
            (vc := tick (upd (acquire s.vc t c) t d) t) (leq_tick _ _)
        refine ⟨J, O2.accs, O2.thr, O2.pre, O2.know, O2.own, ?_⟩
        intro u hu st hs
        rcases List.mem_append.mp hs with hs | hs
        · exact O2.sub u hu st hs
        · simp only [List.mem_singleton] at hs
          subst hs
          rcases ht with ht | ⟨rfl, ht⟩
          · simp only [ht, Dtor.who] at hu; cases hu
          · exact .inr ⟨tick_stamp _ _, ht⟩
  | look k =>
    simp only [Timer.step] at hI ⊢
    by_cases hp : s.pc = .idle
    · rw [if_pos hp] at hI ⊢
      have hov : s.dtor.over = false := O.not_over (by rw [hp]; simp)
      by_cases hs : s.stop = true
      · rw [if_pos hs] at hI ⊢
        have hl : fair [(.queue, false), (.stop, false)] := by intro y hy; simp at hy; rcases hy with rfl | rfl <;> simp
        obtain ⟨d, new, g1, g2, g3, g4⟩ := (critical_shape _ _ _ _).resolve_left (O.critical hov O.inv.know1 hl fun s => { s with pc := .ended })
        rw [g1] at hI ⊢
        refine .inr (.inr ⟨_, rfl, ?_⟩)
        have J := hI _ rfl
        have O2 := O.after (t := 1) (.inr ⟨rfl, hov⟩) hl g2 (lm' := Sync.join s.lm (upd s.vc 1 d 1)) (leq_joinl _ _) (by rw [upd_same]; exact leq_joinr _ _) g4
        exact ⟨J, O2.accs, O2.thr, O2.pre, O2.know, O2.own, O2.sub⟩
      · rw [if_neg hs] at hI ⊢
        cases k with
        | none =>
          simp only at hI ⊢
          have hl : fair [(.queue, false), (.stop, false), (.cond, false)] := by intro y hy; simp at hy; rcases hy with rfl | rfl | rfl <;> simp
          obtain ⟨d, new, g1, g2, g3, g4⟩ := (critical_shape _ _ _ _).resolve_left (O.critical hov O.inv.know1 hl fun s => s)
          rw [g1] at hI ⊢
          refine .inr (.inr ⟨_, rfl, ?_⟩)
          exact O.after (t := 1) (.inr ⟨rfl, hov⟩) hl g2 (lm' := Sync.join s.lm (upd s.vc 1 d 1)) (leq_joinl _ _) (by rw [upd_same]; exact leq_joinr _ _) g4
        | some k =>
          simp only at hI ⊢
          by_cases hk : k ∈ s.queue
          · rw [if_pos hk] at hI ⊢
            have hl : fair [(.queue, false), (.stop, false), (.queue, true)] := by intro y hy; simp at hy; rcases hy with rfl | rfl | rfl <;> simp
            obtain ⟨d, new, g1, g2, g3, g4⟩ := (critical_shape _ _ _ _).resolve_left (O.critical hov O.inv.know1 hl
              fun s => { s with queue := s.queue.erase k, pc := .calling k, calls := (k, s.vc 1) :: s.calls })
            rw [g1] at hI ⊢
            refine .inr (.inr ⟨_, rfl, ?_⟩)
            have J := hI _ rfl
            have O2 := O.after (t := 1) (.inr ⟨rfl, hov⟩) hl g2 (lm' := Sync.join s.lm (upd s.vc 1 d 1)) (leq_joinl _ _) (by rw [upd_same]; exact leq_joinr _ _) g4
            exact ⟨J, O2.accs, O2.thr, O2.pre, O2.know, O2.own, O2.sub⟩
          · rw [if_neg hk]; exact .inl rfl
    · rw [if_neg hp]; exact .inl rfl
  | ret =>
    simp only [Timer.step] at hI ⊢
    cases hp : s.pc with
    | calling k =>
      simp only [hp] at hI
      have O2 := O.mono (leq_tick s.vc 1)
      exact .inr (.inr ⟨_, rfl, hI _ rfl, O2.accs, O2.thr, O2.pre, O2.know, O2.own, O2.sub⟩)
    | _ => exact .inl rfl
  | close t =>
    cases hg : s.gc with
    | none => left; simp only [Timer.step, hg]
    | some c =>
      by_cases hd : s.dtor = .none
      · by_cases hp : t = 1 ∧ (s.pc = .idle ∨ s.pc = .ended)
        · left; simp only [Timer.step, hg, hd, if_pos hp]
        · rw [step_close hp hg hd] at hI ⊢
          have hov : s.dtor.over = false := by rw [hd]; rfl
          have O1 : Ord { s with vc := acquire s.vc t c } := O.mono (fun u => leq_acquire _ _ _ _)
          have hl : fair [(.stop, true)] := by intro y hy; simp at hy; subst hy; simp
          have hk : 1 ≤ acquire s.vc t c t 0 := Nat.le_trans (O.inv.knowg c hg) (acquire_leq _ _ _ _)
          obtain ⟨d, new, g1, g2, g3, g4⟩ := (critical_shape _ _ _ _).resolve_left (O1.critical hov hk hl
            fun s => { s with stop := true, dtor := .stopped t })
          have hcd : leq c d := (acquire_leq _ _ _).trans g2
          rw [g1] at hI ⊢
          refine .inr (.inr ⟨_, rfl, ?_⟩)
          have J := hI _ rfl
          have O2 := O1.after (t := t) (.inl hd) hl g2 (lm' := Sync.join s.lm (upd (acquire s.vc t c) t d t)) (leq_joinl _ _) (by rw [upd_same]; exact leq_joinr _ _) g4
          refine ⟨J, fun _ => O2.accs hov, fun _ => O2.thr hov, by simp, ?_, ?_, ?_⟩
          · intro u c' hu hc'
            simp only [Dtor.who, Option.some.injEq] at hu
            simp only [hg, Option.some.injEq] at hc'
            subst hu hc'
            simp only [upd_same]
            exact hcd
          · intro u hu a ha
            simp only [Dtor.who, Option.some.injEq] at hu
            subst hu
            left
            simp only [upd_same]
            rcases List.mem_append.mp ha with ha | ha
            · exact (g4 a ha).2
            · rcases O.pre hd a ha with g | ⟨c', g, g'⟩ | g
              · exact first_le g (Nat.le_trans (O.inv.knowg c hg) (hcd 0))
              · rw [hg] at g; cases g; exact g'.mono hcd
              · exact g.mono g3
          · intro u hu st hs
            simp only [Dtor.who, Option.some.injEq] at hu
            subst hu
            left
            simp only [upd_same]
            exact (O.inv.subs st hs).mono g3
      · left
        simp only [Timer.step]
        split
        · rename_i h; exact absurd h hd
        · rfl
  | notify =>
    simp only [Timer.step] at hI ⊢
    cases hd : s.dtor with
    | stopped t =>
      simp only [hd] at hI
      simp only
      have hov : s.dtor.over = false := by rw [hd]; rfl
      have hw : s.dtor.who = some t := by rw [hd]; rfl
      have hk : 1 ≤ s.vc t 0 := by
        have := O.inv.dtorg (by rw [hd]; simp)
        obtain ⟨c, hc⟩ := Option.isSome_iff_exists.mp this
        exact Nat.le_trans (O.inv.knowg c hc) (O.know t c hw hc 0)
      have e := access_safe (s := s) (t := t) (l := .cond) (w := false) (by
        intro a ha e e'
        rcases O.accs hov a ha with g | g | g | g
        · exact first_le g hk
        · rw [e] at g; cases g
        · rw [e] at g; simp at g
        · rw [g.2] at e'; simp at e')
      rw [hd] at e
      simp only [e, Out.bind] at hI ⊢
      have O2 := O.mono (leq_tick s.vc t)
      refine .inr (.inr ⟨_, rfl, hI _ rfl, ?_, ?_, by simp, ?_, ?_, ?_⟩)
      · intro _ a ha
        rcases List.mem_cons.mp ha with rfl | ha
        · exact .inr (.inr (.inr ⟨.inl rfl, rfl⟩))
        · exact O.accs hov a ha
      · intro _ a ha e
        rcases List.mem_cons.mp ha with rfl | ha
        · cases e
        · exact O.thr hov a ha e
      · intro u c hu hc
        simp only [Dtor.who, Option.some.injEq] at hu
        subst hu
        exact O2.know t c hw hc
      · intro u hu a ha
        simp only [Dtor.who, Option.some.injEq] at hu
        subst hu
        rcases List.mem_cons.mp ha with rfl | ha
        · exact .inl (tick_stamp _ _)
        · exact (O2.own t hw a ha).imp id (fun g => ⟨g.1, rfl⟩)
      · intro u hu st hs
        simp only [Dtor.who, Option.some.injEq] at hu
        subst hu
        exact (O2.sub t hw st hs).imp id (fun g => ⟨g.1, rfl⟩)
    | _ => exact .inl rfl
  | join =>
    simp only [Timer.step] at hI ⊢
    cases hd : s.dtor with
    | notified t =>
      simp only [hd] at hI
      simp only
      have hov : s.dtor.over = false := by rw [hd]; rfl
      have hw : s.dtor.who = some t := by rw [hd]; rfl
      by_cases ht : t = 1
      · rw [if_pos ht]; subst ht; exact .inr (.inl ⟨rfl, trivial, rfl⟩)
      · rw [if_neg ht] at hI ⊢
        by_cases hp : s.pc = .ended
        · rw [if_pos hp] at hI ⊢
          have hk : 1 ≤ s.vc t 0 := by
            have := O.inv.dtorg (by rw [hd]; simp)
            obtain ⟨c, hc⟩ := Option.isSome_iff_exists.mp this
            exact Nat.le_trans (O.inv.knowg c hc) (O.know t c hw hc 0)
          have e := access_safe (s := s) (t := t) (l := .thread) (w := true) (by
            intro a ha e _
            rcases O.thr hov a ha e with g | ⟨c, g, g'⟩
            · exact first_le g hk
            · exact g'.mono (O.know t c hw g))
          rw [hd] at e
          simp only [e, Out.bind] at hI ⊢
          have h1 : leq (s.vc t) (acquire (tick s.vc t) t (tick s.vc t 1) t) := (leq_tick _ _ _).trans (leq_acquire _ _ _ _)
          have h2 : leq (s.vc 1) (acquire (tick s.vc t) t (tick s.vc t 1) t) := (leq_tick _ _ _).trans (acquire_leq _ _ _)
          refine .inr (.inr ⟨_, rfl, hI _ rfl, by simp [Dtor.over], by simp [Dtor.over], by simp, ?_, ?_, ?_⟩)
          · intro u c hu hc
            simp only [Dtor.who, Option.some.injEq] at hu
            subst hu
            exact (O.know t c hw hc).trans h1
          · intro u hu a ha
            simp only [Dtor.who, Option.some.injEq] at hu
            subst hu
            left
            rcases List.mem_cons.mp ha with rfl | ha
            · exact (tick_stamp _ _).mono (leq_acquire _ _ _ _)
            · rcases O.own t hw a ha with g | g
              · exact g.mono h1
              · exact g.1.mono h2
          · intro u hu st hs
            simp only [Dtor.who, Option.some.injEq] at hu
            subst hu
            left
            rcases O.sub t hw st hs with g | g
            · exact g.mono h1
            · exact g.1.mono h2
        · rw [if_neg hp]; exact .inl rfl
    | _ => exact .inl rfl
  | destroy =>
    simp only [Timer.step] at hI ⊢
    cases hd : s.dtor with
    | joined t =>
      simp only [hd] at hI
      simp only
      have hw : s.dtor.who = some t := by rw [hd]; rfl
      have hown : ∀ a ∈ s.acc, a.stamp.le (s.vc t) := by
        intro a ha
        rcases O.own t hw a ha with g | g
        · exact g
        · rw [hd] at g; cases g.2
      have e := accesses_safe (locs.map fun l => (l, true)) s t (fun a ha _ _ _ _ => hown a ha)
      obtain ⟨c, new, g1, g2, g3⟩ := (accesses_shape (locs.map fun l => (l, true)) s t).resolve_left e
      rw [hd] at g1
      simp only [g1, Out.bind] at hI ⊢
      refine .inr (.inr ⟨_, rfl, hI _ rfl, by simp [Dtor.over], by simp [Dtor.over], by simp, ?_, ?_, ?_⟩)
      · intro u c hu hc
        simp only [Dtor.who, Option.some.injEq] at hu
        subst hu
        exact (O.know t c hw hc).trans (leq_upd g2 t)
      · intro u hu a ha
        simp only [Dtor.who, Option.some.injEq] at hu
        subst hu
        left
        rcases List.mem_append.mp ha with ha | ha
        · simp only [upd_same]; exact (g3 a ha).2
        · exact (hown a ha).mono (leq_upd g2 t)
      · intro u hu st hs
        simp only [Dtor.who, Option.some.injEq] at hu
        subst hu
        left
        rcases O.sub t hw st hs with g | g
        · exact g.mono (leq_upd g2 t)
        · rw [hd] at g; cases g.2
    | _ => exact .inl rfl

theorem Orderly.ord (h : Orderly s) : Ord s := by
  induction h with
  | init => exact .init
  | step _ ho hs ih =>
    rcases ih.step ho with g | g | ⟨s', g, g'⟩
    · rw [g] at hs; cases hs
    · rw [g.1] at hs; cases hs
    · rw [g] at hs; cases hs; exact g'

theorem Orderly.reachable (h : Orderly s) : Reachable s := by
  induction h with
  | init => exact .init
  | step _ _ hs ih => exact .step ih hs

/-! ## C86 -/

/-- C86. No data race and no use of destroyed members if, after the destructor has begun, tasks are submitted by tasks of the timer only. Missing: submissions by other threads
after the destructor has begun, see `c86_race_counterexample`. The destructor fails if it runs in a task of the timer. -/
theorem c86_no_race_partial (h : Orderly s) {a : Act} (ho : orderly s a) :
    step s a ≠ .race ∧ step s a ≠ .ub ∧ (step s a = .terminate → s.dtor = .notified 1) := by
  rcases h.ord.step ho with g | ⟨g, -, hd⟩ | ⟨s', g, -⟩ <;> rw [g]
  · simp
  · simp [hd]
  · simp

/-- C86. A task is called at most once, and its submission happens before the call. -/
theorem c86_submission (h : Reachable s) : (s.calls.map (·.1)).Nodup ∧ ∀ x ∈ s.calls, ∃ st, s.subs[x.1]? = some st ∧ st.le x.2 :=
  ⟨(List.nodup_append.mp h.inv.nodup).1, h.inv.calls⟩

/-- C86. When the destructor has joined the thread, all calls have returned, and this happens before what the destructor does next; no task is called after that. -/
theorem c86_destructor (h : Reachable s) (hd : s.dtor = .joined t ∨ s.dtor = .done t) :
    (∀ x ∈ s.calls, ∃ st, (x.1, st) ∈ s.ends ∧ st.le (s.vc t)) ∧ ∀ a s', step s a = .ok s' → s'.calls = s.calls := by
  have I := h.inv
  obtain ⟨hp, he⟩ := I.joined t hd
  constructor
  · intro x hx
    rcases I.ended x hx with ⟨st, g⟩ | g
    · exact ⟨st, g, he _ g⟩
    · rw [hp] at g; cases g
  · intro a s' hs
    cases a with
    | work t => cases hs; rfl
    | sync t u => cases hs; rfl
    | constructed =>
      simp only [Timer.step] at hs
      split at hs
      · rcases access_shape s 0 .thread true with g | g <;> rw [g] at hs <;> cases hs
        rfl
      · cases hs
    | submit t =>
      simp only [Timer.step] at hs
      split at hs
      · cases hs
      · split at hs
        · cases hs
        · cases hs
        · obtain ⟨d, new, g1, -⟩ := (critical_shape _ _ _ _).resolve_left (by rw [hs]; simp)
          rw [g1] at hs
          cases hs
          rfl
    | look k => simp [Timer.step, hp] at hs
    | ret => simp [Timer.step, hp] at hs
    | close t => rcases hd with hd | hd <;> simp [Timer.step, hd] at hs
    | notify => rcases hd with hd | hd <;> simp [Timer.step, hd] at hs
    | join => rcases hd with hd | hd <;> simp [Timer.step, hd] at hs
    | destroy =>
      rcases hd with hd | hd
      · simp only [Timer.step, hd] at hs
        rcases accesses_shape (locs.map fun l => (l, true)) s t with g | ⟨c, new, g1, -⟩
        · rw [g] at hs; cases hs
        · rw [g1] at hs; cases hs; rfl
      · simp [Timer.step, hd] at hs

/-- C86. All submissions happen before the destructor destroys the tasks that were not called. -/
theorem c86_destroyed_partial (h : Orderly s) (hd : s.dtor = .done t) : ∀ st ∈ s.subs, st.le (s.vc t) := by
  intro st hs
  rcases h.ord.sub t (by rw [hd]; rfl) st hs with g | g
  · exact g
  · rw [hd] at g; cases g.2

/-! Concrete runs. -/

/-- Perform the actions in turn (from last to first). -/
def run : List Act → Option St
  | [] => some init
  | a :: as => match run as with
    | some s => match step s a with
      | .ok s' => some s'
      | _ => none
    | none => none

theorem run_reachable {as : List Act} (h : run as = some s) : Reachable s := by
  induction as generalizing s with
  | nil => cases h; exact .init
  | cons a as ih =>
    simp only [run] at h
    split at h
    · rename_i s' hs
      split at h
      · rename_i s'' hs'
        cases h
        exact .step (ih hs) hs'
      · cases h
    · cases h

/-- C86 does not hold for other submissions: thread 0 sets `_stop`, the timer thread ends, thread 2 submits a task, and thread 0 joins and destroys the
queue; nothing orders this after the submission. -/
theorem c86_race_counterexample : ∃ s, Reachable s ∧ step s .destroy = .race := by
  have : ∃ s, run [.join, .submit 2, .look none, .notify, .close 0, .constructed] = some s ∧ step s .destroy = .race := ⟨_, rfl, rfl⟩
  obtain ⟨s, h1, h2⟩ := this
  exact ⟨s, run_reachable h1, h2⟩

/-- A task submitted after the destructor has returned uses destroyed members. -/
theorem c86_ub_counterexample : ∃ s, Reachable s ∧ step s (.submit 2) = .ub := by
  have : ∃ s, run [.destroy, .join, .look none, .notify, .close 0, .constructed] = some s ∧ step s (.submit 2) = .ub := ⟨_, rfl, rfl⟩
  obtain ⟨s, h1, h2⟩ := this
  exact ⟨s, run_reachable h1, h2⟩

instance (s : St) (a : Act) : Decidable (orderly s a) := by
  cases a <;> unfold orderly <;> infer_instance

/-- Perform orderly actions in turn (from last to first). -/
def runO : List Act → Option St
  | [] => some init
  | a :: as => match runO as with
    | some s => if orderly s a then
        match step s a with
        | .ok s' => some s'
        | _ => none
      else none
    | none => none

theorem run_orderly {as : List Act} (h : runO as = some s) : Orderly s := by
  induction as generalizing s with
  | nil => cases h; exact .init
  | cons a as ih =>
    simp only [runO] at h
    split at h
    · rename_i s' hs
      split at h
      · rename_i ho
        split at h
        · rename_i s'' hs'
          cases h
          exact .step (ih hs) ho hs'
        · cases h
      · cases h
    · cases h

/-- If a task calls `std::exit`, the destructor joins its own thread. -/
theorem c86_exit_counterexample : ∃ s, Orderly s ∧ step s .join = .terminate := by
  have : ∃ s, runO [.notify, .close 1, .look (some 0), .submit 2, .constructed] = some s ∧ step s .join = .terminate := ⟨_, rfl, rfl⟩
  obtain ⟨s, h1, h2⟩ := this
  exact ⟨s, run_orderly h1, h2⟩

/-- An orderly run: thread 2 submits two tasks, one is called and submits a third one after the destructor has begun; two tasks are destroyed. -/
example : ∃ s, runO [.destroy, .join, .look none, .ret, .submit 1, .notify, .close 0, .look (some 1), .submit 2, .submit 2, .constructed] = some s ∧
    s.dtor = .done 0 ∧ s.queue = [0, 2] ∧ s.calls.map (·.1) = [1] := ⟨_, rfl, rfl, rfl, rfl⟩

end Verif.Sync.Timer
