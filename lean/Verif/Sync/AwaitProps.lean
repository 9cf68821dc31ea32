import Verif.Sync.Await

/-!
# Property theorems C88: `await` and `await_for` are free of data races, and use no variable that was destroyed
-/

namespace Verif.Sync.Await

namespace Plain

variable {s s' : St}

structure Inv (s : St) : Prop where
  /-- thread 0 or the mutex knows every access -/
  known : ∀ a ∈ s.mem.acc, a.stamp.le (s.mem.vc 0) ∨ a.stamp.le s.lm
  /-- before it returns thread 0 knows every write of the mutex -/
  mutex : ∀ a ∈ s.mem.acc, a.loc = .m → a.write = true → a.stamp.le (s.mem.vc 0)
  queued : ∀ c, s.cont = .queued c → ∀ a ∈ s.mem.acc, (a.stamp.le c ∨ a.stamp.le s.lm) ∧ (a.loc = .m → a.write = true → a.stamp.le c)
  ready : ∀ t, s.cont = .ready t → ∀ a ∈ s.mem.acc,
    (a.stamp.le (s.mem.vc t) ∨ a.stamp.le s.lm) ∧ (a.loc = .m → a.write = true → a.stamp.le (s.mem.vc t))
  start : s.wait = .start → s.cont = .none ∧ s.mem.acc = []
  made : s.wait = .made → s.cont = .none
  nested : s.wait = .nested → s.cont = .ready 0
  pending : s.cont ≠ .none → s.wait ≠ .start ∧ s.wait ≠ .made
  has : s.has = true ↔ s.cont = .done
  over : s.wait = .over → s.cont = .done ∧ ∀ a ∈ s.mem.acc, a.stamp.le (s.mem.vc 0)
  returned : s.wait = .returned → s.cont = .done ∨ s.cont = .none
  only : ∀ t, s.cont ≠ .owner t ∧ s.cont ≠ .stored t ∧ s.cont ≠ .leaving t
  /-- how the resolution becomes known -/
  resolved : ∀ x c, s.resolved = some (x, c) → x.le c
  rready : ∀ t, s.cont = .ready t → ∃ x c, s.resolved = some (x, c) ∧ x.le (s.mem.vc t)
  rdone : s.cont = .done → ∃ x c, s.resolved = some (x, c) ∧ x.le s.lm
  rover : s.wait = .over ∨ s.wait = .returned → ∃ x c, s.resolved = some (x, c) ∧ x.le (s.mem.vc 0)
  rqueued : ∀ c, s.cont = .queued c → s.resolved = none

theorem Inv.init : Inv init := by
  constructor <;> simp [Plain.init]

theorem Inv.vc (I : Inv s) {vc : Nat → Clock} (h : ∀ u, leq (s.mem.vc u) (vc u)) : Inv { s with mem := { s.mem with vc := vc } } where
  known a ha := (I.known a ha).imp_left (·.mono (h 0))
  mutex a ha e1 e2 := (I.mutex a ha e1 e2).mono (h 0)
  queued := I.queued
  ready t ht a ha := ⟨(I.ready t ht a ha).1.imp_left (·.mono (h t)), fun e1 e2 => ((I.ready t ht a ha).2 e1 e2).mono (h t)⟩
  start := I.start
  made := I.made
  nested := I.nested
  pending := I.pending
  has := I.has
  over hw := ⟨(I.over hw).1, fun a ha => ((I.over hw).2 a ha).mono (h 0)⟩
  returned := I.returned
  only := I.only
  resolved := I.resolved
  rready t ht := let ⟨x, c, e1, e2⟩ := I.rready t ht; ⟨x, c, e1, e2.mono (h t)⟩
  rdone := I.rdone
  rover hw := let ⟨x, c, e1, e2⟩ := I.rover hw; ⟨x, c, e1, e2.mono (h 0)⟩
  rqueued := I.rqueued

theorem Inv.no_run (I : Inv s) {t : Nat} (h : s.cont = .ready t) : alive s.wait = true := by
  cases hw : s.wait <;> simp only [alive]
  · have := (I.start hw).1; rw [h] at this; cases this
  · rcases I.returned hw with g | g <;> rw [h] at g <;> cases g

theorem Inv.step (I : Inv s) {a : Act} (h : step s a = .ok s') : Inv s' := by
  cases a with
  | work t => cases h; exact I.vc (leq_tick _ _)
  | sync t u => cases h; exact I.vc (fun w => leq_acquire _ _ _ _)
  | resolve t =>
    simp only [Plain.step] at h
    split at h
    · cases h
    · rename_i hr
      split at h
      · rename_i c hc
        cases h
        have J := I.vc (vc := acquire (tick s.mem.vc t) t c) (fun w => (leq_tick _ _ _).trans (leq_acquire _ _ _ _))
        refine ⟨J.known, J.mutex, by simp, ?_, ?_, ?_, ?_, ?_, ?_, ?_, ?_, by simp, ?_, ?_, by simp, ?_, by simp⟩
        · intro u hu a ha
          cases hu
          obtain ⟨g1, g2⟩ := I.queued c hc a ha
          exact ⟨g1.imp_left (·.mono (acquire_leq _ _ _)), fun e1 e2 => (g2 e1 e2).mono (acquire_leq _ _ _)⟩
        · intro hw; have := (I.start hw).1; rw [hc] at this; cases this
        · intro hw; have := I.made hw; rw [hc] at this; cases this
        · intro hw; have := I.nested hw; rw [hc] at this; cases this
        · intro _; exact I.pending (by rw [hc]; simp)
        · have := I.has; rw [hc] at this; simpa using this
        · intro hw; have := (I.over hw).1; rw [hc] at this; cases this
        · intro hw; rcases I.returned hw with g | g <;> rw [hc] at g <;> cases g
        · intro x d e; cases e; exact tick_stamp _ _
        · intro u hu; cases hu; exact ⟨_, _, rfl, (tick_stamp _ _).mono (leq_acquire _ _ _ _)⟩
        · intro hw; obtain ⟨x, d, e, -⟩ := I.rover hw; rw [hr] at e; cases e
      · rename_i hc
        cases h
        have J := I.vc (leq_tick s.mem.vc t)
        refine ⟨J.known, J.mutex, J.queued, J.ready, J.start, J.made, J.nested, J.pending, J.has, J.over, J.returned, J.only, ?_, ?_, ?_, ?_, ?_⟩
        · intro x d e; cases e; exact tick_stamp _ _
        · intro u hu; obtain ⟨x, d, e, -⟩ := I.rready u hu; rw [hr] at e; cases e
        · intro hu; obtain ⟨x, d, e, -⟩ := I.rdone hu; rw [hr] at e; cases e
        · intro hu; obtain ⟨x, d, e, -⟩ := I.rover hu; rw [hr] at e; cases e
        · intro c hc'; exact absurd hc' (hc c)
  | start =>
    simp only [Plain.step] at h
    split at h
    · rename_i x c hw hr
      cases h
      have J := I.vc (vc := acquire s.mem.vc 0 c) (fun w => leq_acquire _ _ _ _)
      refine ⟨J.known, J.mutex, J.queued, J.ready, by simp, by simp, by simp, ?_, J.has, by simp, ?_, J.only, J.resolved, J.rready, J.rdone, ?_, J.rqueued⟩
      · intro hn; simp
      · intro _; exact .inr (I.start hw).1
      · intro _; exact ⟨x, c, hr, (I.resolved x c hr).mono (acquire_leq s.mem.vc 0 c)⟩
    · rename_i hw hr
      obtain ⟨hc, ha⟩ := I.start hw
      cases hm : s.mem.accesses 0 (locs.map fun l => (l, true)) with
      | none => rw [hm] at h; simp [Mem.try_] at h
      | some m =>
        rw [hm] at h
        cases h
        obtain ⟨c, new, rfl, h1, h2⟩ := Mem.accesses_shape hm
        have J := I.vc (vc := upd s.mem.vc 0 c) (Mem.leq_upd h1)
        have K : ∀ a ∈ new ++ s.mem.acc, a.stamp.le (upd s.mem.vc 0 c 0) := by
          rw [ha, List.append_nil, upd_same]; exact fun a ha => (h2 a ha).2
        have N : ∀ x, s.cont = x → Cont.none = x := fun x hx => hc ▸ hx
        refine ⟨fun a ha => .inl (K a ha), fun a ha _ _ => K a ha, ?_, ?_, by simp, fun _ => hc, by simp, ?_, J.has, by simp, by simp, J.only, J.resolved, J.rready, J.rdone, by simp, J.rqueued⟩
        · intro c hc; cases N _ hc
        · intro c hc; cases N _ hc
        · intro g; exact absurd hc g
    · cases h
  | attach =>
    simp only [Plain.step] at h
    split at h
    · rename_i x c hw hr
      cases h
      have J := I.vc (vc := acquire s.mem.vc 0 c) (fun w => leq_acquire _ _ _ _)
      refine ⟨J.known, J.mutex, by simp, ?_, by simp, by simp, by simp, by simp, ?_, by simp, by simp, by simp, J.resolved, ?_, by simp, by simp, by simp⟩
      · intro u hu a ha
        cases hu
        exact ⟨J.known a ha, J.mutex a ha⟩
      · have := I.has; rw [I.made hw] at this; simpa using this
      · intro u hu; cases hu; exact ⟨x, c, hr, (I.resolved x c hr).mono (acquire_leq s.mem.vc 0 c)⟩
    · rename_i hw hr
      cases h
      refine ⟨I.known, I.mutex, ?_, by simp, by simp, by simp, by simp, by simp, ?_, by simp, by simp, by simp, I.resolved, by simp, by simp, by simp, fun _ _ => hr⟩
      · intro u hu a ha
        cases hu
        exact ⟨I.known a ha, I.mutex a ha⟩
      · have := I.has; rw [I.made hw] at this; simpa using this
    · cases h
  | run =>
    simp only [Plain.step] at h
    split at h
    · rename_i t hc
      split at h
      · cases hm : s.mem.critical t .m s.lm [(.result, true), (.condition, false)] with
        | none => rw [hm] at h; simp [Mem.try_] at h
        | some x =>
          obtain ⟨m, lm⟩ := x
          rw [hm] at h
          simp only [Mem.try_] at h
          cases h
          obtain ⟨c, new, rfl, rfl, h1, h2, h3⟩ := Mem.critical_shape hm
          have J := I.vc (vc := upd s.mem.vc t c) (Mem.leq_upd h1)
          refine ⟨?_, ?_, by simp, by simp, ?_, ?_, ?_, ?_, by simp, ?_, by simp, by simp, J.resolved, by simp, ?_, ?_, by simp⟩
          · intro a ha
            rcases List.mem_append.mp ha with ha | ha
            · exact .inr ((h3 a ha).2.mono (leq_joinr _ _))
            · exact (J.known a ha).imp_right (·.mono (leq_joinl _ _))
          · intro a ha e1 e2
            rcases List.mem_append.mp ha with ha | ha
            · have := (h3 a ha).1
              rw [e1, e2] at this
              simp at this
            · exact J.mutex a ha e1 e2
          · intro hw; have := (I.pending (by rw [hc]; simp)); simp only at hw; split at hw <;> simp_all
          · intro hw; have := (I.pending (by rw [hc]; simp)); simp only at hw; split at hw <;> simp_all
          · intro hw; simp only at hw; split at hw <;> simp_all
          · intro _; have := (I.pending (by rw [hc]; simp)); simp only; split <;> simp_all
          · intro hw; have := (I.over (by simp only at hw; split at hw <;> simp_all)).1; rw [hc] at this; cases this
          · intro _
            obtain ⟨x, d, e1, e2⟩ := I.rready t hc
            exact ⟨x, d, e1, (e2.mono h1).mono (leq_joinr _ _)⟩
          · intro hw
            have : s.wait = .over ∨ s.wait = .returned := by simp only at hw; split at hw <;> simp_all
            exact J.rover this
      · cases h
    · cases h
  | look =>
    simp only [Plain.step] at h
    split at h
    · rename_i hw
      split at h
      · rename_i hh
        cases hm : s.mem.critical 0 .m s.lm [(.result, false), (.result, true)] with
        | none => rw [hm] at h; simp [Mem.try_] at h
        | some x =>
          obtain ⟨m, lm⟩ := x
          rw [hm] at h
          simp only [Mem.try_] at h
          cases h
          obtain ⟨c, new, rfl, rfl, h1, h2, h3⟩ := Mem.critical_shape hm
          have J := I.vc (vc := upd s.mem.vc 0 c) (Mem.leq_upd h1)
          have hd := I.has.mp hh
          have K : ∀ a ∈ new ++ s.mem.acc, a.stamp.le (upd s.mem.vc 0 c 0) := by
            intro a ha
            rw [upd_same]
            rcases List.mem_append.mp ha with ha | ha
            · exact (h3 a ha).2
            · exact (I.known a ha).elim (·.mono h1) (·.mono h2)
          refine ⟨fun a ha => .inl (K a ha), fun a ha _ _ => K a ha, ?_, ?_, by simp, by simp, by simp, by simp, J.has, fun _ => ⟨hd, K⟩, by simp, J.only, J.resolved, J.rready, ?_, ?_, J.rqueued⟩
          · intro d hc; simp only at hc; rw [hd] at hc; cases hc
          · intro d hc; simp only at hc; rw [hd] at hc; cases hc
          · intro _
            obtain ⟨x, d, e1, e2⟩ := I.rdone hd
            exact ⟨x, d, e1, e2.mono (leq_joinl _ _)⟩
          · intro _
            obtain ⟨x, d, e1, e2⟩ := I.rdone hd
            exact ⟨x, d, e1, by simp only [upd_same]; exact e2.mono h2⟩
      · cases hm : s.mem.critical 0 .m s.lm [(.result, false), (.condition, false)] with
        | none => rw [hm] at h; simp [Mem.try_] at h
        | some x =>
          obtain ⟨m, lm⟩ := x
          rw [hm] at h
          simp only [Mem.try_] at h
          cases h
          obtain ⟨c, new, rfl, rfl, h1, h2, h3⟩ := Mem.critical_shape hm
          have J := I.vc (vc := upd s.mem.vc 0 c) (Mem.leq_upd h1)
          have M : ∀ a ∈ new, ¬ (a.loc = .m ∧ a.write = true) := by
            rintro a ha ⟨e1, e2⟩
            have := (h3 a ha).1
            rw [e1, e2] at this
            simp at this
          refine ⟨?_, ?_, ?_, ?_, ?_, ?_, ?_, J.pending, J.has, ?_, ?_, J.only, J.resolved, J.rready, ?_, J.rover, J.rqueued⟩
          · intro a ha
            rcases List.mem_append.mp ha with ha | ha
            · exact .inr ((h3 a ha).2.mono (leq_joinr _ _))
            · exact (J.known a ha).imp_right (·.mono (leq_joinl _ _))
          · intro a ha e1 e2
            rcases List.mem_append.mp ha with ha | ha
            · exact absurd ⟨e1, e2⟩ (M a ha)
            · exact J.mutex a ha e1 e2
          · intro d hc a ha
            rcases List.mem_append.mp ha with ha | ha
            · exact ⟨.inr ((h3 a ha).2.mono (leq_joinr _ _)), fun e1 e2 => absurd ⟨e1, e2⟩ (M a ha)⟩
            · exact ⟨(J.queued d hc a ha).1.imp_right (·.mono (leq_joinl _ _)), (J.queued d hc a ha).2⟩
          · intro d hc a ha
            rcases List.mem_append.mp ha with ha | ha
            · exact ⟨.inr ((h3 a ha).2.mono (leq_joinr _ _)), fun e1 e2 => absurd ⟨e1, e2⟩ (M a ha)⟩
            · exact ⟨(J.ready d hc a ha).1.imp_right (·.mono (leq_joinl _ _)), (J.ready d hc a ha).2⟩
          · intro g; simp only [hw] at g; cases g
          · intro g; simp only [hw] at g; cases g
          · intro g; simp only [hw] at g; cases g
          · intro g; simp only [hw] at g; cases g
          · intro g; simp only [hw] at g; cases g
          · intro hd
            obtain ⟨x, d, e1, e2⟩ := I.rdone hd
            exact ⟨x, d, e1, e2.mono (leq_joinl _ _)⟩
    · cases h
  | ret =>
    simp only [Plain.step] at h
    split at h
    · rename_i hw
      cases hm : s.mem.accesses 0 (locs.map fun l => (l, true)) with
      | none => rw [hm] at h; simp [Mem.try_] at h
      | some m =>
        rw [hm] at h
        cases h
        obtain ⟨c, new, rfl, h1, h2⟩ := Mem.accesses_shape hm
        have J := I.vc (vc := upd s.mem.vc 0 c) (Mem.leq_upd h1)
        obtain ⟨hd, hk⟩ := J.over hw
        have K : ∀ a ∈ new ++ s.mem.acc, a.stamp.le (upd s.mem.vc 0 c 0) := by
          intro a ha
          rcases List.mem_append.mp ha with ha | ha
          · rw [upd_same]; exact (h2 a ha).2
          · exact hk a ha
        simp only at hd
        refine ⟨fun a ha => .inl (K a ha), fun a ha _ _ => K a ha, ?_, ?_, by simp, by simp, by simp, by simp, J.has, by simp, fun _ => .inl hd, J.only, J.resolved, J.rready, J.rdone, fun _ => J.rover (.inl hw), J.rqueued⟩
        · intro d hc; simp only at hc; rw [hd] at hc; cases hc
        · intro d hc; simp only at hc; rw [hd] at hc; cases hc
    · cases h

theorem Reachable.inv (h : Reachable s) : Inv s := by
  induction h with
  | init => exact .init
  | step _ h I => exact I.step h

end Plain

/-- **C88.** No execution of `await` has a data race in the variables that it shares with the continuation, their construction and
destruction included, and none uses them outside their lifetime. -/
theorem c88_await {s : Plain.St} (h : Plain.Reachable s) (a : Plain.Act) : Plain.step s a ≠ .race ∧ Plain.step s a ≠ .ub := by
  have I := h.inv
  have crit : ∀ t ls, (∀ a ∈ s.mem.acc, (a.stamp.le (s.mem.vc t) ∨ a.stamp.le s.lm) ∧ (a.loc = .m → a.write = true → a.stamp.le (s.mem.vc t))) →
      (∀ y ∈ ls, y.1 ≠ Plain.Loc.m) → s.mem.critical t .m s.lm ls ≠ none := fun t ls h1 h2 =>
    Mem.critical_safe (fun a ha => (h1 a ha).2) (fun a ha _ _ _ _ => (h1 a ha).1) h2
  cases a with
  | work t => simp [Plain.step]
  | sync t u => simp [Plain.step]
  | resolve t => simp only [Plain.step]; split <;> (try split) <;> simp
  | start =>
    simp only [Plain.step]
    split
    · simp
    · rename_i hw _
      have := Mem.accesses_safe (m := s.mem) (t := 0) (ls := Plain.locs.map fun l => (l, true)) (by rw [(I.start hw).2]; simp)
      revert this
      cases s.mem.accesses 0 (Plain.locs.map fun l => (l, true)) <;> simp [Mem.try_]
    · simp
  | attach => simp only [Plain.step]; split <;> simp
  | run =>
    simp only [Plain.step]
    split
    · rename_i t hc
      rw [if_pos (I.no_run hc)]
      have := crit t [(.result, true), (.condition, false)] (I.ready t hc) (by simp)
      revert this
      cases s.mem.critical t .m s.lm [(.result, true), (.condition, false)] <;> simp [Mem.try_]
    · simp
  | look =>
    simp only [Plain.step]
    have W : ∀ a ∈ s.mem.acc, (a.stamp.le (s.mem.vc 0) ∨ a.stamp.le s.lm) ∧ (a.loc = .m → a.write = true → a.stamp.le (s.mem.vc 0)) :=
      fun a ha => ⟨I.known a ha, I.mutex a ha⟩
    split
    · split
      · have := crit 0 [(.result, false), (.result, true)] W (by simp)
        revert this
        cases s.mem.critical 0 .m s.lm [(.result, false), (.result, true)] <;> simp [Mem.try_]
      · have := crit 0 [(.result, false), (.condition, false)] W (by simp)
        revert this
        cases s.mem.critical 0 .m s.lm [(.result, false), (.condition, false)] <;> simp [Mem.try_]
    · simp
  | ret =>
    simp only [Plain.step]
    split
    · rename_i hw
      have := Mem.accesses_safe (m := s.mem) (t := 0) (ls := Plain.locs.map fun l => (l, true)) (fun a ha _ _ _ _ => (I.over hw).2 a ha)
      revert this
      cases s.mem.accesses 0 (Plain.locs.map fun l => (l, true)) <;> simp [Mem.try_]
    · simp

/-- **C88.** The resolution of the future happens before `await` returns. -/
theorem c88_await_result {s : Plain.St} (h : Plain.Reachable s) (hw : s.wait = .returned) :
    ∃ x c, s.resolved = some (x, c) ∧ x.le (s.mem.vc 0) :=
  h.inv.rover (.inr hw)

namespace Timed

variable {s s' : St}

def waits : Wait → Bool
  | .start | .returned => false
  | _ => true

def owner : Cont → Option Nat
  | .owner t | .stored t | .leaving t => some t
  | _ => none

/-- The continuation (or whoever runs it) knows `a`. -/
def knows (vc : Nat → Clock) : Cont → Stamp → Prop
  | .queued c, a => a.le c
  | .ready t, a | .owner t, a | .stored t, a | .leaving t, a => a.le (vc t)
  | .none, _ | .done, _ => True

theorem knows.mono {vc vc' : Nat → Clock} (h : ∀ u, leq (vc u) (vc' u)) {k : Cont} {a : Stamp} (hk : knows vc k a) : knows vc' k a := by
  cases k <;> simp only [knows] at hk ⊢
  · exact hk
  all_goals exact hk.mono (h _)

theorem knows.owner {vc : Nat → Clock} {k : Cont} {a : Stamp} {t : Nat} (hk : knows vc k a) (h : owner k = some t) : a.le (vc t) := by
  cases k <;> cases h <;> exact hk

structure Inv (s : St) : Prop where
  owners : s.owners = (if waits s.wait then 1 else 0) + (if (owner s.cont).isSome then 1 else 0)
  exists_ : s.owners ≠ 0 → s.destroyed = 0
  destroyed : s.owners = 0 → (s.mem.acc = [] ∧ s.destroyed = 0 ∧ s.cont = .none) ∨ s.destroyed = 1
  known : ∀ a ∈ s.mem.acc, s.owners = 0 ∨ (waits s.wait = true ∧ a.stamp.le (s.mem.vc 0)) ∨ (∃ t, owner s.cont = some t ∧ a.stamp.le (s.mem.vc t)) ∨ a.stamp.le s.rc
  data : ∀ a ∈ s.mem.acc, s.owners = 0 ∨ a.loc = .mutex ∨ a.loc = .condition ∨ a.stamp.le s.lm ∨ (a.stamp.le (s.mem.vc 0) ∧ knows s.mem.vc s.cont a.stamp)
  fixed : ∀ a ∈ s.mem.acc, a.write = true → s.owners = 0 ∨ (a.loc ≠ .mutex ∧ a.loc ≠ .condition) ∨ (a.stamp.le (s.mem.vc 0) ∧ knows s.mem.vc s.cont a.stamp)
  start : s.wait = .start → s.cont = .none ∧ s.mem.acc = [] ∧ s.destroyed = 0
  made : s.wait = .made → s.cont = .none
  resolved : ∀ x c, s.resolved = some (x, c) → x.le c
  rqueued : ∀ c, s.cont = .queued c → s.resolved = none
  rready : ∀ t, s.cont = .ready t ∨ s.cont = .owner t → ∃ x c, s.resolved = some (x, c) ∧ x.le (s.mem.vc t)
  rhas : s.has = true → ∃ x c, s.resolved = some (x, c) ∧ x.le s.lm
  rgot : s.got = true → ∃ x c, s.resolved = some (x, c) ∧ x.le (s.mem.vc 0)

theorem Inv.init : Inv init := by
  constructor <;> simp [Timed.init, waits, owner]

/-- Threads get to know more. -/
theorem Inv.vc (I : Inv s) {vc : Nat → Clock} (h : ∀ u, leq (s.mem.vc u) (vc u)) : Inv { s with mem := { s.mem with vc := vc } } where
  owners := I.owners
  exists_ := I.exists_
  destroyed := I.destroyed
  known a ha := (I.known a ha).imp_right (Or.imp (And.imp_right (·.mono (h 0))) (Or.imp_left fun ⟨t, e, g⟩ => ⟨t, e, g.mono (h t)⟩))
  data a ha := (I.data a ha).imp_right (Or.imp_right (Or.imp_right (Or.imp_right (And.imp (·.mono (h 0)) (knows.mono h)))))
  fixed a ha e := (I.fixed a ha e).imp_right (Or.imp_right (And.imp (·.mono (h 0)) (knows.mono h)))
  start := I.start
  made := I.made
  resolved := I.resolved
  rqueued := I.rqueued
  rready t ht := let ⟨x, c, e1, e2⟩ := I.rready t ht; ⟨x, c, e1, e2.mono (h t)⟩
  rhas := I.rhas
  rgot hw := let ⟨x, c, e1, e2⟩ := I.rgot hw; ⟨x, c, e1, e2.mono (h 0)⟩

/-- An owner does a critical section. -/
theorem Inv.critical (I : Inv s) {t : Nat} (ht : (waits s.wait = true ∧ t = 0) ∨ owner s.cont = some t) {ls : List (Loc × Bool)}
    (hl : ∀ y ∈ ls, y.1 = .mutex ∨ y.1 = .condition → y.2 = false) {m : Mem Loc} {lm : Clock} (h : s.mem.critical t .mutex s.lm ls = some (m, lm)) :
    Inv { s with mem := m, lm := lm } ∧ leq s.lm lm ∧ leq (s.mem.vc t) (m.vc t) ∧ leq (s.mem.vc t) lm ∧ leq s.lm (m.vc t) := by
  obtain ⟨c, new, rfl, rfl, h1, h2, h3⟩ := Mem.critical_shape h
  refine ⟨?_, leq_joinl _ _, Mem.leq_upd h1 t, h1.trans (leq_joinr _ _), by simp only [upd_same]; exact h2⟩
  have J := I.vc (vc := upd s.mem.vc t c) (Mem.leq_upd h1)
  refine ⟨J.owners, J.exists_, ?_, ?_, ?_, ?_, ?_, J.made, J.resolved, J.rqueued, J.rready, ?_, J.rgot⟩
  · intro h0
    refine absurd h0 ?_
    have := I.owners
    rcases ht with ⟨g, -⟩ | g <;> rw [g] at this <;> simp at this ⊢ <;> omega
  · intro a ha
    rcases List.mem_append.mp ha with hn | ha
    · right
      rcases ht with ⟨g, rfl⟩ | g
      · exact .inl ⟨g, by simp only [upd_same]; exact (h3 a hn).2⟩
      · exact .inr (.inl ⟨t, g, by simp only [upd_same]; exact (h3 a hn).2⟩)
    · exact J.known a ha
  · intro a ha
    rcases List.mem_append.mp ha with ha | ha
    · exact .inr (.inr (.inr (.inl ((h3 a ha).2.mono (leq_joinr _ _)))))
    · exact (J.data a ha).imp_right (Or.imp_right (Or.imp_right (Or.imp_left (·.mono (leq_joinl _ _)))))
  · intro a ha e
    rcases List.mem_append.mp ha with ha | ha
    · refine .inr (.inl ?_)
      rcases (h3 a ha).1 with g | ⟨-, g⟩
      · constructor <;> intro g' <;> (have := hl _ g (by simp [g']); simp only at this; rw [this] at e; cases e)
      · rw [g] at e; cases e
    · exact J.fixed a ha e
  · intro hw
    simp only at hw
    rcases ht with ⟨g, -⟩ | g
    · rw [hw] at g; cases g
    · rw [(I.start hw).1] at g; cases g
  · intro hh
    obtain ⟨x, d, e1, e2⟩ := I.rhas hh
    exact ⟨x, d, e1, e2.mono (leq_joinl _ _)⟩

theorem Inv.critical_safe (I : Inv s) {t : Nat} (ht : (waits s.wait = true ∧ t = 0) ∨ owner s.cont = some t) {ls : List (Loc × Bool)}
    (hl : ∀ y ∈ ls, y.1 ≠ .mutex ∧ (y.1 = .condition → y.2 = false)) : s.mem.critical t .mutex s.lm ls ≠ none := by
  have h0 : s.owners ≠ 0 := by
    have := I.owners
    rcases ht with ⟨g, -⟩ | g <;> rw [g] at this <;> simp at this ⊢ <;> omega
  have both : ∀ {x : Stamp}, x.le (s.mem.vc 0) ∧ knows s.mem.vc s.cont x → x.le (s.mem.vc t) := by
    intro x ⟨g1, g2⟩
    rcases ht with ⟨-, rfl⟩ | g
    · exact g1
    · exact g2.owner g
  refine Mem.critical_safe ?_ ?_ (fun y hy => (hl y hy).1)
  · intro a ha e1 e2
    rcases I.fixed a ha e2 with g | g | g
    · exact absurd g h0
    · exact absurd e1 g.1
    · exact both g
  · intro a ha y hy e1 e2
    rcases I.data a ha with g | g | g | g | g
    · exact absurd g h0
    · exact absurd (e1 ▸ g) (hl y hy).1
    · have := (hl y hy).2 (e1 ▸ g)
      rw [this] at e2
      rcases I.fixed a ha (by simpa using e2) with g' | g' | g'
      · exact absurd g' h0
      · exact absurd g g'.2
      · exact .inl (both g')
    · exact .inr g
    · exact .inl (both g)

/-- What giving up a share does. -/
theorem Inv.release (I : Inv s) {t : Nat} (ht : (waits s.wait = true ∧ t = 0) ∨ owner s.cont = some t) :
    ∃ m rc d, release s t = .ok { s with mem := m, rc := rc, owners := s.owners - 1, destroyed := d } ∧ (∀ u, leq (s.mem.vc u) (m.vc u)) ∧
      leq s.rc rc ∧ leq (s.mem.vc t) rc ∧ ((s.owners = 1 ∧ d = s.destroyed + 1) ∨ (2 ≤ s.owners ∧ d = s.destroyed ∧ m = s.mem)) := by
  have h0 : s.owners ≠ 0 := by
    have := I.owners
    rcases ht with ⟨g, -⟩ | g <;> rw [g] at this <;> simp at this ⊢ <;> omega
  unfold Timed.release
  by_cases h1 : s.owners = 1
  · rw [if_pos h1]
    have := Mem.accesses_safe (m := { s.mem with vc := acquire s.mem.vc t (join s.rc (s.mem.vc t)) }) (t := t) (ls := locs.map fun l => (l, true)) (by
      intro a ha _ _ _ _
      show a.stamp.le (acquire s.mem.vc t (join s.rc (s.mem.vc t)) t)
      have own := I.owners
      rw [h1] at own
      rcases I.known a ha with g | ⟨g1, g2⟩ | ⟨u, g1, g2⟩ | g
      · exact absurd g h0
      · rcases ht with ⟨-, rfl⟩ | h
        · exact g2.mono (leq_acquire s.mem.vc _ _ _)
        · rw [g1, h] at own; simp at own
      · rcases ht with ⟨h, rfl⟩ | h
        · rw [g1, h] at own; simp at own
        · rw [h] at g1; cases g1; exact g2.mono (leq_acquire s.mem.vc _ _ _)
      · exact (g.mono (leq_joinl _ _)).mono (acquire_leq _ _ _))
    cases hm : Mem.accesses { s.mem with vc := acquire s.mem.vc t (join s.rc (s.mem.vc t)) } t (locs.map fun l => (l, true)) with
    | none => exact absurd hm this
    | some m =>
      obtain ⟨c, new, rfl, g1, -⟩ := Mem.accesses_shape hm
      exact ⟨_, _, _, by simp only [Mem.try_, h1]; rfl, fun u => (leq_acquire _ _ _ _).trans (Mem.leq_upd g1 u), leq_joinl _ _, leq_joinr _ _, .inl ⟨h1, rfl⟩⟩
  · rw [if_neg h1]
    exact ⟨s.mem, _, s.destroyed, rfl, fun _ => leq.refl _, leq_joinl _ _, leq_joinr _ _, .inr ⟨by omega, rfl, rfl⟩⟩

theorem Inv.finish (I : Inv s) (h : owner s.cont = none) (hn : s.cont ≠ .none) : Inv (finish s) := by
  have hw : s.wait ≠ .start ∧ s.wait ≠ .made := ⟨fun g => hn (I.start g).1, fun g => hn (I.made g)⟩
  have e : waits (Timed.finish s).wait = waits s.wait := by
    simp only [Timed.finish]
    split
    · rename_i g; rw [g]; rfl
    · rfl
  refine ⟨?_, I.exists_, ?_, ?_, ?_, ?_, ?_, ?_, I.resolved, by simp [Timed.finish], by simp [Timed.finish], I.rhas, I.rgot⟩
  · rw [e]; have := I.owners; rw [h] at this; exact this
  · intro h0
    rcases I.destroyed h0 with g | g
    · exact absurd g.2.2 hn
    · exact .inr g
  · intro a ha
    rw [e]
    rcases I.known a ha with g | g | ⟨t, g, -⟩ | g
    · exact .inl g
    · exact .inr (.inl g)
    · rw [h] at g; cases g
    · exact .inr (.inr (.inr g))
  · intro a ha
    exact (I.data a ha).imp_right (Or.imp_right (Or.imp_right (Or.imp_right (And.imp_right fun _ => trivial))))
  · intro a ha e
    exact (I.fixed a ha e).imp_right (Or.imp_right (And.imp_right fun _ => trivial))
  · intro g; simp only [Timed.finish] at g; split at g
    · cases g
    · exact absurd g hw.1
  · intro g; simp only [Timed.finish] at g; split at g
    · cases g
    · exact absurd g hw.2

/-- The continuation goes on. -/
theorem Inv.move (I : Inv s) {t : Nat} {k : Cont} (h : owner s.cont = some t) (hk : k = .stored t ∨ k = .leaving t) : Inv { s with cont := k } := by
  have e1 : owner k = owner s.cont := by rcases hk with rfl | rfl <;> exact h.symm
  have e2 : ∀ x, knows s.mem.vc s.cont x → knows s.mem.vc k x := by
    intro x hx
    have := hx.owner h
    rcases hk with rfl | rfl <;> exact this
  have e3 : s.cont ≠ .none := by intro g; rw [g] at h; cases h
  refine ⟨?_, I.exists_, ?_, ?_, ?_, ?_, ?_, ?_, I.resolved, ?_, ?_, I.rhas, I.rgot⟩
  · rw [e1]; exact I.owners
  · intro h0
    exact (I.destroyed h0).elim (fun g => absurd g.2.2 e3) .inr
  · intro a ha; rw [e1]; exact I.known a ha
  · intro a ha; exact (I.data a ha).imp_right (Or.imp_right (Or.imp_right (Or.imp_right (And.imp_right (e2 _)))))
  · intro a ha e; exact (I.fixed a ha e).imp_right (Or.imp_right (And.imp_right (e2 _)))
  · intro g; exact absurd (I.start g).1 e3
  · intro g; exact absurd (I.made g) e3
  · rintro c rfl; rcases hk with g | g <;> cases g
  · rintro u hu; rcases hk with rfl | rfl <;> rcases hu with g | g <;> cases g

/-- The wait is over. -/
theorem Inv.over (I : Inv s) (hw : s.wait = .waiting) (b : Bool) : Inv { s with wait := .over, timedOut := b } := by
  have e : waits Wait.over = waits s.wait := by rw [hw]; rfl
  refine ⟨?_, I.exists_, I.destroyed, ?_, I.data, I.fixed, by simp, by simp, I.resolved, I.rqueued, I.rready, I.rhas, I.rgot⟩
  · simp only; rw [e]; exact I.owners
  · intro a ha; simp only; rw [e]; exact I.known a ha

theorem Inv.step (I : Inv s) {a : Act} (h : step s a = .ok s') : Inv s' := by
  cases a with
  | work t => cases h; exact I.vc (leq_tick _ _)
  | sync t u => cases h; exact I.vc (fun w => leq_acquire _ _ _ _)
  | resolve t =>
    simp only [Timed.step] at h
    split at h
    · cases h
    · rename_i hr
      split at h
      · rename_i c hc
        cases h
        have J := I.vc (vc := acquire (tick s.mem.vc t) t c) (fun w => (leq_tick _ _ _).trans (leq_acquire _ _ _ _))
        have K : ∀ x, knows (acquire (tick s.mem.vc t) t c) s.cont x → knows (acquire (tick s.mem.vc t) t c) (.ready t) x := by
          intro x hx
          rw [hc] at hx
          exact Stamp.le.mono hx (acquire_leq _ _ _)
        have e3 : s.cont ≠ .none := by rw [hc]; simp
        refine ⟨?_, J.exists_, ?_, ?_, ?_, ?_, ?_, ?_, ?_, by simp, ?_, ?_, ?_⟩
        · have := I.owners; rw [hc] at this; exact this
        · intro h0; exact (I.destroyed h0).elim (fun g => absurd g.2.2 e3) .inr
        · intro a ha; have := J.known a ha; simp only [hc] at this; exact this
        · intro a ha; exact (J.data a ha).imp_right (Or.imp_right (Or.imp_right (Or.imp_right (And.imp_right (K _)))))
        · intro a ha e; exact (J.fixed a ha e).imp_right (Or.imp_right (And.imp_right (K _)))
        · intro g; exact absurd (I.start g).1 e3
        · intro g; exact absurd (I.made g) e3
        · intro x d e; cases e; exact tick_stamp _ _
        · intro u hu; rcases hu with g | g <;> cases g; exact ⟨_, _, rfl, (tick_stamp _ _).mono (leq_acquire _ _ _ _)⟩
        · intro g; obtain ⟨x, d, e, -⟩ := I.rhas g; rw [hr] at e; cases e
        · intro g; obtain ⟨x, d, e, -⟩ := I.rgot g; rw [hr] at e; cases e
      · rename_i hc
        cases h
        have J := I.vc (leq_tick s.mem.vc t)
        refine ⟨J.owners, J.exists_, J.destroyed, J.known, J.data, J.fixed, J.start, J.made, ?_, ?_, ?_, ?_, ?_⟩
        · intro x d e; cases e; exact tick_stamp _ _
        · intro c hc'; exact absurd hc' (hc c)
        · intro u hu; obtain ⟨x, d, e, -⟩ := I.rready u hu; rw [hr] at e; cases e
        · intro g; obtain ⟨x, d, e, -⟩ := I.rhas g; rw [hr] at e; cases e
        · intro g; obtain ⟨x, d, e, -⟩ := I.rgot g; rw [hr] at e; cases e
  | start =>
    simp only [Timed.step] at h
    split at h
    · rename_i x c hw hr
      cases h
      obtain ⟨hc, ha, hd⟩ := I.start hw
      have J := I.vc (vc := acquire s.mem.vc 0 c) (fun w => leq_acquire _ _ _ _)
      have h0 : s.owners = 0 := by have := I.owners; rw [hw, hc] at this; exact this
      refine ⟨?_, J.exists_, J.destroyed, fun _ _ => .inl h0, J.data, J.fixed, by simp, by simp, J.resolved, J.rqueued, J.rready, J.rhas, ?_⟩
      · have := I.owners; rw [hw] at this; exact this
      · intro _; exact ⟨x, c, hr, (I.resolved x c hr).mono (acquire_leq s.mem.vc 0 c)⟩
    · rename_i hw hr
      obtain ⟨hc, ha, hd⟩ := I.start hw
      cases hm : s.mem.accesses 0 (locs.map fun l => (l, true)) with
      | none => rw [hm] at h; simp [Mem.try_] at h
      | some m =>
        rw [hm] at h
        cases h
        obtain ⟨c, new, rfl, h1, h2⟩ := Mem.accesses_shape hm
        have J := I.vc (vc := upd s.mem.vc 0 c) (Mem.leq_upd h1)
        have K : ∀ a ∈ new ++ s.mem.acc, a.stamp.le (upd s.mem.vc 0 c 0) := by
          rw [ha, List.append_nil, upd_same]; exact fun a ha => (h2 a ha).2
        have N : ∀ x, knows (upd s.mem.vc 0 c) s.cont x := by rw [hc]; exact fun _ => trivial
        refine ⟨?_, fun _ => hd, by simp, ?_, ?_, ?_, by simp, fun _ => hc, J.resolved, J.rqueued, J.rready, J.rhas, J.rgot⟩
        · simp only [hc]; rfl
        · intro a ha; exact .inr (.inl ⟨rfl, K a ha⟩)
        · intro a ha; exact .inr (.inr (.inr (.inr ⟨K a ha, N _⟩)))
        · intro a ha _; exact .inr (.inr ⟨K a ha, N _⟩)
    · cases h
  | attach =>
    simp only [Timed.step] at h
    split at h
    · rename_i x c hw hr
      cases h
      have hc := I.made hw
      have J := I.vc (vc := acquire s.mem.vc 0 c) (fun w => leq_acquire _ _ _ _)
      have h1 : s.owners = 1 := by have := I.owners; rw [hw, hc] at this; exact this
      refine ⟨h1, J.exists_, ?_, ?_, ?_, ?_, by simp, by simp, J.resolved, by simp, ?_, J.rhas, J.rgot⟩
      · intro h0; simp only at h0; omega
      · intro a ha; have := J.known a ha; simp only [hc, hw] at this; exact this
      · intro a ha; exact (J.data a ha).imp_right (Or.imp_right (Or.imp_right (Or.imp_right fun g => ⟨g.1, g.1⟩)))
      · intro a ha e; exact (J.fixed a ha e).imp_right (Or.imp_right fun g => ⟨g.1, g.1⟩)
      · intro u hu; rcases hu with g | g <;> cases g; exact ⟨x, c, hr, (I.resolved x c hr).mono (acquire_leq s.mem.vc 0 c)⟩
    · rename_i hw hr
      cases h
      have hc := I.made hw
      have h1 : s.owners = 1 := by have := I.owners; rw [hw, hc] at this; exact this
      refine ⟨h1, I.exists_, ?_, ?_, ?_, ?_, by simp, by simp, I.resolved, fun _ _ => hr, by simp, I.rhas, I.rgot⟩
      · intro h0; simp only at h0; omega
      · intro a ha; have := I.known a ha; simp only [hc, hw] at this; exact this
      · intro a ha; exact (I.data a ha).imp_right (Or.imp_right (Or.imp_right (Or.imp_right fun g => ⟨g.1, g.1⟩)))
      · intro a ha e; exact (I.fixed a ha e).imp_right (Or.imp_right fun g => ⟨g.1, g.1⟩)
    · cases h
  | lock =>
    simp only [Timed.step] at h
    split at h
    · rename_i t hc
      have e3 : s.cont ≠ .none := by rw [hc]; simp
      split at h
      · cases h; exact I.finish (by rw [hc]; rfl) e3
      · rename_i h0
        cases h
        refine ⟨?_, fun _ => I.exists_ h0, by simp, ?_, ?_, ?_, ?_, ?_, I.resolved, by simp, ?_, I.rhas, I.rgot⟩
        · have := I.owners; rw [hc] at this; simp only; rw [this]; rfl
        · intro a ha
          rcases I.known a ha with g | g | ⟨u, g, -⟩ | g
          · exact absurd g h0
          · exact .inr (.inl g)
          · rw [hc] at g; cases g
          · exact .inr (.inr (.inr g))
        · intro a ha; have := I.data a ha; rw [hc] at this; exact this.imp_left fun g => absurd g h0
        · intro a ha e; have := I.fixed a ha e; rw [hc] at this; exact this.imp_left fun g => absurd g h0
        · intro g; exact absurd (I.start g).1 e3
        · intro g; exact absurd (I.made g) e3
        · intro u hu; rcases hu with g | g <;> cases g; exact I.rready t (.inl hc)
    · cases h
  | set =>
    simp only [Timed.step] at h
    split at h
    · rename_i t hc
      have ho : owner s.cont = some t := by rw [hc]; rfl
      split at h
      · cases h
      · split at h
        · cases hm : s.mem.critical t .mutex s.lm [(.timedOut, false)] with
          | none => rw [hm] at h; simp [Mem.try_] at h
          | some x =>
            rw [hm] at h
            cases h
            exact (I.critical (.inr ho) (by simp) hm).1.move ho (.inr rfl)
        · cases hm : s.mem.critical t .mutex s.lm [(.timedOut, false), (.result, true)] with
          | none => rw [hm] at h; simp [Mem.try_] at h
          | some x =>
            rw [hm] at h
            cases h
            obtain ⟨J, j1, j2, j3, j4⟩ := I.critical (.inr ho) (by simp) hm
            have K := J.move (k := .stored t) ho (.inl rfl)
            obtain ⟨x, c, e1, e2⟩ := I.rready t (.inr hc)
            exact ⟨K.owners, K.exists_, K.destroyed, K.known, K.data, K.fixed, K.start, K.made, K.resolved, K.rqueued, K.rready, fun _ => ⟨x, c, e1, e2.mono j3⟩, K.rgot⟩
    · cases h
  | notify =>
    simp only [Timed.step] at h
    split at h
    · rename_i t hc
      have ho : owner s.cont = some t := by rw [hc]; rfl
      split at h
      · cases h
      · cases hm : s.mem.access t .condition false with
        | none => rw [hm] at h; simp [Mem.try_] at h
        | some m =>
          rw [hm] at h
          cases h
          cases Mem.access_shape hm
          have J := (I.vc (leq_tick s.mem.vc t)).move (k := .leaving t) ho (.inr rfl)
          refine ⟨J.owners, J.exists_, ?_, ?_, ?_, ?_, ?_, J.made, J.resolved, J.rqueued, J.rready, J.rhas, J.rgot⟩
          · intro h0; exact (J.destroyed h0).elim (fun g => by cases g.2.2) .inr
          · intro a ha
            rcases List.mem_cons.mp ha with rfl | ha
            · exact .inr (.inr (.inl ⟨t, rfl, tick_stamp _ _⟩))
            · exact J.known a ha
          · intro a ha
            rcases List.mem_cons.mp ha with rfl | ha
            · exact .inr (.inr (.inl rfl))
            · exact J.data a ha
          · intro a ha e
            rcases List.mem_cons.mp ha with rfl | ha
            · cases e
            · exact J.fixed a ha e
          · intro g; have := (J.start g).1; cases this
    · cases h
  | drop =>
    simp only [Timed.step] at h
    split at h
    · rename_i t hc
      have ho : owner s.cont = some t := by rw [hc]; rfl
      have e3 : s.cont ≠ .none := by rw [hc]; simp
      obtain ⟨m, rc, d, g1, g2, g3, g4, g5⟩ := I.release (.inr ho)
      rw [g1] at h
      cases h
      have own := I.owners
      rw [ho] at own
      simp only [Option.isSome_some, if_true] at own
      refine Inv.finish (s := { s with mem := m, rc := rc, owners := s.owners - 1, destroyed := d, cont := .done }) ?_ rfl (by simp)
      refine ⟨?_, ?_, ?_, ?_, ?_, ?_, ?_, ?_, I.resolved, by simp, by simp, I.rhas, ?_⟩
      · simp only; rw [own]; rfl
      · intro h0
        rcases g5 with ⟨g, -⟩ | ⟨g, rfl, -⟩
        · simp only at h0; omega
        · exact I.exists_ (by omega)
      · intro h0
        rcases g5 with ⟨g, rfl⟩ | ⟨g, -⟩
        · exact .inr (by simp only; rw [I.exists_ (by omega)])
        · simp only at h0; omega
      · intro a ha
        rcases g5 with ⟨g, -⟩ | ⟨g, -, rfl⟩
        · exact .inl (by simp only; omega)
        · rcases I.known a ha with k | k | ⟨u, k1, k2⟩ | k
          · omega
          · exact .inr (.inl k)
          · rw [ho] at k1; cases k1; exact .inr (.inr (.inr (k2.mono g4)))
          · exact .inr (.inr (.inr (k.mono g3)))
      · intro a ha
        rcases g5 with ⟨g, -⟩ | ⟨g, -, rfl⟩
        · exact .inl (by simp only; omega)
        · exact (I.data a ha).imp (by simp only; omega) (Or.imp_right (Or.imp_right (Or.imp_right (And.imp_right fun _ => trivial))))
      · intro a ha e
        rcases g5 with ⟨g, -⟩ | ⟨g, -, rfl⟩
        · exact .inl (by simp only; omega)
        · exact (I.fixed a ha e).imp (by simp only; omega) (Or.imp_right (And.imp_right fun _ => trivial))
      · intro g; exact absurd (I.start g).1 e3
      · intro g; exact absurd (I.made g) e3
      · intro g
        obtain ⟨x, c, e1, e2⟩ := I.rgot g
        exact ⟨x, c, e1, e2.mono (g2 0)⟩
    · cases h
  | look time =>
    simp only [Timed.step] at h
    split at h
    · rename_i hw
      have hw' : waits s.wait = true := by rw [hw]; rfl
      split at h
      · cases h
      · split at h
        · rename_i hh
          cases hm : s.mem.critical 0 .mutex s.lm [(.result, false), (.timedOut, true), (.timedOut, false), (.result, true)] with
          | none => rw [hm] at h; simp [Mem.try_] at h
          | some x =>
            rw [hm] at h
            cases h
            obtain ⟨J, j1, j2, j3, j4⟩ := I.critical (.inl ⟨hw', rfl⟩) (by simp) hm
            have K := J.over hw false
            obtain ⟨x, c, e1, e2⟩ := I.rhas hh
            exact ⟨K.owners, K.exists_, K.destroyed, K.known, K.data, K.fixed, K.start, K.made, K.resolved, K.rqueued, K.rready, K.rhas, fun _ => ⟨x, c, e1, e2.mono j4⟩⟩
        · split at h
          · cases hm : s.mem.critical 0 .mutex s.lm [(.result, false), (.timedOut, true), (.timedOut, false)] with
            | none => rw [hm] at h; simp [Mem.try_] at h
            | some x =>
              rw [hm] at h
              cases h
              exact (I.critical (.inl ⟨hw', rfl⟩) (by simp) hm).1.over hw true
          · cases hm : s.mem.critical 0 .mutex s.lm [(.result, false), (.condition, false)] with
            | none => rw [hm] at h; simp [Mem.try_] at h
            | some x =>
              rw [hm] at h
              cases h
              exact (I.critical (.inl ⟨hw', rfl⟩) (by simp) hm).1
    · cases h
  | ret =>
    simp only [Timed.step] at h
    split at h
    · rename_i hw
      have hw' : waits s.wait = true := by rw [hw]; rfl
      obtain ⟨m, rc, d, g1, g2, g3, g4, g5⟩ := I.release (.inl ⟨hw', rfl⟩)
      rw [g1] at h
      cases h
      have own := I.owners
      rw [hw'] at own
      simp only [if_true] at own
      refine ⟨?_, ?_, ?_, ?_, ?_, ?_, by simp, by simp, I.resolved, I.rqueued, ?_, I.rhas, ?_⟩
      · simp only; rw [own, Nat.add_sub_cancel_left]; simp [waits]
      · intro h0
        rcases g5 with ⟨g, -⟩ | ⟨g, rfl, -⟩
        · simp only at h0; omega
        · exact I.exists_ (by omega)
      · intro h0
        rcases g5 with ⟨g, rfl⟩ | ⟨g, -⟩
        · exact .inr (by simp only; rw [I.exists_ (by omega)])
        · simp only at h0; omega
      · intro a ha
        rcases g5 with ⟨g, -⟩ | ⟨g, -, rfl⟩
        · exact .inl (by simp only; omega)
        · rcases I.known a ha with k | k | k | k
          · omega
          · exact .inr (.inr (.inr (k.2.mono g4)))
          · exact .inr (.inr (.inl k))
          · exact .inr (.inr (.inr (k.mono g3)))
      · intro a ha
        rcases g5 with ⟨g, -⟩ | ⟨g, -, rfl⟩
        · exact .inl (by simp only; omega)
        · exact (I.data a ha).imp_left (by simp only; omega)
      · intro a ha e
        rcases g5 with ⟨g, -⟩ | ⟨g, -, rfl⟩
        · exact .inl (by simp only; omega)
        · exact (I.fixed a ha e).imp_left (by simp only; omega)
      · intro t ht
        obtain ⟨x, c, e1, e2⟩ := I.rready t ht
        exact ⟨x, c, e1, e2.mono (g2 t)⟩
      · intro g
        obtain ⟨x, c, e1, e2⟩ := I.rgot g
        exact ⟨x, c, e1, e2.mono (g2 0)⟩
    · cases h

theorem Reachable.inv (h : Reachable s) : Inv s := by
  induction h with
  | init => exact .init
  | step _ h I => exact I.step h

theorem Inv.alive (I : Inv s) (h : waits s.wait = true ∨ (owner s.cont).isSome = true) : s.destroyed = 0 := by
  refine I.exists_ ?_
  have := I.owners
  rcases h with g | g <;> rw [g] at this <;> simp at this ⊢ <;> omega

end Timed

/-- **C88.** No execution of `await_for` has a data race in the data that it shares with the continuation, construction and destruction included, and none uses the data
outside its lifetime. -/
theorem c88_await_for {s : Timed.St} (h : Timed.Reachable s) (a : Timed.Act) : Timed.step s a ≠ .race ∧ Timed.step s a ≠ .ub := by
  have I := h.inv
  cases a with
  | work t => simp [Timed.step]
  | sync t u => simp [Timed.step]
  | resolve t => simp only [Timed.step]; split <;> (try split) <;> simp
  | start =>
    simp only [Timed.step]
    split
    · simp
    · rename_i hw _
      have := Mem.accesses_safe (m := s.mem) (t := 0) (ls := Timed.locs.map fun l => (l, true)) (by rw [(I.start hw).2.1]; simp)
      revert this
      cases s.mem.accesses 0 (Timed.locs.map fun l => (l, true)) <;> simp [Mem.try_]
    · simp
  | attach => simp only [Timed.step]; split <;> simp
  | lock => simp only [Timed.step]; split <;> (try split) <;> simp
  | set =>
    simp only [Timed.step]
    split
    · rename_i t hc
      have ho : Timed.owner s.cont = some t := by rw [hc]; rfl
      have hd := I.alive (.inr (by rw [ho]; rfl))
      simp only [hd, ne_eq, not_true_eq_false, if_false]
      split
      · have := I.critical_safe (.inr ho) (ls := [(.timedOut, false)]) (by simp)
        revert this
        cases s.mem.critical t .mutex s.lm [(.timedOut, false)] <;> simp [Mem.try_]
      · have := I.critical_safe (.inr ho) (ls := [(.timedOut, false), (.result, true)]) (by simp)
        revert this
        cases s.mem.critical t .mutex s.lm [(.timedOut, false), (.result, true)] <;> simp [Mem.try_]
    · simp
  | notify =>
    simp only [Timed.step]
    split
    · rename_i t hc
      have ho : Timed.owner s.cont = some t := by rw [hc]; rfl
      have hd := I.alive (.inr (by rw [ho]; rfl))
      simp only [hd, ne_eq, not_true_eq_false, if_false]
      rw [Mem.access_safe]
      · simp [Mem.try_]
      · intro a ha e1 e2
        rcases I.fixed a ha (by simpa using e2) with g | g | g
        · have := I.owners; rw [ho] at this; simp at this; omega
        · exact absurd e1 g.2
        · exact g.2.owner ho
    · simp
  | drop =>
    simp only [Timed.step]
    split
    · rename_i t hc
      obtain ⟨m, rc, d, g1, -⟩ := I.release (t := t) (.inr (by rw [hc]; rfl))
      rw [g1]; simp [Timed.Out.map]
    · simp
  | look time =>
    simp only [Timed.step]
    split
    · rename_i hw
      have hw' : Timed.waits s.wait = true := by rw [hw]; rfl
      have hd := I.alive (.inl hw')
      simp only [hd, ne_eq, not_true_eq_false, if_false]
      split
      · have := I.critical_safe (.inl ⟨hw', rfl⟩) (ls := [(.result, false), (.timedOut, true), (.timedOut, false), (.result, true)]) (by simp)
        revert this
        cases s.mem.critical 0 .mutex s.lm [(.result, false), (.timedOut, true), (.timedOut, false), (.result, true)] <;> simp [Mem.try_]
      · split
        · have := I.critical_safe (.inl ⟨hw', rfl⟩) (ls := [(.result, false), (.timedOut, true), (.timedOut, false)]) (by simp)
          revert this
          cases s.mem.critical 0 .mutex s.lm [(.result, false), (.timedOut, true), (.timedOut, false)] <;> simp [Mem.try_]
        · have := I.critical_safe (.inl ⟨hw', rfl⟩) (ls := [(.result, false), (.condition, false)]) (by simp)
          revert this
          cases s.mem.critical 0 .mutex s.lm [(.result, false), (.condition, false)] <;> simp [Mem.try_]
    · simp
  | ret =>
    simp only [Timed.step]
    split
    · rename_i hw
      obtain ⟨m, rc, d, g1, -⟩ := I.release (t := 0) (.inl ⟨by rw [hw]; rfl, rfl⟩)
      rw [g1]; simp [Timed.Out.map]
    · simp

/-- **C88.** If `await_for` returns a ready future then the resolution of its argument happens before that. -/
theorem c88_await_for_result {s : Timed.St} (h : Timed.Reachable s) (hg : s.got = true) :
    ∃ x c, s.resolved = some (x, c) ∧ x.le (s.mem.vc 0) :=
  h.inv.rgot hg

/-- **C88.** When `await_for` has returned and the continuation does not run, the shared data is destroyed, and once only, unless it was never made. -/
theorem c88_await_for_destroyed {s : Timed.St} (h : Timed.Reachable s) :
    s.destroyed ≤ 1 ∧ (s.wait = .returned → Timed.owner s.cont = none → s.destroyed = 1 ∨ s.mem.acc = []) := by
  have I := h.inv
  constructor
  · by_cases h0 : s.owners = 0
    · rcases I.destroyed h0 with g | g <;> omega
    · rw [I.exists_ h0]; omega
  · intro hw hc
    have := I.owners
    rw [hw, hc] at this
    exact (I.destroyed (by simpa [Timed.waits] using this)).elim (fun g => .inr g.1) .inl

/-! ## Examples -/

/-- An execution, the last action first. -/
def Plain.run : List Plain.Act → Option Plain.St
  | [] => some Plain.init
  | a :: as =>
    match run as with
    | none => none
    | some s =>
      match Plain.step s a with
      | .ok s => some s
      | _ => none

theorem Plain.run_reachable {as : List Plain.Act} {s : Plain.St} (h : Plain.run as = some s) : Plain.Reachable s := by
  induction as generalizing s with
  | nil => cases h; exact .init
  | cons a as ih =>
    simp only [Plain.run] at h
    split at h
    · cases h
    · rename_i s' hs
      split at h
      · rename_i s'' g
        cases h
        exact .step (ih hs) g
      · cases h

def Timed.run : List Timed.Act → Option Timed.St
  | [] => some Timed.init
  | a :: as =>
    match run as with
    | none => none
    | some s =>
      match Timed.step s a with
      | .ok s => some s
      | _ => none

theorem Timed.run_reachable {as : List Timed.Act} {s : Timed.St} (h : Timed.run as = some s) : Timed.Reachable s := by
  induction as generalizing s with
  | nil => cases h; exact .init
  | cons a as ih =>
    simp only [Timed.run] at h
    split at h
    · cases h
    · rename_i s' hs
      split at h
      · rename_i s'' g
        cases h
        exact .step (ih hs) g
      · cases h

/-- Thread 5 works and resolves the future while thread 0 sleeps; `await` returns. -/
example : ∃ s, Plain.Reachable s ∧ s.wait = .returned ∧ s.resolved.map (·.1) = some ⟨5, 2⟩ ∧ s.mem.vc 0 5 = 6 :=
  ⟨_, Plain.run_reachable (as := [.ret, .look, .run, .resolve 5, .look, .attach, .start, .work 5]) rfl, rfl, rfl, rfl⟩

/-- The future is resolved before the continuation is attached: thread 0 runs it. -/
example : ∃ s, Plain.Reachable s ∧ s.wait = .returned ∧ s.mem.vc 0 5 = 1 :=
  ⟨_, Plain.run_reachable (as := [.ret, .look, .run, .attach, .resolve 5, .start]) rfl, rfl, rfl⟩

/-- `await_for` gets the result and returns before the continuation has notified it: the continuation destroys the data. -/
example : ∃ s, Timed.Reachable s ∧ s.wait = .returned ∧ s.got = true ∧ s.destroyed = 1 ∧ s.mem.acc.length = 23 :=
  ⟨_, Timed.run_reachable (as := [.drop, .notify, .ret, .look false, .set, .lock, .resolve 5, .look false, .attach, .start]) rfl, rfl, rfl, rfl, rfl⟩

/-- The time is over while the continuation owns the data: it sets no result. -/
example : ∃ s, Timed.Reachable s ∧ s.wait = .returned ∧ s.got = false ∧ s.has = false ∧ s.destroyed = 1 :=
  ⟨_, Timed.run_reachable (as := [.drop, .ret, .set, .look true, .lock, .resolve 5, .attach, .start]) rfl, rfl, rfl, rfl, rfl⟩

/-- The time is over before the future is resolved: the data does not exist any more. -/
example : ∃ s, Timed.Reachable s ∧ s.wait = .returned ∧ s.got = false ∧ s.destroyed = 1 ∧ s.resolved.isSome = true :=
  ⟨_, Timed.run_reachable (as := [.lock, .resolve 5, .ret, .look true, .attach, .start]) rfl, rfl, rfl, rfl, rfl⟩

end Verif.Sync.Await
