import Verif.Sync.Clock

/-!
# Memory with data races

Shared by models of data races: a memory keeps all accesses with their times (`Verif.Sync.Clock`). An access races with an earlier one to the same
place, at least one of them a write, if the earlier one does not happen before it. Locking and unlocking a mutex, and waiting for and notifying a
condition variable, count as reading it; construction and destruction of any object as writing it.
-/

namespace Verif.Sync

structure Access (L : Type) where
  loc : L
  write : Bool
  stamp : Stamp
  deriving DecidableEq, Repr

structure Mem (L : Type) where
  vc : Nat → Clock
  acc : List (Access L)

/-- What a step of a program does. -/
inductive Out (S : Type) where
  /-- it can not be done now -/
  | no
  /-- an object is used that does not exist, or does not exist any more -/
  | ub
  /-- data race -/
  | race
  | ok (s : S)

namespace Mem

variable {L : Type} [DecidableEq L]

/-- Thread `t` reads or writes `l`; `none` if this is a data race. -/
def access (m : Mem L) (t : Nat) (l : L) (w : Bool) : Option (Mem L) :=
  if m.acc.any fun a => a.loc = l && (a.write || w) && ¬ a.stamp.le (m.vc t) then none
  else some { vc := tick m.vc t, acc := ⟨l, w, ⟨t, m.vc t t + 1⟩⟩ :: m.acc }

def accesses (m : Mem L) (t : Nat) : List (L × Bool) → Option (Mem L)
  | [] => some m
  | l :: ls => (m.access t l.1 l.2).bind fun m => m.accesses t ls

/-- A critical section of thread `t` on the mutex `mx`, which knows `lm`, with the accesses `ls`; also what the mutex knows then. -/
def critical (m : Mem L) (t : Nat) (mx : L) (lm : Clock) (ls : List (L × Bool)) : Option (Mem L × Clock) :=
  (m.access t mx false).bind fun m =>
    (accesses { m with vc := acquire m.vc t lm } t (ls ++ [(mx, false)])).bind fun m => some (m, join lm (m.vc t))

/-- If `o` is not a data race then `f`. -/
def try_ {S X : Type} (o : Option X) (f : X → Out S) : Out S :=
  match o with
  | none => .race
  | some x => f x

theorem upd_upd {α : Type} (f : Nat → α) (k : Nat) (a b : α) : upd (upd f k a) k b = upd f k b := by
  funext i; simp only [upd]; split <;> rfl

theorem upd_self {α : Type} (f : Nat → α) (k : Nat) : upd f k (f k) = f := by
  funext i; simp only [upd]; split
  · next h => rw [h]
  · rfl

theorem leq_upd {vc : Nat → Clock} {t : Nat} {c : Clock} (h : leq (vc t) c) (u : Nat) : leq (vc u) (upd vc t c u) := by
  by_cases hu : u = t
  · subst hu; rw [upd_same]; exact h
  · rw [upd_ne _ _ hu]; exact leq.refl _

variable {m m' : Mem L} {t : Nat}

theorem access_shape {l : L} {w : Bool} (h : m.access t l w = some m') :
    m' = { vc := tick m.vc t, acc := ⟨l, w, ⟨t, m.vc t t + 1⟩⟩ :: m.acc } := by
  unfold access at h
  split at h
  · cases h
  · exact (Option.some.inj h).symm

theorem access_safe {l : L} {w : Bool} (h : ∀ a ∈ m.acc, a.loc = l → (a.write = true ∨ w = true) → a.stamp.le (m.vc t)) :
    m.access t l w = some { vc := tick m.vc t, acc := ⟨l, w, ⟨t, m.vc t t + 1⟩⟩ :: m.acc } := by
  unfold access
  rw [if_neg]
  intro hc
  simp only [List.any_eq_true, Bool.and_eq_true, decide_eq_true_eq, Bool.or_eq_true] at hc
  obtain ⟨a, ha, ⟨h1, h2⟩, h3⟩ := hc
  exact h3 (h a ha h1 h2)

/-- Accesses of `t` change the clock of `t` only, to a later one, and are known to it. -/
theorem accesses_shape {ls : List (L × Bool)} (h : m.accesses t ls = some m') :
    ∃ c new, m' = { vc := upd m.vc t c, acc := new ++ m.acc } ∧ leq (m.vc t) c ∧ ∀ a ∈ new, (a.loc, a.write) ∈ ls ∧ a.stamp.le c := by
  induction ls generalizing m with
  | nil =>
    cases h
    exact ⟨m'.vc t, [], by simp [upd_self], leq.refl _, by simp⟩
  | cons l ls ih =>
    simp only [accesses, Option.bind_eq_some_iff] at h
    obtain ⟨m1, h1, h2⟩ := h
    have := access_shape h1
    subst this
    obtain ⟨c, new, g1, g2, g3⟩ := ih h2
    refine ⟨c, new ++ [⟨l.1, l.2, ⟨t, m.vc t t + 1⟩⟩], ?_, (leq_tick _ _ _).trans g2, ?_⟩
    · rw [g1]; simp only [tick, upd_upd, List.append_assoc, List.singleton_append]
    · intro a ha
      rcases List.mem_append.mp ha with ha | ha
      · exact ⟨List.mem_cons_of_mem _ (g3 a ha).1, (g3 a ha).2⟩
      · simp only [List.mem_singleton] at ha
        subst ha
        exact ⟨by simp, (tick_stamp _ _).mono g2⟩

theorem accesses_safe {ls : List (L × Bool)}
    (h : ∀ a ∈ m.acc, ∀ y ∈ ls, a.loc = y.1 → (a.write = true ∨ y.2 = true) → a.stamp.le (m.vc t)) : m.accesses t ls ≠ none := by
  induction ls generalizing m with
  | nil => simp [accesses]
  | cons l ls ih =>
    simp only [accesses]
    rw [access_safe (fun a ha => h a ha l (by simp))]
    simp only [Option.bind_some]
    refine ih ?_
    intro a ha y hy e1 e2
    rcases List.mem_cons.mp ha with rfl | ha
    · exact tick_stamp _ _
    · exact (h a ha y (List.mem_cons_of_mem _ hy) e1 e2).mono (leq_tick _ _ _)

/-- What a critical section does if it does not race: `t` knows what the mutex knew, and its accesses; the mutex knows that too. -/
theorem critical_shape {mx : L} {lm lm' : Clock} {ls : List (L × Bool)} (h : m.critical t mx lm ls = some (m', lm')) :
    ∃ c new, m' = { vc := upd m.vc t c, acc := new ++ m.acc } ∧ lm' = join lm c ∧ leq (m.vc t) c ∧ leq lm c ∧
      ∀ a ∈ new, ((a.loc, a.write) ∈ ls ∨ (a.loc = mx ∧ a.write = false)) ∧ a.stamp.le c := by
  simp only [critical, Option.bind_eq_some_iff] at h
  obtain ⟨m1, h1, m2, h2, h3⟩ := h
  have := access_shape h1
  subst this
  obtain ⟨c, new, g1, g2, g3⟩ := accesses_shape h2
  cases h3
  subst g1
  refine ⟨c, new ++ [⟨mx, false, ⟨t, m.vc t t + 1⟩⟩], ?_, ?_, ?_, ?_, ?_⟩
  · simp only [tick, acquire, upd_upd, List.append_assoc, List.singleton_append]
  · simp only [upd_same]
  · exact ((leq_tick _ _ _).trans (leq_acquire _ _ _ _)).trans g2
  · exact (acquire_leq _ _ _).trans g2
  · intro a ha
    rcases List.mem_append.mp ha with ha | ha
    · refine ⟨?_, (g3 a ha).2⟩
      rcases List.mem_append.mp (g3 a ha).1 with h | h
      · exact .inl h
      · simp only [List.mem_singleton, Prod.mk.injEq] at h
        exact .inr h
    · simp only [List.mem_singleton] at ha
      subst ha
      exact ⟨.inr ⟨rfl, rfl⟩, ((tick_stamp _ _).mono (leq_acquire _ _ _ _)).mono g2⟩

/-- A critical section does not race if `t` knows the construction of the mutex, and `t` or the mutex knows what conflicts with `ls`. -/
theorem critical_safe {mx : L} {lm : Clock} {ls : List (L × Bool)} (hm : ∀ a ∈ m.acc, a.loc = mx → a.write = true → a.stamp.le (m.vc t))
    (h : ∀ a ∈ m.acc, ∀ y ∈ ls, a.loc = y.1 → (a.write = true ∨ y.2 = true) → a.stamp.le (m.vc t) ∨ a.stamp.le lm)
    (hl : ∀ y ∈ ls, y.1 ≠ mx) : m.critical t mx lm ls ≠ none := by
  unfold critical
  rw [access_safe (fun a ha e1 e2 => hm a ha e1 (by simpa using e2))]
  simp only [Option.bind_some]
  have := accesses_safe (t := t) (ls := ls ++ [(mx, false)])
    (m := { vc := acquire (tick m.vc t) t lm, acc := ⟨mx, false, ⟨t, m.vc t t + 1⟩⟩ :: m.acc }) (by
    intro a ha y hy e1 e2
    rcases List.mem_cons.mp ha with rfl | ha
    · rcases List.mem_append.mp hy with hy | hy
      · exact absurd e1.symm (hl y hy)
      · exact (tick_stamp _ _).mono (leq_acquire _ _ _ _)
    · rcases List.mem_append.mp hy with hy | hy
      · rcases h a ha y hy e1 e2 with g | g
        · exact g.mono ((leq_tick _ _ _).trans (leq_acquire _ _ _ _))
        · exact g.mono (acquire_leq _ _ _)
      · simp only [List.mem_singleton] at hy
        subst hy
        exact (hm a ha e1 (by simpa using e2)).mono ((leq_tick _ _ _).trans (leq_acquire _ _ _ _)))
  revert this
  cases accesses _ t (ls ++ [(mx, false)]) with
  | none => simp
  | some x => simp

end Mem

end Verif.Sync
