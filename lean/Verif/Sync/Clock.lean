/-!
# "Happens before" with vector clocks

Shared by the models that ask which actions of different threads are ordered in the sense of the C++ memory model. Each action of
thread `t` that matters gets the next time of `t`; it happens before what thread `u` does next if the clock of `u` has that time for
`t`. Clocks are passed on by unlocking and locking a mutex, by giving a function to an executor that another thread runs, by starting
and joining threads, and by anything else that users do to synchronise their threads.
-/

namespace Verif.Sync

abbrev Clock := Nat → Nat

def join (a b : Clock) : Clock := fun i => max (a i) (b i)

def upd {α : Type} (f : Nat → α) (k : Nat) (v : α) : Nat → α := fun i => if i = k then v else f i

/-- The next time of thread `t`. -/
def tick (vc : Nat → Clock) (t : Nat) : Nat → Clock := upd vc t (upd (vc t) t (vc t t + 1))

/-- Thread `t` gets to know `c`. -/
def acquire (vc : Nat → Clock) (t : Nat) (c : Clock) : Nat → Clock := upd vc t (join (vc t) c)

/-- Something thread `t` did, at its time `time`. -/
structure Stamp where
  thread : Nat
  time : Nat
  deriving DecidableEq, Repr

/-- It happens before what a thread with clock `c` does next. -/
def Stamp.le (a : Stamp) (c : Clock) : Prop := a.time ≤ c a.thread

instance (a : Stamp) (c : Clock) : Decidable (a.le c) := inferInstanceAs (Decidable (_ ≤ _))

def leq (c d : Clock) : Prop := ∀ i, c i ≤ d i

theorem upd_same {α : Type} (f : Nat → α) (k : Nat) (v : α) : upd f k v k = v := by simp [upd]

theorem upd_ne {α : Type} (f : Nat → α) {k i : Nat} (v : α) (h : i ≠ k) : upd f k v i = f i := by simp [upd, h]

theorem leq.refl (c : Clock) : leq c c := fun _ => Nat.le_refl _

theorem leq.trans {a b c : Clock} (h : leq a b) (h' : leq b c) : leq a c := fun i => Nat.le_trans (h i) (h' i)

theorem leq_joinl (a b : Clock) : leq a (join a b) := fun _ => Nat.le_max_left _ _

theorem leq_joinr (a b : Clock) : leq b (join a b) := fun _ => Nat.le_max_right _ _

theorem join_leq {a b c : Clock} (h : leq a c) (h' : leq b c) : leq (join a b) c := fun i => Nat.max_le.2 ⟨h i, h' i⟩

theorem Stamp.le.mono {a : Stamp} {c d : Clock} (h : a.le c) (hc : leq c d) : a.le d := Nat.le_trans h (hc _)

theorem leq_tick (vc : Nat → Clock) (t u : Nat) : leq (vc u) (tick vc t u) := by
  intro i
  by_cases h : u = t
  · subst h
    by_cases h' : i = u
    · subst h'; simp [tick, upd]
    · simp [tick, upd, h']
  · simp [tick, upd, h]

theorem leq_acquire (vc : Nat → Clock) (t u : Nat) (c : Clock) : leq (vc u) (acquire vc t c u) := by
  by_cases h : u = t
  · subst h; simp only [acquire, upd_same]; exact leq_joinl _ _
  · simp only [acquire, upd_ne _ _ h]; exact leq.refl _

theorem acquire_leq (vc : Nat → Clock) (t : Nat) (c : Clock) : leq c (acquire vc t c t) := by
  simp only [acquire, upd_same]; exact leq_joinr _ _

theorem tick_stamp (vc : Nat → Clock) (t : Nat) : Stamp.le ⟨t, vc t t + 1⟩ (tick vc t t) := by
  simp [Stamp.le, tick, upd]

end Verif.Sync
