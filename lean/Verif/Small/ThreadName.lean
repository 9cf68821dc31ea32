/-!
# The names of the threads (include/stlab/concurrency/set_current_thread_name.hpp)

`set_current_thread_name` (lines 29-51) gives a name to the calling thread, and ignores the result of the call of the system. The threads of the thread pool
call it first (include/stlab/concurrency/default_executor.hpp lines 347 and 413).

The systems differ in the names they accept. With POSIX threads on Linux (line 45) a name of more than 15 characters is refused (`ERANGE`) and the name stays as it
was; on Apple systems (line 43) the limit is 63 characters; Windows (lines 32-39) has none. A new thread has the name of its creator on
Linux, which matters here, and none elsewhere.

Simplification: names are lists of characters of one byte; the conversion to UTF-16 does not fail; of the threads only the names and the next steps are kept.
-/

namespace Verif.ThreadName

inductive Sys where
  | linux
  | apple
  | windows
  deriving DecidableEq, Repr

/-- The longest name that is accepted. -/
def Sys.limit : Sys → Option Nat
  | .linux => some 15
  | .apple => some 63
  | .windows => none

abbrev Name := List Char

/-- The system accepts the name. -/
def Sys.fits (y : Sys) (n : Name) : Bool :=
  match y.limit with
  | some k => n.length ≤ k
  | none => true

/-- `set_current_thread_name` (lines 29-51): the name of the thread afterwards, `old` being the one before. -/
def setName (y : Sys) (n old : Name) : Name := if y.fits n then n else old

/-- The name of a new thread. -/
def inherit (y : Sys) (creator : Name) : Name := if y = .linux then creator else []

/-- default_executor.hpp line 347 -/
def worker : Name := "cc.stlab.default_executor".toList

/-- default_executor.hpp line 413 -/
def expansion : Name := "cc.stlab.default_executor.expansion".toList

structure Thread where
  name : Name
  /-- the name it is to give itself, and whether it has called `set_current_thread_name`; `none`: not a thread of the pool -/
  pool : Option (Name × Bool) := none
  deriving DecidableEq, Repr

inductive Act where
  /-- thread `t` creates a thread that does not belong to the pool -/
  | create (t : Nat)
  /-- thread `t` names itself -/
  | rename (t : Nat) (n : Name)
  /-- thread `t` creates the thread pool, or a thread of it (default_executor.hpp lines 370-375) -/
  | pool (t : Nat)
  /-- thread `t` adds a thread to the pool (default_executor.hpp lines 409-412) -/
  | add (t : Nat)
  /-- thread `t` of the pool calls `set_current_thread_name` (default_executor.hpp lines 347, 413) -/
  | start (t : Nat)
  deriving Repr

abbrev St := List Thread

def step (y : Sys) (s : St) : Act → Option St
  | .create t => s[t]?.map fun c => s ++ [{ name := inherit y c.name }]
  | .rename t n =>
    match s[t]? with
    | some ⟨old, none⟩ => some (s.set t { name := setName y n old })
    | _ => none
  | .pool t => s[t]?.map fun c => s ++ [{ name := inherit y c.name, pool := some (worker, false) }]
  | .add t => s[t]?.map fun c => s ++ [{ name := inherit y c.name, pool := some (expansion, false) }]
  | .start t =>
    match s[t]? with
    | some ⟨old, some (n, false)⟩ => some (s.set t ⟨setName y n old, some (n, true)⟩)
    | _ => none

/-- A program begins with one thread. On Linux its name is at most 15 characters long. -/
inductive Reachable (y : Sys) : St → Prop
  | init (n : Name) : y.fits n = true → Reachable y [{ name := n }]
  | step {s s' : St} (a : Act) : Reachable y s → step y s a = some s' → Reachable y s'

theorem setName_fits {y : Sys} {n old : Name} (h : y.fits old = true) : y.fits (setName y n old) = true := by
  simp only [setName]
  split
  · assumption
  · exact h

theorem inherit_fits {y : Sys} {c : Name} (h : y.fits c = true) : y.fits (inherit y c) = true := by
  simp only [inherit]
  split
  · exact h
  · cases y <;> rfl

/-- Every name is one that the system accepts, and threads of the pool that have started have the name they asked for, if it is accepted. -/
structure Inv (y : Sys) (s : St) : Prop where
  fits : ∀ t ∈ s, y.fits t.name = true
  which : ∀ t ∈ s, ∀ n b, t.pool = some (n, b) → n = worker ∨ n = expansion
  named : ∀ t ∈ s, ∀ n, t.pool = some (n, true) → y.fits n = true → t.name = n

theorem Inv.add {y : Sys} {s : St} (I : Inv y s) {t : Thread} (h1 : y.fits t.name = true)
    (h2 : ∀ n b, t.pool = some (n, b) → (n = worker ∨ n = expansion) ∧ b = false) : Inv y (s ++ [t]) := by
  refine ⟨fun x hx => ?_, fun x hx n b h => ?_, fun x hx n h hf => ?_⟩ <;> rcases List.mem_append.1 hx with hx | hx
  · exact I.fits x hx
  · rw [List.mem_singleton.1 hx]; exact h1
  · exact I.which x hx n b h
  · rw [List.mem_singleton.1 hx] at h; exact (h2 n b h).1
  · exact I.named x hx n h hf
  · rw [List.mem_singleton.1 hx] at h; cases (h2 n _ h).2

theorem Inv.put {y : Sys} {s : St} (I : Inv y s) {i : Nat} {t : Thread} (h1 : y.fits t.name = true)
    (h2 : ∀ n b, t.pool = some (n, b) → n = worker ∨ n = expansion) (h3 : ∀ n, t.pool = some (n, true) → y.fits n = true → t.name = n) :
    Inv y (s.set i t) := by
  refine ⟨fun x hx => ?_, fun x hx n b h => ?_, fun x hx n h hf => ?_⟩ <;> rcases List.mem_or_eq_of_mem_set hx with hx | rfl
  · exact I.fits x hx
  · exact h1
  · exact I.which x hx n b h
  · exact h2 n b h
  · exact I.named x hx n h hf
  · exact h3 n h hf

theorem Reachable.inv {y : Sys} {s : St} (r : Reachable y s) : Inv y s := by
  induction r with
  | init n h =>
    refine ⟨fun t ht => ?_, fun t ht n b hp => ?_, fun t ht n hp => ?_⟩ <;> rw [List.mem_singleton.1 ht] at *
    · exact h
    · cases hp
    · cases hp
  | step a _ h I =>
    cases a with
    | create t =>
      obtain ⟨c, hc, rfl⟩ := Option.map_eq_some_iff.1 h
      exact I.add (inherit_fits (I.fits c (List.mem_of_getElem? hc))) (fun _ _ h => by cases h)
    | rename t n =>
      simp only [ThreadName.step] at h
      split at h
      · next old hc =>
        cases h
        exact I.put (setName_fits (I.fits _ (List.mem_of_getElem? hc))) (fun _ _ h => by cases h) (fun _ h => by cases h)
      · cases h
    | pool t =>
      obtain ⟨c, hc, rfl⟩ := Option.map_eq_some_iff.1 h
      exact I.add (inherit_fits (I.fits c (List.mem_of_getElem? hc))) (fun _ _ h => by cases h; exact ⟨.inl rfl, rfl⟩)
    | add t =>
      obtain ⟨c, hc, rfl⟩ := Option.map_eq_some_iff.1 h
      exact I.add (inherit_fits (I.fits c (List.mem_of_getElem? hc))) (fun _ _ h => by cases h; exact ⟨.inr rfl, rfl⟩)
    | start t =>
      simp only [ThreadName.step] at h
      split at h
      · next old n hc =>
        cases h
        have hm := List.mem_of_getElem? hc
        refine I.put (setName_fits (I.fits _ hm)) (fun n' b e => ?_) (fun n' e hf => ?_)
        · cases e; exact I.which _ hm n false rfl
        · cases e; simp only [setName, hf, if_true]
      · cases h

/-- **C117**, but for Linux: a thread of the pool that has started has the name it was to have. -/
theorem c117_named_partial {y : Sys} (hy : y ≠ .linux) {s : St} (r : Reachable y s) {t : Thread} (ht : t ∈ s) {n : Name} (h : t.pool = some (n, true)) :
    t.name = n := by
  refine r.inv.named t ht n h ?_
  rcases r.inv.which t ht n _ h with rfl | rfl <;> cases y <;> first | rfl | exact absurd rfl hy | decide

/-- **C117** is false on Linux: no thread of the pool ever has the name it was to have, whatever the program does. -/
theorem c117_never_named_counterexample {s : St} (r : Reachable .linux s) {t : Thread} (ht : t ∈ s) {n : Name} {b : Bool} (h : t.pool = some (n, b)) :
    t.name ≠ n := by
  intro e
  have hf := r.inv.fits t ht
  rw [e] at hf
  rcases r.inv.which t ht n b h with rfl | rfl <;> revert hf <;> decide

/-- **C117** is false on Linux: a thread of the pool keeps the name of the thread that created it. -/
theorem c117_keeps_creators_counterexample {s s' s'' : St} {c : Thread} {t : Nat} (hc : s[t]? = some c) (h1 : step .linux s (.pool t) = some s')
    (h2 : step .linux s' (.start s.length) = some s'') : s''[s.length]? = some ⟨c.name, some (worker, true)⟩ := by
  simp only [step, hc, Option.map_some, Option.some.injEq] at h1
  subst h1
  simp only [step, List.getElem?_append_right (Nat.le_refl _), Nat.sub_self, List.getElem?_cons_zero] at h2
  cases h2
  have hf : Sys.fits .linux worker = false := by decide
  simp [inherit, setName, hf]

def exec (y : Sys) (s : St) : List Act → Option St
  | [] => some s
  | a :: as => (step y s a).bind fun s' => exec y s' as

theorem exec_reach {y : Sys} {s s' : St} {as : List Act} (r : Reachable y s) (h : exec y s as = some s') : Reachable y s' := by
  induction as generalizing s with
  | nil => cases h; exact r
  | cons a as ih =>
    obtain ⟨s1, h1, h2⟩ := Option.bind_eq_some_iff.mp h
    exact ih (.step a r h1) h2

/-- On Apple systems two threads of the pool have started and are named. -/
example : ∃ s, Reachable .apple s ∧ s.map Thread.name = ["app".toList, worker, expansion] :=
  ⟨_, exec_reach (as := [.pool 0, .start 1, .add 1, .start 2]) (.init "app".toList (by decide)) rfl, by decide⟩

/-- On Linux they have the name of the program. -/
example : ∃ s, Reachable .linux s ∧ s.map Thread.name = ["app".toList, "app".toList, "app".toList] ∧ s.map (fun t => t.pool.isSome) = [false, true, true] :=
  ⟨_, exec_reach (as := [.pool 0, .start 1, .add 1, .start 2]) (.init "app".toList (by decide)) rfl, by decide, by decide⟩

end Verif.ThreadName
