import Verif.Future.Depth

/-!
# C104: nesting does not depend on how many continuations, futures and tasks there are
-/

namespace Verif.Depth

/-! ## Resolving futures -/

namespace Resolve

/-- Each continuation but the last in the list is one of the next future in the list, and for the `immediate_executor`. -/
def Path (G : Graph) : List Nat → Prop
  | c :: k :: l => c ∈ G.children k ∧ G.inl c = true ∧ Path G (k :: l)
  | _ => True

/-- The loops have only continuations of their futures. -/
structure Inv (G : Graph) (s : St) : Prop where
  path : ∀ t, Path G ((s.stack t).map (·.task))
  rest : ∀ t, ∀ f ∈ s.stack t, ∀ cs, f.rest = some cs → ∀ c ∈ cs, c ∈ G.children f.task

theorem Inv.of_upd {G : Graph} {s : St} {t : Nat} {x : List Frame} {q : List Nat} (I : Inv G s) (h1 : Path G (x.map (·.task)))
    (h2 : ∀ f ∈ x, ∀ cs, f.rest = some cs → ∀ c ∈ cs, c ∈ G.children f.task) : Inv G { stack := upd s.stack t x, queue := q } := by
  constructor
  · intro u
    simp only [upd]
    split
    · exact h1
    · exact I.path u
  · intro u
    simp only [upd]
    split
    · exact h2
    · exact I.rest u

theorem Path.tail {G : Graph} {c : Nat} {l : List Nat} (h : Path G (c :: l)) : Path G l := by
  cases l with
  | nil => trivial
  | cons k l => exact h.2.2

theorem Inv.step {G : Graph} {s s' : St} {a : Act} (I : Inv G s) (e : step G s a = some s') : Inv G s' := by
  cases a with
  | start t k =>
    simp only [Resolve.step] at e
    split at e <;> cases e
    exact I.of_upd trivial (by simp)
  | go t =>
    simp only [Resolve.step] at e
    have hp := I.path t
    have hr := I.rest t
    split at e
    · cases e
    · next k fs hs =>
      cases e
      rw [hs] at hp hr
      refine I.of_upd hp ?_
      intro f hf cs h
      rcases List.mem_cons.1 hf with rfl | hf
      · cases h; exact fun _ h => h
      · exact hr f (.tail _ hf) cs h
    · next k c cs fs hs =>
      rw [hs] at hp hr
      have h0 := hr ⟨k, some (c :: cs)⟩ (.head _) _ rfl
      have h1 : ∀ f ∈ (⟨k, some cs⟩ : Frame) :: fs, ∀ cs, f.rest = some cs → ∀ c ∈ cs, c ∈ G.children f.task := by
        intro f hf cs' h
        rcases List.mem_cons.1 hf with rfl | hf
        · cases h; exact fun c h => h0 c (.tail _ h)
        · exact hr f (.tail _ hf) cs' h
      split at e
      · next hi =>
        cases e
        refine I.of_upd ⟨h0 c (.head _), hi, hp⟩ ?_
        intro f hf cs' h
        rcases List.mem_cons.1 hf with rfl | hf
        · cases h
        · exact h1 f hf cs' h
      · cases e
        exact I.of_upd hp h1
    · next k fs hs =>
      cases e
      rw [hs] at hp hr
      exact I.of_upd (Path.tail hp) (fun f hf => hr f (.tail _ hf))

theorem Reachable.inv {G : Graph} {roots : List Nat} {s : St} (r : Reachable G roots s) : Inv G s := by
  induction r with
  | init => exact ⟨fun _ => trivial, by simp⟩
  | step _ e ih => exact ih.step e

/-- Calls are nested only along continuations for the `immediate_executor`, each attached to the one before. -/
theorem c104_path_partial {G : Graph} {roots : List Nat} {s : St} (r : Reachable G roots s) (t : Nat) :
    Path G ((s.stack t).map (·.task)) := r.inv.path t

/-- So if these form chains of at most `n`, then at most `n` calls are nested, however many futures and continuations there are. -/
theorem c104_bounded_partial {G : Graph} {roots : List Nat} {s : St} (r : Reachable G roots s) {n : Nat}
    (h : ∀ p, Path G p → p.length ≤ n) (t : Nat) : depth s t ≤ n := by
  have := h _ (c104_path_partial r t)
  simpa [depth] using this

/-- Without the `immediate_executor`, calls are not nested. -/
theorem c104_executors {G : Graph} (hi : ∀ c, G.inl c = false) {roots : List Nat} {s : St} (r : Reachable G roots s) (t : Nat) :
    depth s t ≤ 1 := by
  refine c104_bounded_partial r (fun p hp => ?_) t
  match p, hp with
  | [], _ => simp
  | [_], _ => simp
  | c :: _ :: _, hp => have := hp.2.1; rw [hi] at this; cases this

/-- `n` continuations for the `immediate_executor`, each attached to the one before. -/
def chain (n : Nat) : Graph := { children := fun k => if k < n then [k + 1] else [], inl := fun _ => true }

/-- **Not** in general: the continuations of a chain are all nested, however many. -/
theorem c104_chain_counterexample (n : Nat) : ∃ s, Reachable (chain n) [0] s ∧ depth s 0 = n + 1 := by
  have key : ∀ m, m ≤ n → ∃ s fs, Reachable (chain n) [0] s ∧ s.stack 0 = ⟨m, none⟩ :: fs ∧ fs.length = m := by
    intro m
    induction m with
    | zero =>
      intro _
      exact ⟨_, [], .step (a := .start 0 0) .init rfl, by simp [upd], rfl⟩
    | succ m ih =>
      intro hm
      obtain ⟨s, fs, r, hs, hl⟩ := ih (by omega)
      have e1 : step (chain n) s (.go 0) = some { s with stack := upd s.stack 0 (⟨m, some [m + 1]⟩ :: fs) } := by
        simp [step, hs, chain, show m < n by omega]
      have r1 := Reachable.step r e1
      have e2 : step (chain n) { s with stack := upd s.stack 0 (⟨m, some [m + 1]⟩ :: fs) } (.go 0) =
          some { s with stack := upd (upd s.stack 0 (⟨m, some [m + 1]⟩ :: fs)) 0 (⟨m + 1, none⟩ :: ⟨m, some []⟩ :: fs) } := by
        simp [step, upd, chain]
      exact ⟨_, ⟨m, some []⟩ :: fs, Reachable.step r1 e2, by simp [upd], by simp [hl]⟩
  obtain ⟨s, fs, r, hs, hl⟩ := key n (Nat.le_refl n)
  exact ⟨s, r, by simp [depth, hs, hl]⟩

/-- Three continuations of one future, one of them with a continuation of its own: never more than three nested. -/
def wide : Graph := { children := fun k => match k with | 0 => [1, 2, 3] | 2 => [4] | _ => [], inl := fun _ => true }

example : ∃ s, Reachable wide [0] s ∧ s.stack 0 = [⟨4, none⟩, ⟨2, some []⟩, ⟨0, some [3]⟩] :=
  ⟨_, .step (a := .go 0) (.step (a := .go 0) (.step (a := .go 0) (.step (a := .go 0) (.step (a := .go 0) (.step (a := .go 0)
    (.step (a := .go 0) (.step (a := .start 0 0) .init rfl) rfl) rfl) rfl) rfl) rfl) rfl) rfl, rfl⟩

end Resolve

/-! ## Giving up futures -/

namespace Cancel

variable {parent : Nat → Option Nat} {handles : Nat → Nat} {all : List Nat} {s s' : St}

/-- Each is the future that the next one continues. -/
def Path (parent : Nat → Option Nat) : List Nat → Prop
  | p :: k :: l => parent k = some p ∧ Path parent (k :: l)
  | _ => True

theorem Path.tail {c : Nat} {l : List Nat} (h : Path parent (c :: l)) : Path parent l := by
  cases l with
  | nil => trivial
  | cons k l => exact h.2

structure Inv (parent : Nat → Option Nat) (s : St) : Prop where
  path : Path parent (s.stack.map (·.1))
  gone : ∀ k ∈ s.gone, owners parent s k = 0
  sub : ∀ f ∈ s.stack, f.1 ∈ s.gone

theorem owners_le (h : ∀ k, s'.handles k ≤ s.handles k) (hh : ∀ p, s'.held.countP p ≤ s.held.countP p) (k : Nat) :
    owners parent s' k ≤ owners parent s k := by
  have := h k
  have := hh fun c => parent c = some k
  simp only [owners]
  omega

theorem countP_filter_le (l : List Nat) (q p : Nat → Bool) : (l.filter q).countP p ≤ l.countP p := by
  induction l with
  | nil => simp
  | cons x l ih =>
    simp only [List.filter_cons, List.countP_cons]
    split
    · simp only [List.countP_cons]; omega
    · omega

theorem Inv.release {k : Nat} (I : Inv parent s) (h : ∀ j ∈ s.stack.head?, parent j.1 = some k) : Inv parent (release parent s k) := by
  unfold Cancel.release
  split
  · next h0 =>
    refine ⟨?_, ?_, ?_⟩
    · have hp := I.path
      cases hs : s.stack with
      | nil => simp [Path]
      | cons f fs =>
        rw [hs] at hp
        exact ⟨h f (by simp [hs]), hp⟩
    · intro j hj
      rcases List.mem_cons.1 hj with rfl | hj
      · exact h0
      · exact I.gone j hj
    · intro f hf
      rcases List.mem_cons.1 hf with rfl | hf
      · exact .head _
      · exact .tail _ (I.sub f hf)
  · exact I

theorem Inv.step {a : Act} (I : Inv parent s) (e : step parent s a = some s') : Inv parent s' := by
  cases a with
  | copy k =>
    simp only [Cancel.step] at e
    split at e <;> cases e
    next h =>
    refine ⟨I.path, fun j hj => ?_, I.sub⟩
    have := I.gone j hj
    by_cases hjk : j = k
    · subst hjk
      simp only [owners] at this
      omega
    · simpa [owners, set, hjk] using this
  | drop k =>
    simp only [Cancel.step] at e
    split at e <;> cases e
    next h =>
    refine Inv.release ⟨I.path, fun j hj => ?_, I.sub⟩ (by simp [h.1])
    have h1 := I.gone j hj
    have := owners_le (parent := parent) (s' := { s with handles := set s.handles k (s.handles k - 1) }) (s := s)
      (by intro i; simp only [set]; split <;> simp_all <;> omega) (fun p => Nat.le_refl _) j
    omega
  | go =>
    simp only [Cancel.step] at e
    split at e
    · cases e
    · next k fs hs =>
      have J : Inv parent { s with stack := (k, true) :: fs, held := s.held.filter (· ≠ k) } := by
        refine ⟨?_, fun j hj => ?_, ?_⟩
        · have := I.path; rw [hs] at this; exact this
        · have h1 := I.gone j hj
          have := owners_le (parent := parent) (s' := { s with stack := (k, true) :: fs, held := s.held.filter (· ≠ k) }) (s := s)
            (fun _ => Nat.le_refl _) (fun p => countP_filter_le _ _ p) j
          omega
        · intro f hf
          rcases List.mem_cons.1 hf with rfl | hf
          · exact I.sub (k, false) (by rw [hs]; exact .head _)
          · exact I.sub f (by rw [hs]; exact .tail _ hf)
      split at e <;> cases e
      · exact J
      · next p hp => exact J.release (by simp [hp])
    · next k fs hs =>
      cases e
      have hp := I.path
      rw [hs] at hp
      exact ⟨hp.tail, I.gone, fun f hf => I.sub f (by rw [hs]; exact .tail _ hf)⟩

theorem Reachable.inv (r : Reachable parent handles all s) : Inv parent s := by
  induction r with
  | init => exact ⟨trivial, by simp, by simp⟩
  | step _ e ih => exact ih.step e

/-- Destructors are nested only along a chain of continuations, and end at the first future somebody else owns. -/
theorem c104_cancel_partial (r : Reachable parent handles all s) :
    Path parent (s.stack.map (·.1)) ∧ ∀ f ∈ s.stack, s.handles f.1 = 0 ∧ ∀ c ∈ s.held, parent c ≠ some f.1 := by
  refine ⟨r.inv.path, fun f hf => ?_⟩
  have h := r.inv.gone _ (r.inv.sub f hf)
  simp only [owners] at h
  refine ⟨by omega, fun c hc hp => ?_⟩
  have h0 : s.held.countP (fun c => parent c = some f.1) = 0 := by omega
  have := (List.countP_eq_zero.1 h0) c hc
  simp [hp] at this

/-- Continuation `k + 1` is attached to future `k`. -/
def line : Nat → Option Nat
  | 0 => none
  | k + 1 => some k

/-- The user keeps the last of `n + 1` futures. -/
def lastOf (n : Nat) : Nat → Nat := fun k => if k = n then 1 else 0

/-- The continuations `1 … n`. -/
def upto (n : Nat) : List Nat := (List.range n).map (· + 1)

/-- **Not** in general, whatever the executors: if the last future of a chain is given up, as many destructors are nested as there are futures. -/
theorem c104_cancel_counterexample (n : Nat) :
    ∃ s, Reachable line (lastOf n) (upto n) s ∧ s.stack.length = n + 1 := by
  have none_of : ∀ (l : List Nat) (k : Nat), (∀ c ∈ l, c ≤ k) → l.countP (fun c => line c = some k) = 0 := by
    intro l k h
    rw [List.countP_eq_zero]
    intro c hc
    have := h c hc
    cases c with
    | zero => simp [line]
    | succ c => simp [line]; omega
  have key : ∀ m, m ≤ n → ∃ s fs, Reachable line (lastOf n) (upto n) s ∧ s.stack = (n - m, false) :: fs ∧ fs.length = m ∧
      (∀ k, s.handles k = 0) ∧ ∀ c ∈ s.held, c ≤ n - m := by
    intro m
    induction m with
    | zero =>
      intro _
      have hu : ∀ c ∈ upto n, c ≤ n := by
        intro c hc
        obtain ⟨d, hd, rfl⟩ := List.mem_map.1 hc
        have := List.mem_range.1 hd
        omega
      have ho : owners line { handles := set (lastOf n) n 0, held := upto n } n = 0 := by
        simp only [owners, none_of _ _ hu, set, if_true]
      have e : step line { handles := lastOf n, held := upto n } (.drop n) =
          some { handles := set (lastOf n) n 0, held := upto n, stack := [(n, false)], gone := [n] } := by
        simp only [step, lastOf, if_true, Nat.lt_add_one, and_self, release, Option.some.injEq, Nat.sub_self]
        rw [if_pos]
        exact ho
      refine ⟨_, [], .step .init e, rfl, rfl, ?_, hu⟩
      intro k
      simp only [set, lastOf]
      split <;> simp_all
    | succ m ih =>
      intro hm
      obtain ⟨s, fs, r, hs, hl, hh, hc⟩ := ih (by omega)
      have hk : line (n - m) = some (n - (m + 1)) := by
        have : n - m = n - (m + 1) + 1 := by omega
        rw [this]; rfl
      have hf : ∀ c ∈ s.held.filter (· ≠ n - m), c ≤ n - (m + 1) := by
        intro c h
        have := hc c (List.mem_filter.1 h).1
        have := (List.mem_filter.1 h).2
        simp at this
        omega
      have ho : owners line { s with stack := (n - m, true) :: fs, held := s.held.filter (· ≠ n - m) } (n - (m + 1)) = 0 := by
        simp only [owners, none_of _ _ hf, hh]
      have e : step line s .go = some { s with stack := (n - (m + 1), false) :: (n - m, true) :: fs, held := s.held.filter (· ≠ n - m),
                                               gone := (n - (m + 1)) :: s.gone } := by
        simp only [step, hs, hk, release]
        rw [if_pos ho]
      exact ⟨_, _, .step r e, rfl, by simp [hl], hh, hf⟩
  obtain ⟨s, fs, r, hs, hl, -, -⟩ := key n (Nat.le_refl n)
  exact ⟨s, r, by simp [hs, hl]⟩

/-- A future in the middle is kept: the destructors end there. -/
example : ∃ s, Reachable line (fun k => if k = 1 ∨ k = 3 then 1 else 0) (upto 3) s ∧ s.stack = [(2, true), (3, true)] ∧ s.gone = [2, 3] :=
  ⟨_, .step (a := .go) (.step (a := .go) (.step (a := .drop 3) .init rfl) rfl) rfl, rfl, rfl⟩

end Cancel

/-! ## Serial queues -/

namespace Serial

variable {inl all : Bool} {s s' : St}

/-- With an executor that has threads: there is never more than one call, or else one job that will be. -/
structure InvT (s : St) : Prop where
  one : s.stack.length ≤ 1
  run : s.jobs = 0 ∨ s.stack = [] ∨ s.stack = [.last]

theorem InvT.step {a : Act} (I : InvT s) (h : s.running = false → s.jobs = 0 ∧ (s.stack = [] ∨ s.stack = [.last]))
    (hj : s.jobs ≤ 1) (e : step false all s a = some s') :
    InvT s' ∧ (s'.running = false → s'.jobs = 0 ∧ (s'.stack = [] ∨ s'.stack = [.last])) ∧ s'.jobs ≤ 1 := by
  cases a with
  | enqueue x =>
    simp only [Serial.step] at e
    split at e <;> cases e
    next he =>
    have he : s.stack = [] := by simpa using he
    simp only [append, give]
    cases hr : s.running
    · have := h hr
      simp [he, this.1]
      constructor <;> simp
    · simp [hj]
      constructor <;> simp [he]
  | job =>
    simp only [Serial.step] at e
    split at e <;> cases e
    next he =>
    have h0 : s.jobs - 1 = 0 := by omega
    refine ⟨⟨by simp, .inl h0⟩, fun hr => ?_, by show s.jobs - 1 ≤ 1; omega⟩
    have := (h hr).1
    omega
  | go =>
    simp only [Serial.step] at e
    have h1 := I.one
    have h2 := I.run
    split at e
    · cases e
    · next fs hs =>
      have hf : fs = [] := by rw [hs] at h1; simpa using h1
      subst hf
      have hr : s.running = true := by
        cases hr : s.running
        · have := (h hr).2; simp [hs] at this
        · rfl
      have h0 : s.jobs = 0 := by simpa [hs] using h2
      split at e
      · cases e
      · split at e <;> cases e <;> exact ⟨⟨by simp, .inl h0⟩, by simp [hr], by simp [h0]⟩
    · next y ys loc fs hs =>
      have hf : fs = [] := by rw [hs] at h1; simpa using h1
      subst hf
      have hr : s.running = true := by
        cases hr : s.running
        · have := (h hr).2; simp [hs] at this
        · rfl
      have h0 : s.jobs = 0 := by simpa [hs] using h2
      cases e
      simp only [append, hr, if_true]
      exact ⟨⟨by simp, .inl h0⟩, by simp, by simp [h0]⟩
    · next x q fs hs =>
      have hf : fs = [] := by rw [hs] at h1; simpa using h1
      subst hf
      have hr : s.running = true := by
        cases hr : s.running
        · have := (h hr).2; simp [hs] at this
        · rfl
      have h0 : s.jobs = 0 := by simpa [hs] using h2
      cases e
      exact ⟨⟨by simp, .inl h0⟩, by simp [hr], by simp [h0]⟩
    · next fs hs =>
      have hf : fs = [] := by rw [hs] at h1; simpa using h1
      subst hf
      have hr : s.running = true := by
        cases hr : s.running
        · have := (h hr).2; simp [hs] at this
        · rfl
      have h0 : s.jobs = 0 := by simpa [hs] using h2
      cases e
      simp only [finish, give]
      split
      · exact ⟨⟨by simp, .inl h0⟩, by simp [h0], by simp [h0]⟩
      · exact ⟨⟨by simp, .inr (.inr rfl)⟩, by simp [hr], by simp [h0]⟩
    · next fs hs =>
      have hf : fs = [] := by rw [hs] at h1; simpa using h1
      subst hf
      cases e
      exact ⟨⟨by simp, .inr (.inl rfl)⟩, fun hr => ⟨(h hr).1, .inl rfl⟩, hj⟩

/-- With an executor that has threads, the calls of a serial queue are not nested, in neither mode. -/
theorem c104_serial_threads (r : Reachable false all s) : s.stack.length ≤ 1 := by
  have : InvT s ∧ (s.running = false → s.jobs = 0 ∧ (s.stack = [] ∨ s.stack = [.last])) ∧ s.jobs ≤ 1 := by
    induction r with
    | init => exact ⟨⟨by simp, .inl rfl⟩, by simp, by simp⟩
    | step _ e ih => exact ih.1.step ih.2.1 ih.2.2 e
  exact this.1.one

/-- How often tasks append tasks that append tasks …: at most `n` of them, one appending the next. -/
inductive Gen : Nat → Tsk → Prop where
  | mk {n : Nat} {l : List Tsk} : (∀ x ∈ l, Gen n x) → Gen (n + 1) (.mk l)

theorem Gen.sub {n : Nat} {x y : Tsk} (h : Gen (n + 1) x) (hy : y ∈ x.subs) : Gen n y := by
  cases h with
  | mk h => exact h y hy

theorem Gen.pos {n : Nat} {x : Tsk} (h : Gen n x) : ∃ m, n = m + 1 := by
  cases h with
  | mk h => exact ⟨_, rfl⟩

/-- What is left of the `n` generations, at each depth of the stack. -/
structure InvG (n : Nat) (s : St) : Prop where
  jobs : s.jobs = 0
  idle : s.stack = [] → s.queue = [] ∧ s.running = false
  entry : ∀ fs, s.stack = .entry :: fs → s.running = true ∧ s.queue ≠ [] ∧ fs.length + 1 ≤ n ∧ ∀ x ∈ s.queue, Gen (n - fs.length) x
  task : ∀ ys loc fs, s.stack = .task ys loc :: fs → s.running = true ∧ fs.length + 1 ≤ n ∧ (∀ x ∈ loc, Gen (n - fs.length) x) ∧
    (∀ x ∈ ys, Gen (n - fs.length - 1) x) ∧ ∀ x ∈ s.queue, Gen (n - fs.length - 1) x
  last : ∀ fs, s.stack = .last :: fs → fs.length + 1 ≤ n ∧ s.queue = [] ∧ s.running = false
  below : ∀ f fs, s.stack = f :: fs → ∀ g ∈ fs, g = .last

theorem InvG.go {n : Nat} (I : InvG n s) (e : step true true s .go = some s') : InvG n s' := by
  have hj := I.jobs
  simp only [Serial.step] at e
  split at e
  · cases e
  · next fs hs =>
    obtain ⟨hr, hq, hn, hg⟩ := I.entry fs hs
    have hb := I.below _ fs hs
    split at e
    · cases e
    · next x q hq' =>
      cases e
      rw [hq'] at hg
      obtain ⟨m, hm⟩ : ∃ m, n - fs.length = m + 1 := ⟨n - fs.length - 1, by omega⟩
      refine ⟨hj, by simp, by simp, ?_, by simp, ?_⟩
      · intro ys loc fs' h
        obtain ⟨h1, rfl⟩ := List.cons.inj h
        cases h1
        refine ⟨hr, hn, fun x hx => hg x (.tail _ hx), fun y hy => ?_, by simp⟩
        have := hg x (.head _)
        rw [hm] at this ⊢
        exact this.sub hy
      · intro f fs' h
        obtain ⟨-, rfl⟩ := List.cons.inj h
        exact hb
  · next y ys loc fs hs =>
    obtain ⟨hr, hn, hl, hy, hq⟩ := I.task _ _ _ hs
    have hb := I.below _ fs hs
    cases e
    simp only [append, hr, if_true]
    refine ⟨hj, by simp, by simp, ?_, by simp, ?_⟩
    · intro ys' loc' fs' h
      obtain ⟨h1, rfl⟩ := List.cons.inj h
      cases h1
      refine ⟨rfl, hn, hl, fun x hx => hy x (.tail _ hx), fun x hx => ?_⟩
      rcases List.mem_append.1 hx with hx | hx
      · exact hq x hx
      · exact hy x (by simpa using .inl (List.mem_singleton.1 hx))
    · intro f fs' h
      obtain ⟨-, rfl⟩ := List.cons.inj h
      exact hb
  · next x q fs hs =>
    obtain ⟨hr, hn, hl, hy, hq⟩ := I.task _ _ _ hs
    have hb := I.below _ fs hs
    cases e
    obtain ⟨m, hm⟩ : ∃ m, n - fs.length = m + 1 := ⟨n - fs.length - 1, by omega⟩
    refine ⟨hj, by simp, by simp, ?_, by simp, ?_⟩
    · intro ys' loc' fs' h
      obtain ⟨h1, rfl⟩ := List.cons.inj h
      cases h1
      refine ⟨hr, hn, fun x hx => hl x (.tail _ hx), fun y hy => ?_, hq⟩
      have := hl x (.head _)
      rw [hm] at this ⊢
      exact this.sub hy
    · intro f fs' h
      obtain ⟨-, rfl⟩ := List.cons.inj h
      exact hb
  · next fs hs =>
    obtain ⟨hr, hn, hl, hy, hq⟩ := I.task _ _ _ hs
    have hb := I.below _ fs hs
    cases e
    simp only [finish]
    split
    · next he =>
      refine ⟨hj, by simp, by simp, by simp, ?_, ?_⟩
      · intro fs' h
        obtain ⟨-, rfl⟩ := List.cons.inj h
        exact ⟨hn, by simpa using he, rfl⟩
      · intro f fs' h
        obtain ⟨-, rfl⟩ := List.cons.inj h
        exact hb
    · next he =>
      simp only [give, if_true]
      have hq0 : s.queue ≠ [] := by simpa using he
      refine ⟨hj, by simp, ?_, by simp, by simp, ?_⟩
      · intro fs' h
        obtain ⟨-, rfl⟩ := List.cons.inj h
        obtain ⟨x, hx⟩ := List.exists_mem_of_ne_nil _ hq0
        obtain ⟨m, hm⟩ := (hq x hx).pos
        refine ⟨hr, hq0, by simp; omega, ?_⟩
        have : n - (Frame.last :: fs).length = n - fs.length - 1 := by simp; omega
        rw [this]
        exact hq
      · intro f fs' h
        obtain ⟨-, rfl⟩ := List.cons.inj h
        intro g hg
        rcases List.mem_cons.1 hg with rfl | hg
        · rfl
        · exact hb g hg
  · next fs hs =>
    obtain ⟨hn, hq, hr⟩ := I.last _ hs
    have hb := I.below _ fs hs
    cases e
    cases fs with
    | nil => exact ⟨hj, fun _ => ⟨hq, hr⟩, by simp, by simp, by simp, by simp⟩
    | cons f fs =>
      have := hb f (.head _)
      subst this
      refine ⟨hj, by simp, by simp, by simp, ?_, ?_⟩
      · intro fs' h
        obtain ⟨-, rfl⟩ := List.cons.inj h
        exact ⟨by simp at hn; omega, hq, hr⟩
      · intro f fs' h
        obtain ⟨-, rfl⟩ := List.cons.inj h
        exact fun g hg => hb g (.tail _ hg)

/-- `Reachable` where the tasks appended from outside satisfy `P`. -/
inductive ReachableP (inl all : Bool) (P : Tsk → Prop) : St → Prop where
  | init : ReachableP inl all P {}
  | enqueue {s s' : St} {x : Tsk} : ReachableP inl all P s → P x → step inl all s (.enqueue x) = some s' → ReachableP inl all P s'
  | job {s s' : St} : ReachableP inl all P s → step inl all s .job = some s' → ReachableP inl all P s'
  | go {s s' : St} : ReachableP inl all P s → step inl all s .go = some s' → ReachableP inl all P s'

theorem ReachableP.reachable {P : Tsk → Prop} (r : ReachableP inl all P s) : Reachable inl all s := by
  induction r with
  | init => exact .init
  | enqueue _ _ e ih => exact .step ih e
  | job _ e ih => exact .step ih e
  | go _ e ih => exact .step ih e

/-- With the `immediate_executor` and `schedule_mode::all`, calls are nested as deep as tasks append tasks that append tasks, however many each of them appends. -/
theorem c104_serial_all_partial {n : Nat} (r : ReachableP true true (Gen n) s) : s.stack.length ≤ n := by
  have I : InvG n s := by
    induction r with
    | init => exact ⟨rfl, fun _ => ⟨rfl, rfl⟩, by simp, by simp, by simp, by simp⟩
    | @enqueue s s' x _ hx e ih =>
      simp only [Serial.step] at e
      split at e <;> cases e
      next he =>
      have he : s.stack = [] := by simpa using he
      obtain ⟨hq, hr⟩ := ih.idle he
      obtain ⟨m, rfl⟩ := hx.pos
      simp only [append, hr, give, hq, he]
      exact ⟨ih.jobs, by simp, by simp; exact hx, by simp, by simp, by simp⟩
    | job _ e ih =>
      simp [Serial.step, ih.jobs] at e
    | go _ e ih => exact ih.go e
  cases hs : s.stack with
  | nil => simp
  | cons f fs =>
    cases f with
    | entry => exact (I.entry _ hs).2.2.1
    | task ys loc => exact (I.task _ _ _ hs).2.1
    | last => exact (I.last _ hs).1

/-- A task that appends `n` tasks, which append nothing. -/
def fan (n : Nat) : Tsk := .mk (List.replicate n (.mk []))

/-- **Not** with the `immediate_executor` and `schedule_mode::single`: a task that appends `n` tasks makes `n + 1` nested calls. -/
theorem c104_serial_counterexample (n : Nat) :
    ∃ s, ReachableP true false (Gen 2) s ∧ s.stack.length = n + 1 := by
  have h0 : Gen 2 (fan n) := .mk fun x hx => by
    rw [List.eq_of_mem_replicate hx]
    exact .mk (by simp)
  -- the first task appends
  have app : ∀ m, m ≤ n → ∃ s, ReachableP true false (Gen 2) s ∧ s.stack = [.task (List.replicate (n - m) (.mk [])) []] ∧
      s.queue = List.replicate m (.mk []) ∧ s.running = true := by
    intro m
    induction m with
    | zero => exact fun _ => ⟨_, .go (.enqueue .init h0 rfl) rfl, rfl, rfl, rfl⟩
    | succ m ih =>
      intro hm
      obtain ⟨s, r, hs, hq, hr⟩ := ih (by omega)
      obtain ⟨k, hk⟩ : ∃ k, n - m = k + 1 := ⟨n - m - 1, by omega⟩
      have hk' : n - (m + 1) = k := by omega
      rw [hk, List.replicate_succ] at hs
      refine ⟨_, .go r (by simp only [step, hs]; rfl), ?_, ?_, ?_⟩
      · simp [append, hr, hk']
      · simp [append, hr, hq, List.replicate_succ']
      · simp [append, hr]
  -- and the others are called
  have key : ∀ m, m ≤ n → ∃ s fs, ReachableP true false (Gen 2) s ∧ s.stack = .task [] [] :: fs ∧ fs.length = m ∧
      s.queue = List.replicate (n - m) (.mk []) ∧ s.running = true := by
    intro m
    induction m with
    | zero =>
      intro _
      obtain ⟨s, r, hs, hq, hr⟩ := app n (Nat.le_refl n)
      exact ⟨s, [], r, by simpa using hs, rfl, hq, hr⟩
    | succ m ih =>
      intro hm
      obtain ⟨s, fs, r, hs, hl, hq, hr⟩ := ih (by omega)
      obtain ⟨k, hk⟩ : ∃ k, n - m = k + 1 := ⟨n - m - 1, by omega⟩
      have hk' : n - (m + 1) = k := by omega
      rw [hk, List.replicate_succ] at hq
      have e1 : step true false s .go = some { s with stack := .entry :: .last :: fs } := by
        simp [step, hs, finish, hq, give]
      have e2 : step true false { s with stack := .entry :: .last :: fs } .go =
          some { s with queue := List.replicate k (.mk []), stack := .task [] [] :: .last :: fs, calls := s.calls + 1 } := by
        simp [step, hq, Tsk.subs]
      exact ⟨_, .last :: fs, .go (.go r e1) e2, rfl, by simp [hl], by simp [hk'], hr⟩
  obtain ⟨s, fs, r, hs, hl, -, -⟩ := key n (Nat.le_refl n)
  exact ⟨s, r, by simp [hs, hl]⟩

/-- A task that appends a task that appends a task …: `n + 1` of them. -/
def tower : Nat → Tsk
  | 0 => .mk []
  | n + 1 => .mk [tower n]

/-- **Not** with `schedule_mode::all` either: `n + 1` tasks, each appended by the one before, make `n + 1` nested calls. -/
theorem c104_serial_all_counterexample (n : Nat) : ∃ s, Reachable true true s ∧ s.stack.length = n + 1 := by
  have key : ∀ m, m ≤ n → ∃ s fs, Reachable true true s ∧ s.stack = .task (tower (n - m)).subs [] :: fs ∧ fs.length = m ∧ s.queue = [] ∧
      s.running = true := by
    intro m
    induction m with
    | zero => exact fun _ => ⟨_, [], .step (a := .go) (.step (a := .enqueue (tower n)) .init rfl) rfl, rfl, rfl, rfl, rfl⟩
    | succ m ih =>
      intro hm
      obtain ⟨s, fs, r, hs, hl, hq, hr⟩ := ih (by omega)
      obtain ⟨k, hk⟩ : ∃ k, n - m = k + 1 := ⟨n - m - 1, by omega⟩
      have hk' : n - (m + 1) = k := by omega
      rw [hk] at hs
      simp only [tower, Tsk.subs] at hs
      have e1 : step true true s .go = some { s with stack := .task [] [] :: fs, queue := [tower k] } := by
        simp [step, hs, append, hq, hr]
      have e2 : step true true { s with stack := .task [] [] :: fs, queue := [tower k] } .go =
          some { s with stack := .entry :: .last :: fs, queue := [tower k] } := by
        simp [step, finish, give]
      have e3 : step true true { s with stack := .entry :: .last :: fs, queue := [tower k] } .go =
          some { s with stack := .task (tower k).subs [] :: .last :: fs, queue := [], calls := s.calls + 1 } := by
        simp [step]
      exact ⟨_, .last :: fs, .step (.step (.step r e1) e2) e3, by simp [hk'], by simp [hl], rfl, hr⟩
  obtain ⟨s, fs, r, hs, hl, -, -⟩ := key n (Nat.le_refl n)
  exact ⟨s, r, by simp [hs, hl]⟩

/-- `schedule_mode::all`: a task and the five that it appends, two calls nested. -/
example : Gen 2 (fan 5) := .mk fun x hx => by
  rw [List.eq_of_mem_replicate hx]
  exact .mk (by simp)

/-- A serial queue with threads: two tasks, one after the other. -/
example : ∃ s, Reachable false false s ∧ s.stack.length = 1 ∧ s.calls = 2 :=
  ⟨_, .step (a := .go) (.step (a := .job) (.step (a := .go) (.step (a := .go) (.step (a := .go) (.step (a := .go)
    (.step (a := .job) (.step (a := .enqueue (fan 1)) .init rfl) rfl) rfl) rfl) rfl) rfl) rfl) rfl, rfl, rfl⟩

end Serial

end Verif.Depth
