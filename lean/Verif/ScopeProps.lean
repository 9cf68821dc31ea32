import Verif.ScopeInv

/-!
# C100: `scope` calls the function while the object exists
-/

namespace Verif.Scope

variable {ps : Nat → Prog} {s : St}

/-- The actions of a program, each with the objects that exist then. -/
def inside : List Guard → Prog → List (Nat × List Guard)
  | _, .skip | _, .throw _ => []
  | gs, .act n => [(n, gs)]
  | gs, .seq p q => inside gs p ++ if (eval p).2 = none then inside gs q else []
  | gs, .scope g p => match g with
    | .obj _ (some _) => []
    | _ => inside (g :: gs) p
  | gs, .tryCatch p q => inside gs p ++ if (eval p).2 = none then [] else inside gs q

/-- The actions of a trace, each with the objects that exist then. -/
def seen : List Guard → List Event → List (Nat × List Guard)
  | _, [] => []
  | gs, .act n :: es => (n, gs) :: seen gs es
  | gs, .enter g :: es => seen (g :: gs) es
  | gs, .leave _ :: es => seen gs.tail es

/-- Objects are destroyed in the reverse order of construction, at all times, and whatever is thrown: those that exist are those of the
calls of `scope` that have not returned. -/
theorem c100_nested (h : Reachable ps s) (t : Nat) : nest [] (s.th t).trace = some (guards (s.th t).stack) := h.nested t

/-- When a thread has ended all of its objects are destroyed, and it holds no lock, also if it has ended by an exception. -/
theorem c100_destroyed (h : Reachable ps s) {t : Nat} (ht : (s.th t).ended = true) :
    nest [] (s.th t).trace = some [] ∧ ∀ m, s.owner m ≠ some t := by
  have hs : (s.th t).stack = [] := by
    unfold Thread.ended at ht
    split at ht <;> simp_all
  refine ⟨by rw [h.nested t, hs]; rfl, fun m hm => ?_⟩
  have := (h.inv.own m t).1 hm
  rw [hs] at this
  cases this

theorem seen_append {gs gs' : List Guard} {a b : List Event} (h : nest gs a = some gs') : seen gs (a ++ b) = seen gs a ++ seen gs' b := by
  induction a generalizing gs with
  | nil => cases h; rfl
  | cons e a ih =>
    cases e with
    | act n => simp only [List.cons_append, seen]; rw [ih h]
    | enter g => exact ih h
    | leave g =>
      cases gs with
      | nil => cases h
      | cons g' gs =>
        simp only [nest] at h
        split at h
        · exact ih h
        · cases h

theorem nest_eval (gs : List Guard) (p : Prog) : nest gs (eval p).1 = some gs := by
  induction p generalizing gs with
  | skip => rfl
  | act n => rfl
  | throw e => rfl
  | seq p q ihp ihq =>
    cases hp : eval p with
    | mk a r =>
      have h1 := ihp gs
      rw [hp] at h1
      cases r with
      | none => simp only [eval, hp, nest_append, h1]; exact ihq gs
      | some e => simp only [eval, hp]; exact h1
  | tryCatch p q ihp ihq =>
    cases hp : eval p with
    | mk a r =>
      have h1 := ihp gs
      rw [hp] at h1
      cases r with
      | none => simp only [eval, hp]; exact h1
      | some e => simp only [eval, hp, nest_append, h1]; exact ihq gs
  | scope g p ih =>
    match g with
    | .obj n (some e) => rfl
    | .obj n none => simp only [eval, List.cons_append, nest, nest_append, ih]; simp [nest]
    | .lock m => simp only [eval, List.cons_append, nest, nest_append, ih]; simp [nest]

theorem seen_eval (gs : List Guard) (p : Prog) : seen gs (eval p).1 = inside gs p := by
  induction p generalizing gs with
  | skip => rfl
  | act n => rfl
  | throw e => rfl
  | seq p q ihp ihq =>
    have hn := nest_eval gs p
    have h1 := ihp gs
    simp only [inside]
    cases hp : eval p with
    | mk a r =>
      rw [hp] at h1 hn
      cases r with
      | none => simp only [eval, hp, seen_append hn, h1, ihq, if_true]
      | some e => simp only [eval, hp]; simpa using h1
  | tryCatch p q ihp ihq =>
    have hn := nest_eval gs p
    have h1 := ihp gs
    simp only [inside]
    cases hp : eval p with
    | mk a r =>
      rw [hp] at h1 hn
      cases r with
      | none => simp only [eval, hp]; simpa using h1
      | some e => simp only [eval, hp, seen_append hn, h1, ihq]; simp
  | scope g p ih =>
    match g with
    | .obj n (some e) => rfl
    | .obj n none =>
      simp only [eval, inside, List.cons_append, seen]
      rw [seen_append (nest_eval _ p), ih]; simp [seen]
    | .lock m =>
      simp only [eval, inside, List.cons_append, seen]
      rw [seen_append (nest_eval _ p), ih]; simp [seen]

theorem eval_of_ended (h : Reachable ps s) {t : Nat} (ht : (s.th t).ended = true) :
    (s.th t).trace = (eval (ps t)).1 ∧ (s.th t).mode = match (eval (ps t)).2 with
      | none => .ret
      | some e => .exc e := by
  have := h.inv.tot t
  unfold Thread.ended at ht
  rw [← this]
  split at ht
  · next h1 h2 => simp [total, h1, h2, evalMode, evalStack]
  · next h1 h2 => simp [total, h1, h2, evalMode, evalStack]
  · cases ht

/-- However the threads are interleaved: when a thread has ended, everything in a function given to `scope` was done while its object existed,
and the objects of all calls around it, and everything was done once and in order; what follows was done after the objects were destroyed. If
the constructor of the object throws, then nothing of the function is done. -/
theorem c100_inside (h : Reachable ps s) {t : Nat} (ht : (s.th t).ended = true) : seen [] (s.th t).trace = inside [] (ps t) := by
  rw [(eval_of_ended h ht).1, seen_eval]

/-- The exception of the function, or of the constructor, is passed on. -/
theorem c100_exception (h : Reachable ps s) {t : Nat} (ht : (s.th t).ended = true) (e : Nat) :
    (s.th t).mode = .exc e ↔ (eval (ps t)).2 = some e := by
  rw [(eval_of_ended h ht).2]
  split <;> simp_all

/-- Two threads are not at the same time in functions given to `scope` with a lock of the same mutex. -/
theorem c100_mutual_exclusion (h : Reachable ps s) {t u m : Nat} (ht : .lock m ∈ guards (s.th t).stack)
    (hu : .lock m ∈ guards (s.th u).stack) : t = u := by
  have hg : ∀ st : List Frame, .lock m ∈ guards st → m ∈ held st := by
    intro st
    induction st with
    | nil => simp [guards]
    | cons f st ih =>
      match f with
      | .next _ | .handler _ => exact ih
      | .guard (.obj _ _) => simpa [guards, held] using ih
      | .guard (.lock n) =>
        simp only [guards, held, List.mem_cons, Guard.lock.injEq]
        rintro (h | h)
        · exact .inl h
        · exact .inr (ih h)
  have h1 := (h.inv.own m t).2 (hg _ ht)
  have h2 := (h.inv.own m u).2 (hg _ hu)
  rw [h1] at h2
  cases h2
  rfl

/-- A thread that has not ended can take a step, or it is at a `scope` that locks a mutex that is locked. -/
theorem step_or_wait (s : St) {t : Nat} (ht : (s.th t).ended = false) :
    (∃ s', step s t = .ok s') ∨ ∃ m p u, (s.th t).mode = .run (.scope (.lock m) p) ∧ s.owner m = some u := by
  unfold Thread.ended at ht
  unfold step
  generalize s.th t = x at *
  obtain ⟨md, st, tr⟩ := x
  cases md with
  | run p =>
    cases p with
    | scope g p =>
      match g with
      | .obj n none => exact .inl ⟨_, rfl⟩
      | .obj n (some _) => exact .inl ⟨_, rfl⟩
      | .lock m =>
        cases hm : s.owner m with
        | none => exact .inl ⟨_, by simp only [enter, hm]; rfl⟩
        | some u => exact .inr ⟨m, p, u, rfl, hm⟩
    | _ => exact .inl ⟨_, rfl⟩
  | ret =>
    cases st with
    | nil => simp at ht
    | cons f st => cases f <;> exact .inl ⟨_, rfl⟩
  | exc e =>
    cases st with
    | nil => simp at ht
    | cons f st => cases f <;> exact .inl ⟨_, rfl⟩

/-- If locks are nested in one order, then there is no deadlock: as long as some thread has not ended, some thread can go on. -/
theorem c100_no_deadlock (hp : ∀ t, Ordered 0 (ps t)) (h : Reachable ps s) {t : Nat} (ht : (s.th t).ended = false) :
    ∃ u s', step s u = .ok s' := by
  obtain ⟨N, hN⟩ := h.finite
  have hord := h.ord hp
  have I := h.inv
  have key : ∀ (k : Nat) (t : Nat), (s.th t).ended = false → (∀ m p, (s.th t).mode = .run (.scope (.lock m) p) → N ≤ m + k) →
      ∃ u s', step s u = .ok s' := by
    intro k
    induction k with
    | zero =>
      intro t ht hb
      rcases step_or_wait s ht with h | ⟨m, p, u, hm, hu⟩
      · exact ⟨t, h⟩
      · have := hb m p hm
        have := hN m (by rw [hu]; simp)
        omega
    | succ k ih =>
      intro t ht hb
      rcases step_or_wait s ht with h | ⟨m, p, u, hm, hu⟩
      · exact ⟨t, h⟩
      · have hh := (I.own m u).1 hu
        have hne : (s.th u).ended = false := by
          unfold Thread.ended
          split
          · next h1 h2 => rw [h2] at hh; cases hh
          · next h1 h2 => rw [h2] at hh; cases hh
          · rfl
        refine ih u hne fun m' p' hm' => ?_
        obtain ⟨lo, h1, h2⟩ := hord u
        have hlt := held_lt h2 m hh
        rw [hm'] at h1
        have : lo ≤ m' := h1.1
        have := hb m p hm
        omega
  exact key N t ht fun m p _ => by omega

/-- ... and no thread locks a mutex again that it has locked. -/
theorem c100_no_relock (hp : ∀ t, Ordered 0 (ps t)) (h : Reachable ps s) (t : Nat) : step s t ≠ .ub := by
  intro e
  unfold step at e
  simp only at e
  split at e
  case h_5 g p hm =>
    match g with
    | .obj n none => cases e
    | .obj n (some _) => cases e
    | .lock m =>
      simp only [enter] at e
      split at e
      · cases e
      · next u hu =>
        split at e
        · next hut =>
          subst hut
          have hh := (h.inv.own m u).1 hu
          obtain ⟨lo, h1, h2⟩ := h.ord hp u
          have hlt := held_lt h2 m hh
          rw [hm] at h1
          have : lo ≤ m := h1.1
          omega
        · cases e
  all_goals (try split at e)
  all_goals cases e

/-! Two threads use the mutexes 1 and 2; thread 1 throws inside of both. -/

def demo : Nat → Prog
  | 0 => .seq (.scope (.lock 1) (.scope (.lock 2) (.act 10))) (.act 11)
  | 1 => .seq (.tryCatch (.scope (.lock 1) (.seq (.act 20) (.scope (.lock 2) (.throw 7)))) (.act 21)) (.scope (.obj 5 (some 8)) (.act 22))
  | _ => .skip

def exec (s : St) : List Nat → Option St
  | [] => some s
  | t :: ts => match step s t with
    | .ok s' => exec s' ts
    | _ => none

theorem exec_reachable {s' : St} {ts : List Nat} (h : Reachable ps s) (e : exec s ts = some s') : Reachable ps s' := by
  induction ts generalizing s with
  | nil => cases e; exact h
  | cons t ts ih =>
    simp only [exec] at e
    split at e
    · next s1 h1 => exact ih (.step h h1) e
    · cases e

example : ∀ t, Ordered 0 (demo t) := by
  intro t
  match t with
  | 0 => simp [demo, Ordered]
  | 1 => simp [demo, Ordered]
  | _ + 2 => trivial

/-- Thread 0 waits for thread 1. -/
example : ∃ s, Reachable demo s ∧ .lock 1 ∈ guards (s.th 1).stack ∧ (s.th 0).ended = false ∧ s.owner 1 = some 1 ∧ (s.th 1).trace = [.enter (.lock 1), .act 20] := by
  have h : (exec (init demo) [0, 1, 1, 1, 1, 1]).any (fun s => .lock 1 ∈ guards (s.th 1).stack ∧ (s.th 0).ended = false ∧ s.owner 1 = some 1 ∧
      (s.th 1).trace = [.enter (.lock 1), .act 20]) = true := by decide
  cases e : exec (init demo) [0, 1, 1, 1, 1, 1] with
  | none => rw [e] at h; cases h
  | some s => rw [e] at h; exact ⟨s, exec_reachable .init e, by simpa using h⟩

/-- Thread 1 has ended with the exception of a constructor. -/
example : ∃ s, Reachable demo s ∧ (s.th 1).ended = true ∧ (s.th 1).mode = .exc 8 ∧
    (s.th 1).trace = [.enter (.lock 1), .act 20, .enter (.lock 2), .leave (.lock 2), .leave (.lock 1), .act 21] ∧
    inside [] (demo 1) = [(20, [.lock 1]), (21, [])] := by
  have h : (exec (init demo) (List.replicate 14 1)).any (fun s => (s.th 1).ended = true ∧ (s.th 1).mode = .exc 8 ∧
      (s.th 1).trace = [.enter (.lock 1), .act 20, .enter (.lock 2), .leave (.lock 2), .leave (.lock 1), .act 21]) = true := by decide
  cases e : exec (init demo) (List.replicate 14 1) with
  | none => rw [e] at h; cases h
  | some s => rw [e] at h; simp at h; exact ⟨s, exec_reachable .init e, h.1, h.2.1, h.2.2, by decide⟩

end Verif.Scope
