import Verif.Scope

/-!
# The meaning of `scope`, and what holds in every state
-/

namespace Verif.Scope

variable {ps : Nat → Prog} {s s' : St}

/-! ## Sequential meaning -/

/-- What a program does on its own, and whether it throws. -/
def eval : Prog → List Event × Option Nat
  | .skip => ([], none)
  | .act n => ([.act n], none)
  | .throw e => ([], some e)
  | .seq p q => match eval p with
    | (a, none) => (a ++ (eval q).1, (eval q).2)
    | (a, some e) => (a, some e)
  | .scope (.obj _ (some e)) _ => ([], some e)
  | .scope g p => (.enter g :: (eval p).1 ++ [.leave g], (eval p).2)
  | .tryCatch p q => match eval p with
    | (a, none) => (a, none)
    | (a, some _) => (a ++ (eval q).1, (eval q).2)

/-- What is left to do. -/
def evalStack : Option Nat → List Frame → List Event × Option Nat
  | r, [] => ([], r)
  | none, .next q :: st => ((eval q).1 ++ (evalStack (eval q).2 st).1, (evalStack (eval q).2 st).2)
  | some e, .next _ :: st => evalStack (some e) st
  | r, .guard g :: st => (.leave g :: (evalStack r st).1, (evalStack r st).2)
  | none, .handler _ :: st => evalStack none st
  | some _, .handler q :: st => ((eval q).1 ++ (evalStack (eval q).2 st).1, (evalStack (eval q).2 st).2)

def evalMode : Mode → List Event × Option Nat
  | .run p => eval p
  | .ret => ([], none)
  | .exc e => ([], some e)

/-- All that a thread has done and will do. -/
def total (x : Thread) : List Event × Option Nat :=
  (x.trace ++ (evalMode x.mode).1 ++ (evalStack (evalMode x.mode).2 x.stack).1, (evalStack (evalMode x.mode).2 x.stack).2)

/-- The locks that a thread holds. -/
def held : List Frame → List Nat
  | [] => []
  | .guard (.lock m) :: st => m :: held st
  | _ :: st => held st

structure Inv (ps : Nat → Prog) (s : St) : Prop where
  tot : ∀ t, total (s.th t) = eval (ps t)
  own : ∀ m t, s.owner m = some t ↔ m ∈ held (s.th t).stack
  nd : ∀ t, (held (s.th t).stack).Nodup

theorem Inv.step (I : Inv ps s) {t : Nat} (h : step s t = .ok s') : Inv ps s' := by
  have hI := I.tot t
  have hall := I.tot
  have ho := I.own
  have hn := I.nd
  unfold Scope.step at h
  generalize hx : s.th t = x at *
  obtain ⟨m, st, tr⟩ := x
  have move : ∀ (m' : Mode) (st' : List Frame) (tr' : List Event), held st' = held st →
      total ⟨m', st', tr'⟩ = total ⟨m, st, tr⟩ → Inv ps (put s t m' st' tr') := by
    intro m' st' tr' h1 h2
    have e : ∀ u, (put s t m' st' tr').th u = if u = t then ⟨m', st', tr'⟩ else s.th u := fun u => rfl
    refine ⟨fun u => ?_, fun n u => ?_, fun u => ?_⟩
    · rw [e]; split
      · next hu => subst hu; rw [h2, hI]
      · exact hall u
    · rw [e]; split
      · next hu => subst hu; rw [h1]; have := ho n u; rw [hx] at this; exact this
      · exact ho n u
    · rw [e]; split
      · next hu => subst hu; rw [h1]; have := hn u; rw [hx] at this; exact this
      · exact hn u
  have leaves : ∀ (g : Guard) (st' : List Frame) (m' : Mode), m' = m → (∀ p, m ≠ .run p) → st = .guard g :: st' → Inv ps (leave s t g m' st') := by
    rintro g st' m' rfl hm rfl
    have htot : total ⟨m', st', tr ++ [.leave g]⟩ = total ⟨m', .guard g :: st', tr⟩ := by
      cases m' with
      | run p => exact absurd rfl (hm p)
      | ret => simp [total, evalMode, evalStack]
      | exc e => simp [total, evalMode, evalStack]
    cases g with
    | obj n r =>
      simp only [leave, hx]
      exact move _ _ _ rfl htot
    | lock n =>
      have e : ∀ u, (put s t m' st' (tr ++ [.leave (.lock n)])).th u =
          if u = t then ⟨m', st', tr ++ [.leave (.lock n)]⟩ else s.th u := fun u => rfl
      have hnt := hn t
      rw [hx] at hnt
      simp only [held, List.nodup_cons] at hnt
      have hot : s.owner n = some t := (ho n t).2 (by rw [hx]; simp [held])
      simp only [leave, hx]
      refine ⟨fun u => ?_, fun k u => ?_, fun u => ?_⟩
      · simp only [e]; split
        · next hu => subst hu; rw [htot, hI]
        · exact hall u
      · simp only [e, upd]
        have h1 := ho k u
        have h2 := ho n u
        have h3 := ho k t
        rw [hx] at h3
        simp only [put]
        grind [held]
      · simp only [e]; split
        · exact hnt.2
        · exact hn u
  cases m with
  | run p =>
    cases p with
    | skip => cases h; exact move _ _ _ rfl (by simp [total, evalMode, eval])
    | act n => cases h; exact move _ _ _ rfl (by simp [total, evalMode, eval])
    | throw e => cases h; exact move _ _ _ rfl (by simp [total, evalMode, eval])
    | seq p q =>
      cases h
      refine move _ _ _ rfl ?_
      cases hp : eval p with
      | mk a r => cases r <;> simp [total, evalMode, eval, evalStack, hp]
    | tryCatch p q =>
      cases h
      refine move _ _ _ rfl ?_
      cases hp : eval p with
      | mk a r => cases r <;> simp [total, evalMode, eval, evalStack, hp]
    | scope g p =>
      simp only [enter] at h
      cases g with
      | obj n r =>
        cases r with
        | none =>
          cases h
          refine move _ _ _ (by simp [hx, held]) ?_
          cases hp : eval p with
          | mk a r => cases r <;> simp [total, evalMode, eval, evalStack, hp, hx]
        | some e => cases h; exact move _ _ _ (by simp [hx]) (by simp [total, evalMode, eval, hx])
      | lock m =>
        cases hm : s.owner m with
        | some u => simp only [hm] at h; split at h <;> cases h
        | none =>
          simp only [hm, hx] at h
          cases h
          have hno : ∀ u, m ∉ held (s.th u).stack := by
            intro u hu; have := (ho m u).2 hu; rw [hm] at this; cases this
          have hno' : m ∉ held st := by have := hno t; rw [hx] at this; exact this
          have e : ∀ u, (put s t (.run p) (.guard (.lock m) :: st) (tr ++ [.enter (.lock m)])).th u =
              if u = t then ⟨.run p, .guard (.lock m) :: st, tr ++ [.enter (.lock m)]⟩ else s.th u := fun u => rfl
          refine ⟨fun u => ?_, fun n u => ?_, fun u => ?_⟩
          · simp only [e]; split
            · next hu =>
              subst hu
              rw [← hI]
              cases hp : eval p with
              | mk a r => cases r <;> simp [total, evalMode, eval, evalStack, hp]
            · exact hall u
          · simp only [e, upd]
            have h1 := ho n u
            have h2 := hno u
            grind [held]
          · simp only [e]; split
            · next hu =>
              subst hu
              have := hn u
              rw [hx] at this
              exact List.nodup_cons.2 ⟨hno', this⟩
            · exact hn u
  | ret =>
    cases st with
    | nil => cases h
    | cons f st =>
      cases f with
      | next q => cases h; exact move _ _ _ rfl (by simp [total, evalMode, evalStack])
      | handler q => cases h; exact move _ _ _ rfl (by simp [total, evalMode, evalStack])
      | guard g => cases h; exact leaves _ _ _ rfl (by simp) rfl
  | exc e =>
    cases st with
    | nil => cases h
    | cons f st =>
      cases f with
      | next q => cases h; exact move _ _ _ rfl (by simp [total, evalMode, evalStack])
      | handler q => cases h; exact move _ _ _ rfl (by simp [total, evalMode, evalStack])
      | guard g => cases h; exact leaves _ _ _ rfl (by simp) rfl

theorem Inv.init (ps : Nat → Prog) : Inv ps (init ps) where
  tot := fun t => by simp [total, Scope.init, evalMode, evalStack]
  own := fun m t => by simp [Scope.init, held]
  nd := fun t => by simp [Scope.init, held]

theorem Reachable.inv (h : Reachable ps s) : Inv ps s := by
  induction h with
  | init => exact Inv.init ps
  | step _ e ih => exact ih.step e

/-! ## Nesting -/

/-- The objects that exist after some events; `none` if one is destroyed that is not the last constructed. -/
def nest : List Guard → List Event → Option (List Guard)
  | gs, [] => some gs
  | gs, .act _ :: es => nest gs es
  | gs, .enter g :: es => nest (g :: gs) es
  | g' :: gs, .leave g :: es => if g = g' then nest gs es else none
  | [], .leave _ :: _ => none

theorem nest_append {gs : List Guard} {a b : List Event} : nest gs (a ++ b) = (nest gs a).bind fun gs => nest gs b := by
  induction a generalizing gs with
  | nil => rfl
  | cons e a ih =>
    cases e with
    | act n => exact ih
    | enter g => exact ih
    | leave g =>
      cases gs with
      | nil => rfl
      | cons g' gs =>
        simp only [List.cons_append, nest]
        split
        · exact ih
        · rfl

/-- The objects whose `scope` has not returned. -/
def guards : List Frame → List Guard
  | [] => []
  | .guard g :: st => g :: guards st
  | _ :: st => guards st

theorem nest_step (h : ∀ t, nest [] (s.th t).trace = some (guards (s.th t).stack)) {t : Nat} (e : step s t = .ok s') :
    ∀ t, nest [] (s'.th t).trace = some (guards (s'.th t).stack) := by
  have ht := h t
  unfold Scope.step at e
  generalize hx : s.th t = x at *
  obtain ⟨m, st, tr⟩ := x
  have move : ∀ (m' : Mode) (st' : List Frame) (tr' : List Event), nest [] tr' = some (guards st') →
      ∀ u, nest [] ((put s t m' st' tr').th u).trace = some (guards ((put s t m' st' tr').th u).stack) := by
    intro m' st' tr' h1 u
    have e : (put s t m' st' tr').th u = if u = t then ⟨m', st', tr'⟩ else s.th u := rfl
    rw [e]; split
    · exact h1
    · exact h u
  have leaves : ∀ (g : Guard) (st' : List Frame) (m' : Mode), st = .guard g :: st' →
      ∀ u, nest [] ((leave s t g m' st').th u).trace = some (guards ((leave s t g m' st').th u).stack) := by
    rintro g st' m' rfl
    have hn : nest [] (tr ++ [.leave g]) = some (guards st') := by
      simp only at ht
      rw [nest_append, ht]; simp [guards, nest]
    cases g <;> simp only [leave, hx] <;> exact move _ _ _ hn
  cases m with
  | run p =>
    cases p with
    | act n => cases e; exact move _ _ _ (by simp only at ht; rw [nest_append, ht]; rfl)
    | scope g p =>
      have hn : nest [] (tr ++ [.enter g]) = some (guards (.guard g :: st)) := by
        simp only at ht
        rw [nest_append, ht]; simp [guards, nest]
      simp only [enter, hx] at e
      cases g with
      | obj n r =>
        cases r with
        | none => cases e; exact move _ _ _ hn
        | some e' => cases e; exact move _ _ _ ht
      | lock m =>
        simp only at e
        split at e
        · cases e; exact move _ _ _ hn
        · split at e <;> cases e
    | _ => cases e; exact move _ _ _ ht
  | ret =>
    cases st with
    | nil => cases e
    | cons f st =>
      cases f with
      | guard g => cases e; exact leaves _ _ _ rfl
      | _ => cases e; exact move _ _ _ ht
  | exc x =>
    cases st with
    | nil => cases e
    | cons f st =>
      cases f with
      | guard g => cases e; exact leaves _ _ _ rfl
      | _ => cases e; exact move _ _ _ ht

theorem Reachable.nested (h : Reachable ps s) : ∀ t, nest [] (s.th t).trace = some (guards (s.th t).stack) := by
  induction h with
  | init => intro t; rfl
  | step _ e ih => exact nest_step ih e

/-! ## Locks taken in one order -/

/-- Every lock that is taken inside that of a mutex is of one with a greater number; all are at least `lo`. -/
def Ordered : Nat → Prog → Prop
  | lo, .seq p q | lo, .tryCatch p q => Ordered lo p ∧ Ordered lo q
  | lo, .scope (.lock m) p => lo ≤ m ∧ Ordered (m + 1) p
  | lo, .scope (.obj _ _) p => Ordered lo p
  | _, _ => True

/-- The same for what is left to do, when locks of at least `lo` may be taken. -/
def OrdStack : Nat → List Frame → Prop
  | _, [] => True
  | lo, .next q :: st | lo, .handler q :: st => Ordered lo q ∧ OrdStack lo st
  | lo, .guard (.lock m) :: st => lo = m + 1 ∧ ∃ lo' ≤ m, OrdStack lo' st
  | lo, .guard (.obj _ _) :: st => OrdStack lo st

def OrdMode : Nat → Mode → Prop
  | lo, .run p => Ordered lo p
  | _, _ => True

def OrdThread (x : Thread) : Prop := ∃ lo, OrdMode lo x.mode ∧ OrdStack lo x.stack

theorem held_lt {lo : Nat} {st : List Frame} (h : OrdStack lo st) : ∀ m ∈ held st, m < lo := by
  induction st generalizing lo with
  | nil => simp [held]
  | cons f st ih =>
    match f with
    | .next q => exact ih h.2
    | .handler q => exact ih h.2
    | .guard (.obj _ _) => exact ih h
    | .guard (.lock n) =>
      obtain ⟨rfl, lo', h1, h2⟩ := h
      intro m hm
      simp only [held, List.mem_cons] at hm
      rcases hm with rfl | hm
      · omega
      · have := ih h2 m hm; omega

theorem ord_step (h : ∀ t, OrdThread (s.th t)) {t : Nat} (e : step s t = .ok s') : ∀ t, OrdThread (s'.th t) := by
  have ht := h t
  unfold Scope.step at e
  generalize hx : s.th t = x at *
  obtain ⟨m, st, tr⟩ := x
  obtain ⟨lo, h1, h2⟩ := ht
  simp only at h1 h2
  have move : ∀ (m' : Mode) (st' : List Frame) (tr' : List Event), OrdThread ⟨m', st', tr'⟩ → ∀ u, OrdThread ((put s t m' st' tr').th u) := by
    intro m' st' tr' h1 u
    have e : (put s t m' st' tr').th u = if u = t then ⟨m', st', tr'⟩ else s.th u := rfl
    rw [e]; split
    · exact h1
    · exact h u
  have leaves : ∀ (g : Guard) (st' : List Frame) (m' : Mode), (∀ lo, OrdMode lo m') → st = .guard g :: st' →
      ∀ u, OrdThread ((leave s t g m' st').th u) := by
    rintro g st' m' hm rfl
    cases g with
    | obj n r => exact move _ _ _ ⟨lo, hm _, h2⟩
    | lock n =>
      obtain ⟨_, lo', _, h2⟩ := h2
      exact move _ _ _ ⟨lo', hm _, h2⟩
  cases m with
  | run p =>
    cases p with
    | seq p q => cases e; exact move _ _ _ ⟨lo, h1.1, h1.2, h2⟩
    | tryCatch p q => cases e; exact move _ _ _ ⟨lo, h1.1, h1.2, h2⟩
    | scope g p =>
      simp only [enter, hx] at e
      cases g with
      | obj n r =>
        cases r with
        | none => cases e; exact move _ _ _ ⟨lo, h1, h2⟩
        | some e' => cases e; exact move _ _ _ ⟨lo, trivial, h2⟩
      | lock m =>
        simp only at e
        split at e
        · cases e; exact move _ _ _ ⟨m + 1, h1.2, rfl, lo, h1.1, h2⟩
        · split at e <;> cases e
    | _ => cases e; exact move _ _ _ ⟨lo, trivial, h2⟩
  | ret =>
    cases st with
    | nil => cases e
    | cons f st =>
      cases f with
      | guard g => cases e; exact leaves _ _ _ (fun _ => trivial) rfl
      | next q => cases e; exact move _ _ _ ⟨lo, h2.1, h2.2⟩
      | handler q => cases e; exact move _ _ _ ⟨lo, trivial, h2.2⟩
  | exc x =>
    cases st with
    | nil => cases e
    | cons f st =>
      cases f with
      | guard g => cases e; exact leaves _ _ _ (fun _ => trivial) rfl
      | next q => cases e; exact move _ _ _ ⟨lo, trivial, h2.2⟩
      | handler q => cases e; exact move _ _ _ ⟨lo, h2.1, h2.2⟩

theorem Reachable.ord (hp : ∀ t, Ordered 0 (ps t)) (h : Reachable ps s) : ∀ t, OrdThread (s.th t) := by
  induction h with
  | init => intro t; exact ⟨0, hp t, trivial⟩
  | step _ e ih => exact ord_step ih e

theorem leave_owner {t m : Nat} {g : Guard} {md : Mode} {st : List Frame} (h : (leave s t g md st).owner m ≠ none) : s.owner m ≠ none := by
  cases g with
  | obj n r => exact h
  | lock n => simp only [leave, upd, put] at h; split at h <;> simp_all

/-- Only finitely many mutexes are locked. -/
theorem Reachable.finite (h : Reachable ps s) : ∃ N, ∀ m, s.owner m ≠ none → m < N := by
  induction h with
  | init => exact ⟨0, by simp [Scope.init]⟩
  | @step s s' t _ e ih =>
    obtain ⟨N, hN⟩ := ih
    have sub : (∀ m, s'.owner m ≠ none → s.owner m ≠ none) → ∃ N, ∀ m, s'.owner m ≠ none → m < N :=
      fun h => ⟨N, fun m hm => hN m (h m hm)⟩
    unfold Scope.step at e
    simp only at e
    split at e
    case h_5 g p _ =>
      match g with
      | .lock n =>
        simp only [enter] at e
        split at e
        · cases e
          refine ⟨max N (n + 1), fun m hm => ?_⟩
          simp only [upd] at hm
          split at hm
          · omega
          · have := hN m hm; omega
        · split at e <;> cases e
      | .obj n none => cases e; exact sub fun m h => h
      | .obj n (some _) => cases e; exact sub fun m h => h
    all_goals (try split at e)
    all_goals cases e
    all_goals exact sub fun m h => by first | exact h | exact leave_owner h

end Verif.Scope
