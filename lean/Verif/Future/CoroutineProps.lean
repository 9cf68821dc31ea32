import Verif.Future.CoroutineInv

/-! # Properties of coroutines and `co_await` (C58) -/

namespace Verif.Coroutine

open Verif.Shared (Err Outcome upd)

/-- The event is a step of coroutine `i`. -/
def about (i : Nat) : Event → Bool
  | .started k => k = i
  | .awaits k _ => k = i
  | .resumed k _ _ => k = i
  | .returned k _ => k = i
  | .resolved _ _ => false

/-- What may happen to coroutine `i`: it starts, then each `co_await` ends once, with the future it was for, before anything else
happens, and finally it returns, or is left by an exception. -/
inductive History (i : Nat) : List Event → Status → Prop where
  | none : History i [] .none
  | started : History i [.started i] .running
  | awaits {l : List Event} (j : Nat) : History i l .running → History i (l ++ [.awaits i j]) (.suspended j)
  | resumed {l : List Event} {j : Nat} (o : Outcome) : History i l (.suspended j) → History i (l ++ [.resumed i j o]) .running
  | returned {l : List Event} (o : Outcome) : History i l .running → History i (l ++ [.returned i o]) .finished

/-- The future of coroutine `i` is being resolved. -/
def Leaving (s : St) (i : Nat) : Prop := ∃ t o, .result i o ∈ s.stack t

def isResolved (j : Nat) : Event → Bool
  | .resolved k _ => k = j
  | _ => false

structure TInv (P : Prog) (s : St) : Prop where
  hist : ∀ i, ∃ σ, History i (s.trace.filter (about i)) σ ∧ ((σ = s.status i ∧ ¬ Leaving s i) ∨ (σ = .finished ∧ Leaving s i))
  val : ∀ l r i j o, s.trace = l ++ .resumed i j o :: r → .resolved j o ∈ l
  res : ∀ l r i o, P.co i = true → s.trace = l ++ .resolved i o :: r → .returned i o ∈ l
  out : ∀ j o, .resolved j o ∈ s.trace ↔ s.out j = some o
  once : ∀ j, s.trace.countP (isResolved j) ≤ 1
  gone : ∀ i, s.status i = .finished → s.out i = none → s.user i = false ∧ s.hold i = [] ∧ P.void i = false

theorem tinv_init (P : Prog) : TInv P (init P) := by
  constructor
  · intro i; exact ⟨.none, by simpa [init] using History.none, .inl ⟨rfl, by simp [Leaving, init]⟩⟩
  all_goals simp [init]

/-- An event is appended. -/
theorem split_append {α : Type} {l l1 r : List α} {a b : α} (h : l ++ [b] = l1 ++ a :: r) :
    (a = b ∧ l1 = l) ∨ ∃ r', l = l1 ++ a :: r' := by
  rcases List.eq_nil_or_concat r with rfl | ⟨r', c, rfl⟩
  · have := List.append_inj' h rfl
    simp at this
    exact .inl ⟨this.2.symm, this.1.symm⟩
  · refine .inr ⟨r', ?_⟩
    have h' : l ++ [b] = (l1 ++ a :: r') ++ [c] := by simpa using h
    exact (List.append_inj' h' rfl).1

def Val (tr : List Event) : Prop := ∀ l r i j o, tr = l ++ .resumed i j o :: r → .resolved j o ∈ l

def Res (P : Prog) (tr : List Event) : Prop := ∀ l r i o, P.co i = true → tr = l ++ .resolved i o :: r → .returned i o ∈ l

theorem val_append {tr : List Event} {e : Event} (h : Val tr) (he : ∀ i j o, e = .resumed i j o → .resolved j o ∈ tr) :
    Val (tr ++ [e]) := by
  intro l r i j o h1
  rcases split_append h1 with ⟨h2, rfl⟩ | ⟨r', h2⟩
  · exact he i j o h2.symm
  · exact h l r' i j o h2

theorem res_append {P : Prog} {tr : List Event} {e : Event} (h : Res P tr)
    (he : ∀ i o, P.co i = true → e = .resolved i o → .returned i o ∈ tr) : Res P (tr ++ [e]) := by
  intro l r i o hi h1
  rcases split_append h1 with ⟨h2, rfl⟩ | ⟨r', h2⟩
  · exact he i o hi h2.symm
  · exact h l r' i o hi h2

theorem leaving_congr {s s' : St} {i : Nat} (h : ∀ t o, .result i o ∈ s'.stack t ↔ .result i o ∈ s.stack t) :
    Leaving s' i ↔ Leaving s i := by simp only [Leaving, h]

/-- The stack of thread `t` changes only in frames that are no results. -/
theorem result_upd {s : St} {t : Nat} {fs : List Frame} {i : Nat} (h : ∀ o, .result i o ∈ fs ↔ .result i o ∈ s.stack t)
    (u : Nat) (o : Outcome) : .result i o ∈ upd s.stack t fs u ↔ .result i o ∈ s.stack u := by
  rw [upd_eq]; split
  · next e => rw [e]; exact h o
  · exact Iff.rfl

/-- The history of `i` when an event about another coroutine, or none, is appended. -/
theorem filter_other {i : Nat} {tr : List Event} {e : Event} (h : about i e = false) :
    (tr ++ [e]).filter (about i) = tr.filter (about i) := by simp [h]

theorem filter_self {i : Nat} {tr : List Event} {e : Event} (h : about i e = true) :
    (tr ++ [e]).filter (about i) = tr.filter (about i) ++ [e] := by simp [h]

theorem not_leaving {P : Prog} {s : St} (I : Inv P s) {t i : Nat} {f : Frame} (hf : f ∈ s.stack t) (hi : i ∈ f.cos)
    (hr : ∀ o, f ≠ .result i o) : ¬ Leaving s i := by
  intro ⟨u, o, h⟩
  have h1 : i ∈ cos (s.stack u) := mem_cos.2 ⟨_, h, by simp [Frame.cos]⟩
  have h2 : i ∈ cos (s.stack t) := mem_cos.2 ⟨f, hf, hi⟩
  have := I.disj u t i h1 h2
  subst this
  have hn := I.nodup u
  obtain ⟨l, r, e⟩ := List.append_of_mem h
  rw [e] at hn hf
  have hne : f ∈ l ∨ f ∈ r := by
    have := hr o
    simp at hf
    grind
  rw [cos, List.flatMap_append, List.flatMap_cons, ← cos, ← cos, List.nodup_append] at hn
  rcases hne with h3 | h3
  · exact hn.2.2 i (mem_cos.2 ⟨f, h3, hi⟩) i (by simp [Frame.cos]) rfl
  · have := hn.2.1
    simp only [Frame.cos, List.cons_append, List.nil_append, List.nodup_cons] at this
    exact this.1 (mem_cos.2 ⟨f, h3, hi⟩)

theorem tinv_ready {P : Prog} {s : St} {t j : Nat} {o : Outcome} {fs : List Frame} (I : Inv P s) (T : TInv P s) (b : Bool)
    (h0 : s.stack t = if b then .result j o :: fs else fs) (ho : s.out j = none) (hb : P.co j = b) :
    TInv P { ready s t j o fs with status := fun k => if b = true ∧ k = j then .finished else s.status k } := by
  have hin : b = true → .result j o ∈ s.stack t := by intro e; simp [h0, e]
  have hnores : ∀ p, Event.resolved j p ∉ s.trace := by intro p h; have := (T.out j p).1 h; simp [ho] at this
  have hcount : s.trace.countP (isResolved j) = 0 := by
    rw [List.countP_eq_zero]
    intro e he
    cases e <;> simp [isResolved]
    next k p => intro e; exact hnores p (e ▸ he)
  constructor
  case hist =>
    intro i
    obtain ⟨σ, h1, h2⟩ := T.hist i
    refine ⟨σ, by simpa [ready, about] using h1, ?_⟩
    by_cases hi : b = true ∧ i = j
    · obtain ⟨hb', rfl⟩ := hi
      have hl : Leaving s i := ⟨t, o, hin hb'⟩
      refine .inl ⟨by simp [hb']; rcases h2 with h2 | h2; exact absurd hl h2.2; exact h2.1, ?_⟩
      intro ⟨u, p, hu⟩
      have hnd := I.nodup t
      rw [h0, if_pos hb', cos_result, List.nodup_cons] at hnd
      by_cases e : u = t
      · subst e
        simp only [ready, upd_eq, ↓reduceIte, List.mem_cons, reduceCtorEq, false_or] at hu
        exact hnd.1 (mem_cos.2 ⟨_, hu, by simp [Frame.cos]⟩)
      · simp only [ready, upd_eq, e, ↓reduceIte] at hu
        exact e (I.disj u t i (mem_cos.2 ⟨_, hu, by simp [Frame.cos]⟩) (mem_cos.2 ⟨_, hin hb', by simp [Frame.cos]⟩))
    · have hl : Leaving { ready s t j o fs with status := fun k => if b = true ∧ k = j then .finished else s.status k } i ↔ Leaving s i := by
        refine leaving_congr (s' := { ready s t j o fs with
            status := fun k => if b = true ∧ k = j then .finished else s.status k }) (fun u p => ?_)
        simp only [ready]
        refine result_upd (fun p => ?_) u p
        rw [h0]
        cases hb : b with
        | false => simp
        | true => have : i ≠ j := fun e => hi ⟨hb, e⟩
                  simp [this]
      rw [hl]
      simpa [hi] using h2
  case val => exact val_append T.val (by simp)
  case res =>
    refine res_append T.res (fun i p hi he => ?_)
    cases he
    have := (I.frames t (.result j o) (hin (by rw [← hb, hi]))).2
    exact this
  case out =>
    intro k p
    have := T.out k p
    simp only [ready, upd_eq, List.mem_append, List.mem_singleton, Event.resolved.injEq]
    by_cases e : k = j
    · subst e
      have := hnores p
      simp only [this, false_or, ↓reduceIte, Option.some.injEq, true_and]
      exact eq_comm
    · simp [e, this]
  case once =>
    intro k
    have := T.once k
    simp only [ready, List.countP_append]
    by_cases e : k = j
    · subst e; rw [hcount]; simp [isResolved]
    · have : (j = k) = False := by simp; exact fun h => e h.symm
      simp [isResolved, this]; assumption
  case gone =>
    intro i h1 h2
    have := T.gone i
    simp only [ready, upd_eq] at h1 h2 ⊢
    grind

theorem tinv_step {P : Prog} {s s' : St} {a : Act} (I : Inv P s) (T : TInv P s) (h : step P s a = .ok s') : TInv P s' := by
  cases a with
  | call t i =>
    simp only [step] at h
    split at h
    case isFalse => cases h
    case isTrue hc =>
    obtain ⟨-, hco, hn⟩ := hc
    cases h
    have hl : ∀ k, Leaving { s with status := upd s.status i .running, user := upd s.user i true, stack := upd s.stack t (.body i :: s.stack t), trace := s.trace ++ [.started i] } k ↔ Leaving s k := fun k =>
      leaving_congr (result_upd (by simp))
    constructor
    case hist =>
      intro k
      obtain ⟨σ, h1, h2⟩ := T.hist k
      simp only [hl]
      by_cases e : i = k
      · subst e
        have hnl : ¬ Leaving s i := fun ⟨u, o, hu⟩ => by have := (I.frames u _ hu).1; rw [hn] at this; cases this
        have h3 : σ = .none := by rcases h2 with h2 | h2; exact h2.1.trans hn; exact absurd h2.2 hnl
        subst h3
        refine ⟨.running, ?_, .inl ⟨by simp [upd_eq], hnl⟩⟩
        rw [filter_self (by simp [about])]
        generalize s.trace.filter (about i) = l at h1
        cases h1
        exact .started
      · refine ⟨σ, by rw [filter_other (by simp [about, e])]; exact h1, ?_⟩
        simpa [upd_eq, Ne.symm e] using h2
    case val => exact val_append T.val (by simp)
    case res => exact res_append T.res (by simp)
    case out => simpa using T.out
    case once => intro j; have := T.once j; simpa [isResolved, List.countP_append] using this
    case gone => intro k h1 h2; have := T.gone k; simp only [upd_eq] at h1 ⊢; grind
  | resolve t j o =>
    simp only [step] at h
    split at h
    case isFalse => cases h
    case isTrue hc =>
    cases h
    have := tinv_ready (t := t) (o := o) (fs := s.stack t) I T false (by simp) hc.2.2.1 hc.2.1
    have e : (fun k => if false = true ∧ k = j then Status.finished else s.status k) = s.status := by funext k; simp
    rw [e] at this
    exact this
  | drop j =>
    simp only [step] at h
    split at h <;> cases h
    constructor
    · exact T.hist
    · exact T.val
    · exact T.res
    · exact T.out
    · exact T.once
    · intro k h1 h2; have := T.gone k h1 h2; simp only [upd_eq]; grind
  | await t j mv =>
    simp only [step] at h
    split at h
    case h_2 => cases h
    case h_1 i fs h0 =>
    split at h
    case isFalse => cases h
    case isTrue hu =>
    have hr : s.status i = .running := I.frames t (.body i) (by simp [h0])
    have hnl : ¬ Leaving s i := not_leaving I (f := .body i) (t := t) (by simp [h0]) (by simp [Frame.cos]) (by simp)
    split at h
    · next o ho =>
      cases h
      have hl : ∀ k, Leaving { s with user := if mv then upd s.user j false else s.user, trace := s.trace ++ [.awaits i j] ++ [.resumed i j o] } k ↔ Leaving s k := fun k => leaving_congr (by simp)
      constructor
      case hist =>
        intro k
        obtain ⟨σ, h1, h2⟩ := T.hist k
        simp only [hl]
        by_cases e : i = k
        · subst e
          have h3 : σ = .running := by rcases h2 with h2 | h2; exact h2.1.trans hr; exact absurd h2.2 hnl
          subst h3
          refine ⟨.running, ?_, .inl ⟨hr.symm, hnl⟩⟩
          rw [filter_self (by simp [about]), filter_self (by simp [about])]
          exact .resumed o (.awaits j h1)
        · refine ⟨σ, by rw [filter_other (by simp [about, e]), filter_other (by simp [about, e])]; exact h1, h2⟩
      case val =>
        refine val_append (val_append T.val (by simp)) (fun i' j' o' he => ?_)
        cases he
        have := (T.out j o).2 ho
        simp [this]
      case res => exact res_append (res_append T.res (by simp)) (by simp)
      case out => simpa using T.out
      case once => intro k; have := T.once k; simpa [isResolved, List.countP_append] using this
      case gone => intro k h1 h2; have := T.gone k h1 h2; cases mv <;> simp only [upd_eq, Bool.false_eq_true, ↓reduceIte] <;> grind
    · next ho =>
      cases h
      have hl : ∀ k, Leaving { s with user := if mv then upd s.user j false else s.user, status := upd s.status i (.suspended j), hold := upd s.hold j (i :: s.hold j), stack := upd s.stack t (.detach i j :: fs), trace := s.trace ++ [.awaits i j] } k ↔ Leaving s k := fun k => leaving_congr (result_upd (by simp [h0]))
      constructor
      case hist =>
        intro k
        obtain ⟨σ, h1, h2⟩ := T.hist k
        simp only [hl]
        by_cases e : i = k
        · subst e
          have h3 : σ = .running := by rcases h2 with h2 | h2; exact h2.1.trans hr; exact absurd h2.2 hnl
          subst h3
          refine ⟨.suspended j, ?_, .inl ⟨by simp [upd_eq], hnl⟩⟩
          rw [filter_self (by simp [about])]
          exact .awaits j h1
        · refine ⟨σ, by rw [filter_other (by simp [about, e])]; exact h1, by simpa [upd_eq, Ne.symm e] using h2⟩
      case val => exact val_append T.val (by simp)
      case res => exact res_append T.res (by simp)
      case out => simpa using T.out
      case once => intro k; have := T.once k; simpa [isResolved, List.countP_append] using this
      case gone => intro k h1 h2; have := T.gone k; simp only [upd_eq] at h1; cases mv <;> simp only [upd_eq, Bool.false_eq_true, ↓reduceIte] <;> grind
  | ret t o =>
    simp only [step] at h
    split at h
    case h_2 => cases h
    case h_1 i fs h0 =>
    cases h
    have hr : s.status i = .running := I.frames t (.body i) (by simp [h0])
    have hnl : ¬ Leaving s i := not_leaving I (f := .body i) (t := t) (by simp [h0]) (by simp [Frame.cos]) (by simp)
    constructor
    case hist =>
      intro k
      obtain ⟨σ, h1, h2⟩ := T.hist k
      by_cases e : i = k
      · subst e
        have h3 : σ = .running := by rcases h2 with h2 | h2; exact h2.1.trans hr; exact absurd h2.2 hnl
        subst h3
        refine ⟨.finished, ?_, .inr ⟨rfl, t, o, by simp [upd_eq]⟩⟩
        simp only
        rw [filter_self (by simp [about])]
        exact .returned o h1
      · refine ⟨σ, by simp only; rw [filter_other (by simp [about, e])]; exact h1, ?_⟩
        have hl : Leaving { s with stack := upd s.stack t (.result i o :: fs), trace := s.trace ++ [.returned i o] } k ↔ Leaving s k :=
          leaving_congr (result_upd (by simp [h0, Ne.symm e]))
        rw [hl]; exact h2
    case val => exact val_append T.val (by simp)
    case res => exact res_append T.res (by simp)
    case out => simpa using T.out
    case once => intro k; have := T.once k; simpa [isResolved, List.countP_append] using this
    case gone => exact T.gone
  | step t =>
    simp only [step] at h
    split at h
    · cases h
    · cases h
    · next i j fs h0 =>
      split at h
      · cases h
        have hl : ∀ k, Leaving { s with thens := upd s.thens j (s.thens j ++ [i]), stack := upd s.stack t fs } k ↔ Leaving s k := fun k =>
          leaving_congr (result_upd (by simp [h0]))
        exact ⟨fun k => by simp only [hl]; exact T.hist k, T.val, T.res, T.out, T.once, T.gone⟩
      · cases h
        have hl : ∀ k, Leaving { s with stack := upd s.stack t (.resume i j :: fs) } k ↔ Leaving s k := fun k =>
          leaving_congr (result_upd (by simp [h0]))
        exact ⟨fun k => by simp only [hl]; exact T.hist k, T.val, T.res, T.out, T.once, T.gone⟩
    · next i j fs h0 =>
      split at h
      · next hst =>
        split at h
        · cases h
        · next o ho =>
          cases h
          have hnl : ¬ Leaving s i := not_leaving I (f := .resume i j) (t := t) (by simp [h0]) (by simp [Frame.cos]) (by simp)
          have hl : ∀ k, Leaving { s with status := upd s.status i .running, hold := upd s.hold j ((s.hold j).erase i), stack := upd s.stack t (.body i :: fs), trace := s.trace ++ [.resumed i j o] } k ↔ Leaving s k := fun k =>
            leaving_congr (result_upd (by simp [h0]))
          constructor
          case hist =>
            intro k
            obtain ⟨σ, h1, h2⟩ := T.hist k
            simp only [hl]
            by_cases e : i = k
            · subst e
              have h3 : σ = .suspended j := by rcases h2 with h2 | h2; exact h2.1.trans hst; exact absurd h2.2 hnl
              subst h3
              refine ⟨.running, ?_, .inl ⟨by simp [upd_eq], hnl⟩⟩
              rw [filter_self (by simp [about])]
              exact .resumed o h1
            · refine ⟨σ, by rw [filter_other (by simp [about, e])]; exact h1, by simpa [upd_eq, Ne.symm e] using h2⟩
          case val =>
            refine val_append T.val (fun i' j' o' he => ?_)
            cases he
            exact (T.out j o).2 ho
          case res => exact res_append T.res (by simp)
          case out => simpa using T.out
          case once => intro k; have := T.once k; simpa [isResolved, List.countP_append] using this
          case gone => intro k h1 h2; have := T.gone k; simp only [upd_eq] at h1 ⊢; grind
      · cases h
    · next i o fs h0 =>
      split at h
      · cases h
      · next ho =>
        have ho : s.out i = none := by simpa using ho
        have hst : s.status i = .running := (I.frames t (.result i o) (by simp [h0])).1
        have hco : P.co i = true := by
          cases h : P.co i with
          | false => have := I.co i h; grind
          | true => rfl
        split at h
        · cases h
          have := tinv_ready (t := t) (o := o) (fs := fs) I T true (by simp [h0]) ho hco
          have e : upd s.status i .finished = fun k => if true = true ∧ k = i then .finished else s.status k := by
            funext k; simp [upd_eq]
          rw [e]
          exact this
        · next ha =>
          cases h
          have hin : .result i o ∈ s.stack t := by simp [h0]
          have hnd := I.nodup t
          rw [h0, cos_result, List.nodup_cons] at hnd
          have hnl : ¬ Leaving { s with status := upd s.status i .finished, stack := upd s.stack t fs } i := by
            intro ⟨u, p, hu⟩
            simp only [upd_eq] at hu
            split at hu
            · exact hnd.1 (mem_cos.2 ⟨_, hu, by simp [Frame.cos]⟩)
            · next e => exact e (I.disj u t i (mem_cos.2 ⟨_, hu, by simp [Frame.cos]⟩) (mem_cos.2 ⟨_, hin, by simp [Frame.cos]⟩))
          constructor
          case hist =>
            intro k
            obtain ⟨σ, h1, h2⟩ := T.hist k
            refine ⟨σ, h1, ?_⟩
            by_cases e : k = i
            · subst e
              refine .inl ⟨?_, hnl⟩
              rcases h2 with h2 | h2
              · exact absurd ⟨t, o, hin⟩ h2.2
              · simp [h2.1, upd_eq]
            · have hl : Leaving { s with status := upd s.status i .finished, stack := upd s.stack t fs } k ↔ Leaving s k :=
                leaving_congr (result_upd (by simp [h0, e]))
              rw [hl]
              simpa [upd_eq, e] using h2
          case val => exact T.val
          case res => exact T.res
          case out => exact T.out
          case once => exact T.once
          case gone =>
            intro k h1 h2
            have := T.gone k
            simp only [alive] at ha
            simp only [upd_eq] at h1 ⊢
            grind
    · next j i es fs h0 =>
      cases h
      have hl : ∀ k, Leaving { s with stack := upd s.stack t (.resume i j :: .drain j es :: fs) } k ↔ Leaving s k := fun k =>
        leaving_congr (result_upd (by simp [h0]))
      exact ⟨fun k => by simp only [hl]; exact T.hist k, T.val, T.res, T.out, T.once, T.gone⟩
    · next j fs h0 =>
      cases h
      have hl : ∀ k, Leaving { s with stack := upd s.stack t fs } k ↔ Leaving s k := fun k =>
        leaving_congr (result_upd (by simp [h0]))
      exact ⟨fun k => by simp only [hl]; exact T.hist k, T.val, T.res, T.out, T.once, T.gone⟩

theorem tinv {P : Prog} {s : St} (h : Reachable P s) : TInv P s := by
  obtain ⟨as, h⟩ := h
  have key : ∀ (as : List Act) (s0 : St), Inv P s0 → TInv P s0 → exec P s0 as = some s → TInv P s := by
    intro as
    induction as with
    | nil => intro s0 _ T h; cases h; exact T
    | cons a as ih =>
      intro s0 I T h
      simp only [exec] at h
      split at h
      · next hs => exact ih _ (inv_step I hs) (tinv_step I T hs) h
      · cases h
  exact key as _ (inv_init P) (tinv_init P) h

/-! ## Theorems -/

/-- No coroutine is resumed while it runs or after its end, no future is resolved twice, and no result is read before it is
there: no action has undefined behaviour. -/
theorem c58_no_undefined {P : Prog} {s : St} (h : Reachable P s) (a : Act) : step P s a ≠ .ub := by
  have I := inv h
  intro hu
  cases a with
  | call t i => simp only [step] at hu; split at hu <;> cases hu
  | resolve t j o => simp only [step] at hu; split at hu <;> cases hu
  | drop j => simp only [step] at hu; split at hu <;> cases hu
  | await t j mv =>
    simp only [step] at hu
    split at hu
    · split at hu
      · split at hu <;> cases hu
      · cases hu
    · cases hu
  | ret t o => simp only [step] at hu; split at hu <;> cases hu
  | step t =>
    simp only [step] at hu
    split at hu
    · cases hu
    · cases hu
    · split at hu <;> cases hu
    · next i j fs h0 =>
      have := I.frames t (.resume i j) (by simp [h0])
      simp only [FrameOk] at this
      split at hu
      · split at hu
        · grind
        · cases hu
      · grind
    · next i o fs h0 =>
      have hf := I.frames t (.result i o) (by simp [h0])
      simp only [FrameOk] at hf
      have hco : P.co i = true := by
        cases hc : P.co i with
        | false => have := I.co i hc; grind
        | true => rfl
      have := I.out i hco
      split at hu
      · grind
      · split at hu <;> cases hu
    · cases hu
    · cases hu

/-- Every coroutine runs as its text says: it starts once, each `co_await` completes at most once and before the coroutine goes
on, and the coroutine returns, or is left by an exception, at most once and last. -/
theorem c58_history {P : Prog} {s : St} (h : Reachable P s) (i : Nat) : ∃ σ, History i (s.trace.filter (about i)) σ := by
  obtain ⟨σ, h1, -⟩ := (tinv h).hist i
  exact ⟨σ, h1⟩

/-- A `co_await` yields the value, or throws the exception, the future was resolved with before. -/
theorem c58_value {P : Prog} {s : St} (h : Reachable P s) {l r : List Event} {i j : Nat} {o : Outcome}
    (e : s.trace = l ++ .resumed i j o :: r) : .resolved j o ∈ l := (tinv h).val l r i j o e

/-- A future is resolved at most once. -/
theorem c58_resolved_once {P : Prog} {s : St} (h : Reachable P s) {j : Nat} {o p : Outcome} {l m r : List Event} :
    s.trace ≠ l ++ .resolved j o :: m ++ .resolved j p :: r := by
  intro e
  have := (tinv h).once j
  rw [e] at this
  simp [List.countP_append, List.countP_cons, isResolved] at this
  omega

/-- The future of a coroutine is resolved with what the coroutine has returned or thrown. -/
theorem c58_result {P : Prog} {s : St} (h : Reachable P s) {l r : List Event} {i : Nat} {o : Outcome} (hi : P.co i = true)
    (e : s.trace = l ++ .resolved i o :: r) : .returned i o ∈ l := (tinv h).res l r i o hi e

/-- When a coroutine has ended its future is resolved, unless nobody has that future any more and no coroutine awaits it. That of
a coroutine returning `future<void>` is always resolved. -/
theorem c58_finished {P : Prog} {s : St} (h : Reachable P s) {i : Nat} (hi : s.status i = .finished)
    (hu : s.user i = true ∨ (∃ k, s.status k = .suspended i) ∨ P.void i = true) :
    ∃ o, .returned i o ∈ s.trace ∧ .resolved i o ∈ s.trace := by
  have T := tinv h
  have I := inv h
  cases ho : s.out i with
  | none =>
    have h1 := T.gone i hi ho
    rcases hu with hu | ⟨k, hk⟩ | hu
    · simp [hu] at h1
    · have := (I.hold k i).2 hk; simp [h1] at this
    · simp [hu] at h1
  | some o =>
    have hr := (T.out i o).2 ho
    obtain ⟨l, r, e⟩ := List.append_of_mem hr
    have hco : P.co i = true := by
      cases hc : P.co i with
      | false => have := I.co i hc; grind
      | true => rfl
    have := T.res l r i o hco e
    exact ⟨o, by rw [e]; simp [this], hr⟩

/-- A coroutine that awaits a resolved future is going to be resumed by some thread: it is on that thread's stack. -/
theorem c58_no_lost_wakeup {P : Prog} {s : St} (h : Reachable P s) {i j : Nat} {o : Outcome} (hs : s.status i = .suspended j)
    (ho : .resolved j o ∈ s.trace) : ∃ t, i ∈ cos (s.stack t) := by
  have I := inv h
  have h1 := (tinv h).out j o |>.1 ho
  rcases I.susp i j hs with h2 | h2
  · have := (I.thens i j h2).2; simp [h1] at this
  · exact h2

/-- A future that a coroutine awaits can be resolved by whoever is to resolve it, even if the only future object went into the
`co_await`. -/
theorem c58_resolvable {P : Prog} {s : St} (h : Reachable P s) {i j : Nat} (hs : s.status i = .suspended j) (hj : P.co j = false)
    (ho : ∀ o, .resolved j o ∉ s.trace) (t : Nat) (hf : s.stack t = []) (o : Outcome) :
    ∃ s', step P s (.resolve t j o) = .ok s' ∧ s'.trace = s.trace ++ [.resolved j o] := by
  have hn : s.out j = none := by
    cases e : s.out j with
    | none => rfl
    | some p => exact absurd ((tinv h).out j p |>.2 e) (ho p)
  have ha : alive P s j = true := by
    have := ((inv h).hold i j).2 hs
    cases e : s.hold j with
    | nil => simp [e] at this
    | cons a as => simp [alive, e]
  exact ⟨_, by simp only [step]; rw [if_pos ⟨by simp [hf, free], hj, hn, ha⟩], rfl⟩

/-- When all threads have finished their work, each coroutine that was called has returned or awaits an unresolved future. -/
theorem c58_quiescent {P : Prog} {s : St} (h : Reachable P s) (hq : ∀ t, s.stack t = []) {i : Nat} (hi : .started i ∈ s.trace) :
    s.status i = .finished ∨ ∃ j, s.status i = .suspended j ∧ ∀ o, .resolved j o ∉ s.trace := by
  have I := inv h
  have T := tinv h
  cases hs : s.status i with
  | finished => exact .inl rfl
  | none =>
    obtain ⟨σ, h1, h2⟩ := T.hist i
    have hm : Event.started i ∈ s.trace.filter (about i) := by simp [hi, about]
    rcases h2 with h2 | ⟨-, t, o, h2⟩
    · rw [h2.1, hs] at h1
      generalize s.trace.filter (about i) = l at h1 hm
      cases h1
      simp at hm
    · simp [hq] at h2
  | running => obtain ⟨t, ht⟩ := I.run i hs; simp [hq] at ht
  | suspended j =>
    refine .inr ⟨j, rfl, fun o ho => ?_⟩
    obtain ⟨t, ht⟩ := c58_no_lost_wakeup h hs ho
    simp [hq] at ht

/-- A thread is never blocked: unless it is idle or runs the body of a coroutine it can take a step. -/
theorem c58_progress {P : Prog} {s : St} (h : Reachable P s) {t : Nat} (hf : free (s.stack t) = false) :
    ∃ s', step P s (.step t) = .ok s' := by
  cases e : step P s (.step t) with
  | ok s' => exact ⟨s', rfl⟩
  | ub => exact absurd e (c58_no_undefined h _)
  | no =>
    simp only [step] at e
    split at e
    · next h0 => simp [h0, free] at hf
    · next h0 => simp [h0, free] at hf
    · split at e <;> cases e
    · split at e
      · split at e <;> cases e
      · cases e
    · split at e
      · cases e
      · split at e <;> cases e
    · cases e
    · cases e

/-- The thread that takes the action. -/
def Act.thread : Act → Option Nat
  | .call t _ | .resolve t _ _ | .await t _ _ | .ret t _ | .step t => some t
  | .drop _ => none

/-- The number of steps a thread may take before it runs the body of a coroutine or is idle. -/
def work : List Frame → Nat
  | [] | .body _ :: _ => 0
  | .detach _ _ :: fs => 2 + work fs
  | .resume _ _ :: _ => 1
  | .result _ _ :: fs => 4 + work fs
  | .drain _ [] :: fs => 1 + work fs
  | .drain _ (_ :: _) :: _ => 2

theorem stack_other {P : Prog} {s s' : St} {a : Act} {t : Nat} (h : step P s a = .ok s') (ha : a.thread ≠ some t) :
    s'.stack t = s.stack t := by
  cases a <;> simp only [step, Act.thread, ne_eq, Option.some.injEq] at h ha <;> (try split at h) <;> (try split at h) <;>
    (try split at h) <;> first | cases h | skip
  all_goals (try simp only [ready, upd_eq]) <;> grind

theorem work_step {P : Prog} {s s' : St} {t : Nat} (h : step P s (.step t) = .ok s') : work (s'.stack t) < work (s.stack t) := by
  simp only [step] at h
  split at h
  · cases h
  · cases h
  · next h0 => split at h <;> cases h <;> simp [upd_eq, h0, work] <;> omega
  · next h0 =>
    split at h
    · split at h <;> cases h; simp [upd_eq, h0, work]
    · cases h
  · next i o fs h0 =>
    split at h
    · cases h
    · split at h <;> cases h
      · cases e : s.thens i <;> simp [ready, upd_eq, h0, work, e] <;> omega
      · simp [upd_eq, h0, work]
  · next h0 => cases h; simp [upd_eq, h0, work]
  · next h0 => cases h; simp [upd_eq, h0, work]

/-- A thread comes back to the body of a coroutine, or becomes idle, after boundedly many steps of its own, whatever the other
threads do. -/
theorem c58_bounded {P : Prog} (s : St) (t : Nat) : ∃ n, ∀ as s', exec P s as = some s' →
    (∀ a ∈ as, a.thread = some t → a = .step t) → as.count (.step t) ≤ n := by
  refine ⟨work (s.stack t), fun as s' h ha => ?_⟩
  induction as generalizing s with
  | nil => simp
  | cons a as ih =>
    simp only [exec] at h
    split at h
    case h_2 => cases h
    case h_1 s1 h1 =>
    have := ih s1 h (fun b hb => ha b (List.mem_cons_of_mem _ hb))
    by_cases e : a.thread = some t
    · have := ha a (by simp) e
      subst this
      have := work_step h1
      simp only [List.count_cons_self]
      omega
    · have h2 := stack_other h1 e
      have h3 : a ≠ .step t := fun h => e (by rw [h]; rfl)
      rw [List.count_cons_of_ne h3, ← h2]
      exact this

/-! ## A case: coroutine 0 awaits future 1 and coroutine 2 awaits the result of coroutine 0; thread 1 resolves future 1 -/

def demo : Prog := { co := fun i => i ≠ 1, void := fun _ => false }

def demoActs : List Act :=
  [.call 0 0, .await 0 1 true, .step 0, .call 0 2, .await 0 0 true, .step 0, .resolve 1 1 (.val 7), .step 1, .step 1, .ret 1 (.val 8),
   .step 1, .step 1, .step 1, .ret 1 (.val 9), .step 1, .step 1, .step 1, .step 1]

def demoEnd : Option (List Event × Status × Status × List Frame × List Frame) :=
  (exec demo (init demo) demoActs).map fun s => (s.trace, s.status 0, s.status 2, s.stack 0, s.stack 1)

example : demoEnd = some
    ([.started 0, .awaits 0 1, .started 2, .awaits 2 0, .resolved 1 (.val 7), .resumed 0 1 (.val 7), .returned 0 (.val 8),
      .resolved 0 (.val 8), .resumed 2 0 (.val 8), .returned 2 (.val 9), .resolved 2 (.val 9)], .finished, .finished, [], []) := by
  decide +kernel

/-- A coroutine suspended on a future that is being resolved by another thread. -/
example : ((exec demo (init demo) (demoActs.take 8)).map fun s => (s.status 0, s.stack 1, free (s.stack 1))) =
    some (.suspended 1, [.resume 0 1, .drain 1 []], false) := by decide +kernel

/-- The only future object for 1 went into the `co_await`, and that for coroutine 0 into the `co_await` of coroutine 2. -/
example : ((exec demo (init demo) (demoActs.take 6)).map fun s => (s.status 0, s.user 1, s.stack 1, s.status 2, s.user 0)) =
    some (.suspended 1, false, [], .suspended 0, false) := by decide +kernel

/-- The race of `await_suspend` with the resolution: the future is resolved before the continuation is registered, so the
awaiting thread resumes the coroutine itself. -/
example : ((exec demo (init demo) [.call 0 0, .await 0 1 true, .resolve 1 1 (.exc (.user 3)), .step 1, .step 0, .step 0]).map
    fun s => (s.trace, s.stack 0)) =
    some ([.started 0, .awaits 0 1, .resolved 1 (.exc (.user 3)), .resumed 0 1 (.exc (.user 3))], [.body 0]) := by decide +kernel

/-- Nobody has the future of coroutine 0 any more when it returns, so it is not resolved; a coroutine returning `future<void>` resolves
its future even then. -/
example : ∀ void, ((exec { demo with void := fun _ => void } (init demo) [.call 0 0, .drop 0, .ret 0 (.val 8), .step 0]).map
    fun s => (s.trace, s.status 0)) =
    some ([.started 0, .returned 0 (.val 8)] ++ if void then [.resolved 0 (.val 8)] else [], .finished) := by decide +kernel

end Verif.Coroutine
