import Verif.Future.JoinGraph

/-!
# Sequential evaluation of graphs with `when_all` and `when_any`, and the invariant of the transition system

`eval` is the specification of C98; it mentions neither executors nor contexts. Where the order in which futures become
ready matters, a choice decides: `c n` is the index of the argument that decides the `when_all` or `when_any` of node `n`.
-/

namespace Verif.JoinGraph

open Verif.Shared (Err Outcome upd)
open Verif.When (Mode)

/-! ## Sequential evaluation -/

/-- The values, if there are only values. -/
def allVals : List (Option Outcome) → Option (List Nat)
  | [] => some []
  | some (.val v) :: os => (allVals os).map (v :: ·)
  | _ => none

def isFail : Option Outcome → Bool
  | some (.exc _) => true
  | _ => false

inductive Verdict where
  /-- the function is called -/
  | call (x : Input)
  /-- it is not called; the result is this error -/
  | fail (e : Err)
  deriving DecidableEq, Repr

/-- What becomes of `when_all` or `when_any` if the outcomes of the arguments are `os` and argument `i` decides: `when_all` calls the
function with all values or fails with the error of argument `i`; `when_any` calls it with the value of argument `i`, or fails
with the error of argument `i` if all arguments failed. -/
def verdict (all : Bool) (os : List (Option Outcome)) (i : Nat) : Option Verdict :=
  if all then
    match allVals os with
    | some xs => some (.call (.many xs none))
    | none => match os[i]? with
      | some (some (.exc e)) => some (.fail e)
      | _ => none
  else match os[i]? with
    | some (some (.val v)) => some (.call (.many [v] (some i)))
    | some (some (.exc e)) => if os.all isFail then some (.fail e) else none
    | _ => none

/-- What a function returns or throws; a returned future is evaluated by `ev`. -/
def ended (ev : Nat → Option Outcome) : Ret → Option Outcome
  | .val v => some (.val v)
  | .throw e => some (.exc (.user e))
  | .fut m => ev m

/-- What a node is called with, or the error it has without being called. -/
def fate (k : Kind) (ev : Nat → Option Outcome) (i : Nat) : Option Verdict :=
  match k with
  | .async => some (.call .unit)
  | .thn p => match ev p with
    | some (.val v) => some (.call (.one (.val v)))
    | some (.exc e) => some (.fail e)
    | none => none
  | .rcv p => match ev p with
    | some o => some (.call (.one o))
    | none => none
  | .join m args => verdict m.isAll (args.map ev) i

/-- The outcome of a node. -/
def final (P : Prog) (ev : Nat → Option Outcome) (n : Nat) : Option Verdict → Option Outcome
  | none => none
  | some (.fail e) => some (.exc e)
  | some (.call x) => ended ev (P.fn n x)

/-- Sequential evaluation with choices `c`, with a bound for the depth. -/
def eval (P : Prog) (c : Nat → Nat) : Nat → Nat → Option Outcome
  | 0, _ => none
  | f + 1, n => match P.kind n with
    | none => none
    | some k => final P (eval P c f) n (fate k (eval P c f) (c n))

/-! ### Evaluation is monotone -/

/-- `g` knows at least as much as `f`. -/
def Ext (f g : Nat → Option Outcome) : Prop := ∀ n o, f n = some o → g n = some o

theorem allVals_ext {f g : Nat → Option Outcome} (h : Ext f g) {l : List Nat} {xs : List Nat}
    (e : allVals (l.map f) = some xs) : allVals (l.map g) = some xs := by
  induction l generalizing xs with
  | nil => exact e
  | cons a l ih =>
    simp only [List.map_cons] at e ⊢
    cases hf : f a with
    | none => rw [hf] at e; simp [allVals] at e
    | some o =>
      rw [hf] at e
      rw [h a o hf]
      cases o with
      | exc _ => simp [allVals] at e
      | val v =>
        simp only [allVals, Option.map_eq_some_iff] at e ⊢
        obtain ⟨ys, h1, h2⟩ := e
        exact ⟨ys, ih h1, h2⟩

theorem allVals_exc {l : List (Option Outcome)} {i : Nat} {e : Err} (h : l[i]? = some (some (.exc e))) : allVals l = none := by
  induction l generalizing i with
  | nil => simp at h
  | cons a l ih =>
    cases i with
    | zero =>
      simp only [List.getElem?_cons_zero, Option.some.injEq] at h
      subst h; rfl
    | succ i =>
      simp only [List.getElem?_cons_succ] at h
      cases a with
      | none => rfl
      | some o =>
        cases o with
        | exc _ => rfl
        | val v => simp [allVals, ih h]

theorem verdict_ext {f g : Nat → Option Outcome} (h : Ext f g) {b : Bool} {l : List Nat} {i : Nat} {v : Verdict}
    (e : verdict b (l.map f) i = some v) : verdict b (l.map g) i = some v := by
  have at_ : ∀ o, (l.map f)[i]? = some (some o) → (l.map g)[i]? = some (some o) := by
    intro o ho
    simp only [List.getElem?_map, Option.map_eq_some_iff] at ho ⊢
    obtain ⟨p, h1, h2⟩ := ho
    exact ⟨p, h1, h p o h2⟩
  cases b with
  | true =>
    simp only [verdict, if_true] at e ⊢
    cases hv : allVals (l.map f) with
    | some xs => rw [hv] at e; rw [allVals_ext h hv]; exact e
    | none =>
      rw [hv] at e
      simp only at e
      split at e
      · rename_i er he
        rw [allVals_exc (at_ _ he)]
        simp only [at_ _ he]
        exact e
      · cases e
  | false =>
    simp only [verdict, Bool.false_eq_true, if_false] at e ⊢
    split at e
    · rename_i x he; simp only [at_ _ he]; exact e
    · rename_i er he
      simp only [at_ _ he]
      split at e
      · rename_i ha
        rw [if_pos]
        · exact e
        · simp only [List.all_map, List.all_eq_true, Function.comp] at ha ⊢
          intro p hp
          have := ha p hp
          cases hf : f p with
          | none => rw [hf] at this; cases this
          | some o => rw [h p o hf, ← hf]; exact this
      · cases e
    · cases e

theorem fate_ext {f g : Nat → Option Outcome} (h : Ext f g) {k : Kind} {i : Nat} {v : Verdict}
    (e : fate k f i = some v) : fate k g i = some v := by
  cases k with
  | async => exact e
  | thn p =>
    simp only [fate] at e ⊢
    cases hp : f p with
    | none => rw [hp] at e; cases e
    | some o => rw [hp] at e; rw [h p o hp]; exact e
  | rcv p =>
    simp only [fate] at e ⊢
    cases hp : f p with
    | none => rw [hp] at e; cases e
    | some o => rw [hp] at e; rw [h p o hp]; exact e
  | join m args => exact verdict_ext h e

theorem final_ext {P : Prog} {f g : Nat → Option Outcome} (h : Ext f g) {n : Nat} {v : Option Verdict} {o : Outcome}
    (e : final P f n v = some o) : final P g n v = some o := by
  match v, e with
  | some (.fail _), e => exact e
  | some (.call x), e =>
    simp only [final] at e ⊢
    cases hr : P.fn n x with
    | fut m => rw [hr] at e; exact h m o e
    | val _ => rw [hr] at e; exact e
    | throw _ => rw [hr] at e; exact e

theorem eval_mono {P : Prog} {c : Nat → Nat} (f : Nat) : Ext (eval P c f) (eval P c (f + 1)) := by
  induction f with
  | zero => intro n o h; simp [eval] at h
  | succ f ih =>
    intro n o h
    rw [eval] at h ⊢
    cases hK : P.kind n with
    | none => simp [hK] at h
    | some k =>
      rw [hK] at h
      simp only at h ⊢
      cases hf : fate k (eval P c f) (c n) with
      | none => rw [hf] at h; cases h
      | some v => rw [hf] at h; rw [fate_ext ih hf]; exact final_ext ih h

theorem eval_le {P : Prog} {c : Nat → Nat} {f g n : Nat} {o : Outcome} (hfg : f ≤ g) (h : eval P c f n = some o) :
    eval P c g n = some o := by
  induction hfg with
  | refl => exact h
  | step _ ih => exact eval_mono _ _ _ ih

theorem eval_unique {P : Prog} {c : Nat → Nat} {f g n : Nat} {o o' : Outcome} (h : eval P c f n = some o)
    (h' : eval P c g n = some o') : o = o' := by
  have h1 := eval_le (Nat.le_max_left f g) h
  have h2 := eval_le (Nat.le_max_right f g) h'
  rw [h1] at h2
  exact Option.some.inj h2

/-! ## Histories -/

/-- The outcome of node `n` in a history. -/
def outs (t : List Event) (n : Nat) : Option Outcome :=
  t.findSome? fun
    | .resolved k o => if k = n then some o else none
    | _ => none

/-- Event `e` may follow history `t`. -/
def Ok (P : Prog) (t : List Event) : Event → Prop
  | .called n x => (∀ y, .called n y ∉ t) ∧ (∀ o, .resolved n o ∉ t) ∧
      ∃ k i, P.kind n = some k ∧ fate k (outs t) i = some (.call x)
  | .resolved n o => (∀ q, .resolved n q ∉ t) ∧
      ((∃ x, .called n x ∈ t ∧ ended (outs t) (P.fn n x) = some o) ∨
       (∀ y, .called n y ∉ t) ∧ ∃ k i e, P.kind n = some k ∧ fate k (outs t) i = some (.fail e) ∧ o = .exc e)
  | .abandoned _ => True

def Legal (P : Prog) (t : List Event) : Prop := ∀ a e b, t = a ++ e :: b → Ok P a e

theorem Legal.nil {P : Prog} : Legal P [] := by intro a e b h; simp at h

theorem Legal.snoc {P : Prog} {t : List Event} (L : Legal P t) {e : Event} (h : Ok P t e) : Legal P (t ++ [e]) := by
  intro a x b hab
  rcases List.eq_nil_or_concat b with rfl | ⟨b', y, rfl⟩
  · obtain ⟨rfl, h2⟩ := List.append_inj' hab rfl
    cases h2; exact h
  · refine L a x b' ?_
    have : t ++ [e] = (a ++ x :: b') ++ [y] := by simpa using hab
    exact (List.append_inj' this rfl).1

theorem outs_mem {t : List Event} {n : Nat} {o : Outcome} (h : outs t n = some o) : .resolved n o ∈ t := by
  obtain ⟨e, h1, h2⟩ := List.exists_of_findSome?_eq_some h
  cases e with
  | resolved k q => simp only [Option.ite_none_right_eq_some, Option.some.injEq] at h2; rw [← h2.1, ← h2.2]; exact h1
  | _ => cases h2

theorem outs_ext (a b : List Event) : Ext (outs a) (outs (a ++ b)) := by
  intro n o h
  simp only [outs] at h ⊢
  rw [List.findSome?_append, h]; rfl

theorem outs_some {t : List Event} {n : Nat} {o : Outcome} (h : .resolved n o ∈ t) : ∃ q, outs t n = some q := by
  cases hq : outs t n with
  | some q => exact ⟨q, rfl⟩
  | none =>
    rw [outs, List.findSome?_eq_none_iff] at hq
    have := hq _ h
    simp at this

/-! ## Invariant -/

structure Inv (P : Prog) (s : St) : Prop where
  legal : Legal P s.trace
  out : ∀ n, s.out n = outs s.trace n
  rdy : ∀ n, s.pc n = .ready ↔ s.out n ≠ none
  run : ∀ n x, s.pc n = .running x → .called n x ∈ s.trace
  wait : ∀ n m, s.pc n = .waiting m → (∃ x, .called n x ∈ s.trace ∧ P.fn n x = .fut m) ∧ s.pc m ≠ .none
  fresh : ∀ n, s.pc n = .none ∨ s.pc n = .queued → ∀ x, .called n x ∉ s.trace
  par : ∀ n, s.pc n ≠ .none → ∃ k, P.kind n = some k ∧ (∀ p ∈ k.parents, s.pc p ≠ .none) ∧ k.bare = false
  dead : ∀ n, s.pc n = .dead → .abandoned n ∈ s.trace

/-- Each join is a run of `when_all` or `when_any` whose arguments are the nodes of the graph. -/
structure Join (m : Mode) (args : List Nat) (pc : Pc) (out : Nat → Option Outcome) (w : When.St) : Prop where
  reach : When.Reachable m args.length w
  arg : ∀ i o, .argRes i o ∈ w.trace → ∃ p, args[i]? = some p ∧ out p = some o
  keep : pc = .queued ↔ w.kept = true ∧ w.fired = false
  disc : ∀ i, .discarded i ∉ w.trace

def Joins (P : Prog) (s : St) : Prop :=
  ∀ n m args, P.kind n = some (.join m args) → s.pc n ≠ .none → Join m args (s.pc n) s.out (s.w n)

theorem Inv.resolve {P : Prog} {s : St} (I : Inv P s) {n : Nat} {o : Outcome} (h0 : s.pc n ≠ .none) (h1 : s.pc n ≠ .ready)
    (hok : Ok P s.trace (.resolved n o)) : Inv P (resolve s n o) := by
  have hn : s.out n = none := Classical.byContradiction fun h => h1 ((I.rdy n).2 h)
  have hs : ∀ k, outs (s.trace ++ [.resolved n o]) k = upd s.out n (some o) k := by
    intro k
    rw [outs, List.findSome?_append]
    have := I.out k
    rw [outs] at this
    rw [← this]
    by_cases hk : k = n
    · subst hk; rw [hn]; simp [upd]
    · have hk' : n ≠ k := fun h => hk h.symm
      simp [upd, hk, hk']
  constructor
  · exact I.legal.snoc hok
  · intro k; exact (hs k).symm
  · intro k
    have := I.rdy k
    simp only [JoinGraph.resolve, upd]
    split <;> simp [*]
  · intro k x
    have := I.run k x
    simp only [JoinGraph.resolve, upd]
    grind
  · intro k m
    have := I.wait k m
    simp only [JoinGraph.resolve, upd]
    grind
  · intro k h x
    have := I.fresh k
    simp only [JoinGraph.resolve, upd] at *
    grind
  · intro k h
    have := I.par k
    simp only [JoinGraph.resolve, upd] at *
    grind
  · intro k
    have := I.dead k
    simp only [JoinGraph.resolve, upd]
    grind

theorem outs_called {t : List Event} {n : Nat} {x : Input} : outs (t ++ [.called n x]) = outs t := by
  funext k; simp [outs, List.findSome?_append]

theorem outs_abandoned {t : List Event} {n : Nat} : outs (t ++ [.abandoned n]) = outs t := by
  funext k; simp [outs, List.findSome?_append]

theorem Inv.call {P : Prog} {s : St} (I : Inv P s) {n : Nat} {x : Input} (h0 : s.pc n = .queued)
    (hok : ∃ k i, P.kind n = some k ∧ fate k (outs s.trace) i = some (.call x)) : Inv P (call s n x) := by
  have hn : s.out n = none := Classical.byContradiction fun h => by
    have := (I.rdy n).2 h; rw [h0] at this; cases this
  constructor
  · refine I.legal.snoc ⟨I.fresh n (.inr h0), fun o h => ?_, hok⟩
    obtain ⟨q, hq⟩ := outs_some h
    rw [← I.out, hn] at hq; cases hq
  · intro k; rw [JoinGraph.call, outs_called]; exact I.out k
  · intro k
    have := I.rdy k
    simp only [JoinGraph.call, upd]
    grind
  · intro k x
    have := I.run k x
    simp only [JoinGraph.call, upd]
    grind
  · intro k m
    have := I.wait k m
    simp only [JoinGraph.call, upd]
    grind
  · intro k h x
    have := I.fresh k
    simp only [JoinGraph.call, upd] at *
    grind
  · intro k h
    have := I.par k
    simp only [JoinGraph.call, upd] at *
    grind
  · intro k
    have := I.dead k
    simp only [JoinGraph.call, upd]
    grind

theorem Inv.abandon {P : Prog} {s : St} (I : Inv P s) {n : Nat} (h0 : s.pc n ≠ .none) (h1 : s.pc n ≠ .ready) :
    Inv P { s with pc := upd s.pc n .dead, trace := s.trace ++ [.abandoned n] } := by
  constructor
  · exact I.legal.snoc trivial
  · intro k; rw [outs_abandoned]; exact I.out k
  · intro k
    have := I.rdy k
    simp only [upd]
    grind
  · intro k x
    have := I.run k x
    simp only [upd]
    grind
  · intro k m
    have := I.wait k m
    simp only [upd]
    grind
  · intro k h x
    have := I.fresh k
    simp only [upd] at *
    grind
  · intro k h
    have := I.par k
    simp only [upd] at *
    grind
  · intro k
    have := I.dead k
    simp only [upd]
    grind

/-- The contexts of the joins do not matter here. -/
theorem Inv.setW {P : Prog} {s : St} (I : Inv P s) (w : Nat → When.St) : Inv P { s with w := w } :=
  ⟨I.legal, I.out, I.rdy, I.run, I.wait, I.fresh, I.par, I.dead⟩

theorem Reachable.snoc {m : Mode} {k : Nat} {w w' : When.St} (r : When.Reachable m k w) {a : When.Act}
    (e : When.step m k w a = .ok w') : When.Reachable m k w' := by
  obtain ⟨as, h⟩ := r
  refine ⟨as ++ [a], ?_⟩
  generalize When.init k = s0 at *
  induction as generalizing s0 with
  | nil => simp only [When.exec, Option.some.injEq] at h; subst h; simp [When.exec, e]
  | cons b as ih =>
    simp only [When.exec, List.cons_append] at h ⊢
    cases hb : When.step m k s0 b with
    | no => rw [hb] at h; cases h
    | ub => rw [hb] at h; cases h
    | ok s1 => rw [hb] at h; exact ih _ h

theorem allVals_of {l : List (Option Outcome)} {xs : List Nat} (hl : xs.length = l.length)
    (h : ∀ (i v : Nat), xs[i]? = some v → l[i]? = some (some (.val v))) : allVals l = some xs := by
  induction l generalizing xs with
  | nil => simp only [List.length_nil, List.length_eq_zero_iff] at hl; subst hl; rfl
  | cons a l ih =>
    cases xs with
    | nil => simp at hl
    | cons x xs =>
      have h0 := h 0 x rfl
      simp only [List.getElem?_cons_zero, Option.some.injEq] at h0
      subst h0
      simp only [List.length_cons, Nat.add_right_cancel_iff] at hl
      have := ih hl (fun i v hv => h (i + 1) v (by simpa using hv))
      simp [allVals, this]

/-- What `_f` does when it is called is what the specification says, for some argument. -/
theorem Join.fire {m : Mode} {args : List Nat} {pc : Pc} {out : Nat → Option Outcome} {w w' : When.St} (J : Join m args pc out w)
    (hk : w.kept = true) {i : Nat} (h0 : 0 < args.length) (e : When.step m args.length w (.fire i) = .ok w') :
    (∀ xs idx, When.call m args.length w.ctx = .call xs idx →
      ∃ j, verdict m.isAll (args.map out) j = some (.call (.many xs idx))) ∧
    (∀ er, When.call m args.length w.ctx = .throw er → ∃ j, verdict m.isAll (args.map out) j = some (.fail er)) ∧
    w.fired = false ∧ w'.fired = true ∧ w'.kept = true := by
  have r' := Reachable.snoc J.reach e
  simp only [When.step, hk, Bool.true_eq_false, if_false] at e
  split at e
  · cases e
  split at e
  · cases e
  rename_i hf hf'
  have hfd : w.fired = false := by simpa using hf'
  have arg_ : ∀ j o, .argRes j o ∈ w.trace → (args.map out)[j]? = some (some o) := by
    intro j o h
    obtain ⟨p, h1, h2⟩ := J.arg j o h
    simp [h1, h2]
  split at e
  · cases e
  · rename_i xs idx hc
    cases e
    refine ⟨fun ys jdx h => ?_, fun er h => ?_, hfd, rfl, rfl⟩
    · rw [hc] at h
      cases h
      cases hm : m.isAll with
      | true =>
        obtain ⟨h1, h2⟩ := When.c36_results hm h0 r' (xs := xs) (idx := idx) (by simp)
        refine ⟨0, ?_⟩
        have := allVals_of (l := args.map out) (xs := xs) (by simpa using h1) (fun j v hv => arg_ j _ (by
          have := h2 j v hv
          simpa using this))
        have hi : idx = none := by
          cases m <;> simp only [When.Mode.isAll, Bool.false_eq_true] at hm <;> simp only [When.call] at hc
          · split at hc
            · cases hc; rfl
            · split at hc <;> cases hc
          · split at hc
            · cases hc
            · cases hc; rfl
        subst hi
        simp [verdict, this]
      | false =>
        obtain ⟨a1, j, v, a2, h1, h2, h3, h4, -⟩ := When.c37_first_success hm h0 r' (xs := xs) (idx := idx) (a := w.trace) (b := []) rfl
        subst h3 h4
        refine ⟨j, ?_⟩
        have := arg_ j _ (by simpa using h2)
        simp [verdict, this]
    · rw [hc] at h; cases h
  · rename_i er hc
    cases e
    refine ⟨fun ys jdx h => ?_, fun er' h => ?_, hfd, rfl, rfl⟩
    · rw [hc] at h; cases h
    · rw [hc] at h
      cases h
      cases hm : m.isAll with
      | true =>
        obtain ⟨a1, j, a2, h1, h2, -⟩ := When.c36_first_error hm h0 r' (e := er) (a := w.trace) (b := []) rfl
        have := arg_ j _ (by simpa using h2)
        refine ⟨j, ?_⟩
        rw [verdict, if_pos rfl, allVals_exc this, this]
      | false =>
        obtain ⟨⟨a1, j, a2, h1, h2, -⟩, h3⟩ := When.c37_last_error hm h0 r' (e := er) (a := w.trace) (b := []) rfl
        have := arg_ j _ (by simpa using h2)
        refine ⟨j, ?_⟩
        rw [verdict, if_neg (by simp), this]
        simp only
        rw [if_pos]
        rw [List.all_eq_true]
        intro x hx
        obtain ⟨p, hp⟩ := List.mem_iff_getElem?.1 hx
        have hlt : p < args.length := by
          have := (List.getElem?_eq_some_iff.1 hp).1
          simpa using this
        obtain ⟨e', he'⟩ := h3 p hlt
        rw [arg_ p _ (by simpa using he')] at hp
        cases hp
        rfl

/-- What the steps of a join do to its history. -/
theorem when_trace {m : Mode} {k : Nat} {w w' : When.St} {a : When.Act} (e : When.step m k w a = .ok w') :
    (∀ i o, .argRes i o ∈ w'.trace → .argRes i o ∈ w.trace ∨ a = .resolve i o) ∧
    (∀ i, .discarded i ∈ w'.trace → .discarded i ∈ w.trace ∨ a = .discard i) := by
  cases a <;> simp only [When.step] at e <;> (repeat' split at e) <;> cases e <;> simp +contextual
  all_goals grind

theorem when_frame {m : Mode} {k : Nat} {w w' : When.St} {a : When.Act} (e : When.step m k w a = .ok w')
    (h1 : ∀ i, a ≠ .fire i) (h2 : a ≠ .drop) : w'.kept = w.kept ∧ w'.fired = w.fired := by
  cases a <;> simp only [When.step] at e <;> (repeat' split at e) <;> cases e <;> simp_all

theorem when_unkept {m : Mode} {k : Nat} {w w' : When.St} {i : Nat} (e : When.step m k w (.fire i) = .ok w')
    (h : w.kept = false) : w'.kept = false ∧ w'.fired = w.fired := by
  simp only [When.step] at e
  (repeat' split at e) <;> cases e <;> simp_all

theorem when_drop {m : Mode} {k : Nat} {w w' : When.St} (e : When.step m k w .drop = .ok w') : w'.kept = false := by
  simp only [When.step] at e
  split at e <;> cases e; rfl

/-- A join that makes a step. -/
theorem Join.next {m : Mode} {args : List Nat} {pc pc' : Pc} {s : St} {w w' : When.St} (J : Join m args pc s.out w)
    {out : Nat → Option Outcome} (hx : Ext s.out out) {a : When.Act} (ha : argOk s args a = true)
    (e : When.step m args.length w a = .ok w') (hk : pc' = .queued ↔ w'.kept = true ∧ w'.fired = false) :
    Join m args pc' out w' := by
  have ⟨t1, t2⟩ := when_trace e
  refine ⟨Reachable.snoc J.reach e, fun i o h => ?_, hk, fun i h => ?_⟩
  · rcases t1 i o h with h | rfl
    · obtain ⟨p, h1, h2⟩ := J.arg i o h
      exact ⟨p, h1, hx p o h2⟩
    · simp only [argOk, beq_iff_eq] at ha
      obtain ⟨p, h1, h2⟩ := Option.bind_eq_some_iff.1 ha
      exact ⟨p, h1, hx p o h2⟩
  · rcases t2 i h with h | rfl
    · exact J.disc i h
    · cases ha

/-- The other joins. -/
theorem Join.ext {m : Mode} {args : List Nat} {pc : Pc} {out out' : Nat → Option Outcome} {w : When.St} (J : Join m args pc out w)
    (hx : Ext out out') : Join m args pc out' w :=
  ⟨J.reach, fun i o h => by obtain ⟨p, h1, h2⟩ := J.arg i o h; exact ⟨p, h1, hx p o h2⟩, J.keep, J.disc⟩

theorem Inv.ext {P : Prog} {s : St} (I : Inv P s) {n : Nat} {o : Outcome} (h : s.pc n ≠ .ready) :
    Ext s.out (upd s.out n (some o)) := by
  intro k q hq
  simp only [upd]
  split
  · subst k
    exact absurd ((I.rdy n).2 (by rw [hq]; simp)) h
  · exact hq

/-- A step on a node that is not a join. -/
theorem Joins.other {P : Prog} {s s' : St} (J : Joins P s) {n : Nat} (hw : s'.w = s.w) (hp : ∀ k, k ≠ n → s'.pc k = s.pc k)
    (h0 : s.pc n ≠ .none) (hn : ∀ m args, P.kind n = some (.join m args) → (s'.pc n = .queued ↔ s.pc n = .queued))
    (hx : Ext s.out s'.out) : Joins P s' := by
  intro k m args hk hk0
  by_cases h : k = n
  · subst h
    have Jk := (J k m args hk h0).ext hx
    rw [hw]
    exact ⟨Jk.reach, Jk.arg, (hn m args hk).trans Jk.keep, Jk.disc⟩
  · rw [hp k h] at hk0 ⊢
    rw [hw]
    exact (J k m args hk hk0).ext hx

theorem step_inv {P : Prog} {s s' : St} (I : Inv P s) (J : Joins P s) {a : Act} (e : step P s a = .ok s') :
    Inv P s' ∧ Joins P s' := by
  have so : outs s.trace = s.out := by funext k; exact (I.out k).symm
  have notres : ∀ n, s.pc n ≠ .ready → ∀ q, .resolved n q ∉ s.trace := by
    intro n hn q hq
    obtain ⟨o, ho⟩ := outs_some hq
    rw [so] at ho
    exact hn ((I.rdy n).2 (by rw [ho]; simp))
  have refl_ : Ext s.out s.out := fun _ _ h => h
  cases a with
  | create n =>
    simp only [step] at e
    split at e
    · cases e
    rename_i k hk
    split at e
    · rename_i h
      cases e
      obtain ⟨h1, h2, h3⟩ := h
      constructor
      · constructor
        · exact I.legal
        · exact I.out
        · intro j; have := I.rdy j; simp only [upd]; grind
        · intro j x; have := I.run j x; simp only [upd]; grind
        · intro j m; have := I.wait j m; simp only [upd]; grind
        · intro j h x; have := I.fresh j; simp only [upd] at *; grind
        · intro j h
          have := I.par j
          simp only [upd] at *
          by_cases hj : j = n
          · subst hj
            refine ⟨k, hk, fun p hp => ?_, h3⟩
            have := h2 p hp
            split <;> simp [*]
          · rw [if_neg hj] at h
            obtain ⟨k', a1, a2, a3⟩ := this h
            refine ⟨k', a1, fun p hp => ?_, a3⟩
            have := a2 p hp
            split <;> simp [*]
        · intro j; have := I.dead j; simp only [upd]; grind
      · intro j m args hj hj0
        by_cases hjn : j = n
        · subst hjn
          rw [hk] at hj
          cases hj
          simp only [upd, if_true, Kind.parents]
          refine ⟨⟨[], rfl⟩, ?_, ?_, ?_⟩ <;> simp [When.init]
        · simp only [upd, if_neg hjn] at hj0 ⊢
          exact J j m args hj hj0
    · cases e
  | start n =>
    simp only [step] at e
    split at e
    · rename_i hq
      have h0 : s.pc n ≠ .none := by rw [hq]; simp
      have h1 : s.pc n ≠ .ready := by rw [hq]; simp
      cases hk : P.kind n with
      | none => rw [hk] at e; cases e
      | some k =>
        rw [hk] at e
        have nj : ∀ x, Joins P (call s n x) ∨ ∃ m args, k = .join m args := by
          intro x
          by_cases hj : ∃ m args, k = .join m args
          · exact .inr hj
          · refine .inl (J.other (n := n) rfl (fun j hj => by simp [call, upd, hj]) h0 ?_ refl_)
            intro m args h; rw [hk] at h; cases h; exact absurd ⟨m, args, rfl⟩ hj
        cases k with
        | async =>
          cases e
          exact ⟨I.call hq ⟨.async, 0, hk, rfl⟩, (nj _).resolve_right (by simp)⟩
        | thn p =>
          simp only [start] at e
          split at e
          · cases e
          · rename_i v hv
            cases e
            exact ⟨I.call hq ⟨.thn p, 0, hk, by simp [fate, so, hv]⟩, (nj _).resolve_right (by simp)⟩
          · rename_i er hv
            cases e
            refine ⟨I.resolve h0 h1 ⟨notres n h1, .inr ⟨I.fresh n (.inr hq), .thn p, 0, er, hk, by simp [fate, so, hv], rfl⟩⟩, ?_⟩
            refine J.other (n := n) rfl (fun j hj => by simp [resolve, upd, hj]) h0 ?_ (I.ext h1)
            intro m args h; rw [hk] at h; cases h
        | rcv p =>
          simp only [start] at e
          split at e
          · cases e
          · rename_i o hv
            cases e
            exact ⟨I.call hq ⟨.rcv p, 0, hk, by simp [fate, so, hv]⟩, (nj _).resolve_right (by simp)⟩
        | join m args => cases e
    · cases e
  | arg n a =>
    simp only [step] at e
    split at e
    · rename_i m args hk
      split at e
      · cases e
      rename_i hc
      have h0 : s.pc n ≠ .none := fun h => hc (.inl h)
      have ha : argOk s args a = true := by
        cases h : argOk s args a with
        | true => rfl
        | false => exact absurd (.inr h) hc
      have Jn := J n m args hk h0
      have hpos : 0 < args.length := by
        obtain ⟨k, h1, -, h3⟩ := I.par n h0
        rw [hk] at h1; cases h1
        cases args with
        | nil => cases h3
        | cons => simp
      split at e
      · cases e
      · cases e
      rename_i w' hw
      have I' : Inv P { s with w := upd s.w n w' } := I.setW _
      -- steps that only change the context
      have frame : ((s.w n).kept = true → w'.kept = true ∧ w'.fired = (s.w n).fired) →
          ((s.w n).kept = false → w'.kept = false) → Joins P { s with w := upd s.w n w' } := by
        intro hf hf' j m' args' hj hj0
        by_cases hjn : j = n
        · subst hjn
          rw [hk] at hj; cases hj
          simp only [upd, if_true]
          refine Jn.next refl_ ha hw (Jn.keep.trans ?_)
          cases hkk : (s.w j).kept with
          | true => rw [(hf hkk).1, (hf hkk).2]
          | false => rw [hf' hkk]; simp
        · simp only [upd, if_neg hjn]
          exact J j m' args' hj hj0
      cases a with
      | drop =>
        simp only [after] at e
        split at e
        · rename_i hq
          cases e
          refine ⟨I'.abandon (n := n) (by simp [hq]) (by simp [hq]), ?_⟩
          intro j m' args' hj hj0
          by_cases hjn : j = n
          · subst hjn
            rw [hk] at hj; cases hj
            simp only [upd, if_true]
            exact Jn.next refl_ ha hw (by simp [when_drop hw])
          · simp only [upd, if_neg hjn] at hj0 ⊢
            exact J j m' args' hj hj0
        · cases e
      | fire i =>
        simp only [after] at e
        split at e
        · rename_i hkept
          obtain ⟨f1, f2, f3, f4, f5⟩ := Jn.fire hkept hpos hw
          have hq : s.pc n = .queued := Jn.keep.2 ⟨hkept, f3⟩
          have h1 : s.pc n ≠ .ready := by rw [hq]; simp
          split at e
          · cases e
          · rename_i xs idx hcall
            cases e
            obtain ⟨j, hj⟩ := f1 xs idx hcall
            refine ⟨I'.call hq ⟨.join m args, j, hk, by simp only [fate, so]; exact hj⟩, ?_⟩
            intro j m' args' hj hj0
            by_cases hjn : j = n
            · subst hjn
              rw [hk] at hj; cases hj
              simp only [call, upd, if_true]
              exact Jn.next refl_ ha hw (by simp [f4])
            · simp only [call, upd, if_neg hjn] at hj0 ⊢
              exact J j m' args' hj hj0
          · rename_i er hcall
            cases e
            obtain ⟨j, hj⟩ := f2 er hcall
            refine ⟨I'.resolve h0 h1 ⟨notres n h1, .inr ⟨I.fresh n (.inr hq), .join m args, j, er, hk,
              by simp only [fate, so]; exact hj, rfl⟩⟩, ?_⟩
            intro j m' args' hj hj0
            by_cases hjn : j = n
            · subst hjn
              rw [hk] at hj; cases hj
              simp only [resolve, upd, if_true]
              exact Jn.next (I.ext h1) ha hw (by simp [f4])
            · simp only [resolve, upd, if_neg hjn] at hj0 ⊢
              exact (J j m' args' hj hj0).ext (I.ext h1)
        · rename_i hkept
          cases e
          have hkept : (s.w n).kept = false := by simpa using hkept
          have := when_unkept hw hkept
          exact ⟨I', frame (fun h => by rw [hkept] at h; cases h) (fun _ => this.1)⟩
      | _ =>
        cases e
        have := when_frame hw (by simp) (by simp)
        exact ⟨I', frame (fun h => ⟨by rw [this.1, h], this.2⟩) (fun h => by rw [this.1, h])⟩
    · cases e
  | ret n =>
    simp only [step] at e
    split at e
    · rename_i x hx
      have h0 : s.pc n ≠ .none := by rw [hx]; simp
      have h1 : s.pc n ≠ .ready := by rw [hx]; simp
      have hcl := I.run n x hx
      have fin : ∀ o, ended (outs s.trace) (P.fn n x) = some o → Inv P (resolve s n o) ∧ Joins P (resolve s n o) := by
        intro o ho
        refine ⟨I.resolve h0 h1 ⟨notres n h1, .inl ⟨x, hcl, ho⟩⟩, ?_⟩
        refine J.other (n := n) rfl (fun j hj => by simp [resolve, upd, hj]) h0 ?_ (I.ext h1)
        intro m args h; simp [resolve, upd, hx]
      cases hr : P.fn n x with
      | val v => rw [hr] at e; cases e; exact fin _ (by rw [hr]; rfl)
      | throw v => rw [hr] at e; cases e; exact fin _ (by rw [hr]; rfl)
      | fut m =>
        rw [hr] at e
        simp only [ret] at e
        split at e
        · cases e
        rename_i hm
        cases e
        constructor
        · constructor
          · exact I.legal
          · exact I.out
          · intro j; have := I.rdy j; simp only [upd]; grind
          · intro j x; have := I.run j x; simp only [upd]; grind
          · intro j m'
            have := I.wait j m'
            simp only [upd]
            grind
          · intro j h x; have := I.fresh j; simp only [upd] at *; grind
          · intro j h; have := I.par j; simp only [upd] at *; grind
          · intro j; have := I.dead j; simp only [upd]; grind
        · refine J.other (n := n) rfl (fun j hj => by simp [upd, hj]) h0 ?_ refl_
          intro m args h; simp [upd, hx]
    · cases e
  | flatten n =>
    simp only [step] at e
    split at e
    · rename_i m hx
      split at e
      · cases e
      rename_i o ho
      cases e
      have h0 : s.pc n ≠ .none := by rw [hx]; simp
      have h1 : s.pc n ≠ .ready := by rw [hx]; simp
      obtain ⟨⟨x, w1, w2⟩, -⟩ := I.wait n m hx
      refine ⟨I.resolve h0 h1 ⟨notres n h1, .inl ⟨x, w1, by rw [w2, ended, so]; exact ho⟩⟩, ?_⟩
      refine J.other (n := n) rfl (fun j hj => by simp [resolve, upd, hj]) h0 ?_ (I.ext h1)
      intro m args h; simp [resolve, upd, hx]
    · cases e
  | abandon n =>
    simp only [step] at e
    split at e
    · cases e
    · rename_i hx hnj
      cases e
      refine ⟨I.abandon (by simp [hx]) (by simp [hx]), J.other (n := n) rfl (fun j hj => by simp [upd, hj]) (by simp [hx]) ?_ refl_⟩
      intro m args h
      exact absurd h (hnj m args)
    · rename_i hx
      cases e
      refine ⟨I.abandon (by simp [hx]) (by simp [hx]), J.other (n := n) rfl (fun j hj => by simp [upd, hj]) (by simp [hx]) ?_ refl_⟩
      intro m args h
      simp [upd, hx]
    · cases e

theorem Inv.init (P : Prog) : Inv P {} := by
  constructor <;> simp [Legal.nil, outs]

theorem Reachable.inv {P : Prog} {s : St} : Reachable P s → Inv P s ∧ Joins P s := by
  rintro ⟨as, e⟩
  have I : Inv P {} ∧ Joins P {} := ⟨Inv.init P, fun n m args _ h => absurd rfl h⟩
  generalize ({} : St) = s0 at *
  induction as generalizing s0 with
  | nil => simp only [exec, Option.some.injEq] at e; exact e ▸ I
  | cons a as ih =>
    simp only [exec] at e
    split at e
    · exact ih _ e (step_inv I.1 I.2 ‹_›)
    · cases e

end Verif.JoinGraph
