import Verif.Future.WhenThrow

/-!
# C103: a result that cannot be stored in `when_all` or `when_any`
-/

namespace Verif.When.Throw

open Verif.Shared (Err Outcome upd)

attribute [local grind =] upd isRunning resets
attribute [local grind] Inv

theorem inv_lost {m : Mode} (hm : m ≠ .anyRange) {n : Nat} {s : St} (I : Inv m n s) {i v : Nat} (hp : s.pc i = .running (.val v)) :
    Inv m n (lost m s i) := by
  have e : lost m s i = { s with pc := upd s.pc i .lost, running := s.running.erase i, trace := s.trace ++ [.discarded i] } := by
    cases m <;> first | rfl | exact absurd rfl hm
  rw [e]
  have D := I.data.other (e := .discarded i) (by simp)
  have L : Legal m n (s.trace ++ [.discarded i]) := .snoc I.legal trivial
  have nd := I.nd.erase i
  have me : ∀ j, j ∈ s.running.erase i ↔ j ≠ i ∧ j ∈ s.running := fun j => I.nd.mem_erase_iff
  constructor
  case trg =>
    intro h
    rcases I.trg h with h | ⟨j, hj⟩ | h
    · exact .inl h
    · exact .inr (.inl ⟨j, by grind⟩)
    · exact .inr (.inr h)
  all_goals grind

/-- What holds of `when_any` on a range after the result of argument `i` was lost. -/
structure Stuck (n : Nat) (s : St) (i : Nat) : Prop where
  lt : i < n
  pci : s.pc i = .lost
  single : s.ctx.single = true
  noFire : ∀ j, s.pc j ≠ .fire
  cnt : s.ctx.remaining + cnt (bad s.trace) n = n
  seen : ∀ j o, .seen j o ∈ s.trace → s.pc j = .done
  att : ∀ j, s.pc j ≠ .none → j < s.att
  attn : s.att ≤ n
  res : ∀ x ∈ s.trace, isRes x = false
  sch : ∀ j, s.pc j = .sched → s.arg j ≠ none

theorem stuck_of_lost {n : Nat} {s : St} (I : Inv .anyRange n s) {i v : Nat} (hp : s.pc i = .running (.val v))
    (hs : s.ctx.single = false) : Stuck n (lost .anyRange s i) i := by
  have D := I.data
  have hl : i < n := Nat.lt_of_lt_of_le ((I.attb i).1 (by simp [hp])) I.attn
  have hn : ∀ o, .seen i o ∉ s.trace := by
    intro o h
    rcases (I.seen i o h).2.2 with h | h <;> rw [hp] at h <;> cases h
  have nt : ¬ trig .anyRange s.ctx := by
    rintro (h | h)
    · have := D.2
      rw [hs] at this
      cases hi : s.ctx.index with
      | none => exact h hi
      | some j => rw [hi] at this; cases this
    · obtain ⟨e, he⟩ := D.1.full h i hl
      exact hn _ he
  have nf : ∀ j, s.pc j ≠ .fire := fun j h => nt (I.fire2 j h).1
  have ne : ∀ x ∈ s.trace, isRes x = false := by
    intro x hx
    cases h : isRes x with
    | false => rfl
    | true =>
      refine absurd (I.frd (I.evc.1 ?_)) nt
      cases x <;> first | (cases h; done) | exact .inl ⟨_, _, hx⟩ | exact .inr ⟨_, hx⟩
  have hb : bad (s.trace ++ [.discarded i]) = bad s.trace := by funext j; simp [bad]
  refine ⟨hl, ?_, rfl, ?_, ?_, ?_, ?_, I.attn, ?_, ?_⟩
  · simp [lost, upd]
  · intro j; simp only [lost, upd]; split
    · simp
    · exact nf j
  · simp only [lost, hb]; exact D.1.cnt
  · intro j o h
    simp only [lost, List.mem_append, List.mem_singleton, reduceCtorEq, or_false] at h
    have hj : j ≠ i := fun e => hn o (e ▸ h)
    simp only [lost, upd, hj, if_false]
    rcases (I.seen j o h).2.2 with h | h
    · exact absurd h (nf j)
    · exact h
  · intro j h
    simp only [lost, upd] at h ⊢
    apply (I.attb j).1
    intro e
    split at h
    · subst j; rw [hp] at e; cases e
    · exact h e
  · intro x hx
    simp only [lost, List.mem_append, List.mem_singleton] at hx
    rcases hx with hx | rfl
    · exact ne x hx
    · rfl
  · intro j h
    simp only [lost, upd] at h ⊢
    split at h
    · cases h
    · exact I.sch j h

theorem bad_other {t : List Event} {e : Event} (h : ∀ i o, e ≠ .seen i o) : bad (t ++ [e]) = bad t := by
  funext j
  cases e <;> first | (simp [bad]; done) | exact absurd rfl (h _ _)

theorem Stuck.step {n : Nat} {s s' : St} {i : Nat} (S : Stuck n s i) {a : Act} (e : step .anyRange n s a = .ok s') : Stuck n s' i := by
  obtain ⟨lt, pci, single, noFire, hc, seen, att, attn, res, sch⟩ := S
  cases a with
  | crit j =>
    simp only [When.step] at e
    split at e
    case h_2 => cases e
    next o hp =>
    have hji : j ≠ i := by rintro rfl; rw [hp] at pci; cases pci
    have hn : ∀ o, .seen j o ∉ s.trace := fun o h => by rw [seen j o h] at hp; cases hp
    have hj : j < n := Nat.lt_of_lt_of_le (att j (by simp [hp])) attn
    cases o with
    | val v =>
      simp only [crit, single, Bool.true_eq_false, if_false, Out.ok.injEq] at e
      subst e
      have hb := bad_val s.trace j v
      constructor <;> (try simp only [hb, Bool.false_eq_true, if_false]) <;> grind [isRes]
    | exc x =>
      have hbj : bad s.trace j = false := by
        rw [Bool.eq_false_iff]; intro h
        obtain ⟨e, h⟩ := bad_iff.1 h; exact hn _ h
      have hbi : bad (s.trace ++ [.seen j (.exc x)]) i = false := by
        rw [Bool.eq_false_iff]; intro h
        obtain ⟨e, h⟩ := bad_iff.1 h
        simp only [List.mem_append, List.mem_singleton, Event.seen.injEq] at h
        rcases h with h | ⟨h, -⟩
        · rw [seen i _ h] at pci; cases pci
        · exact hji h.symm
      have ha := cnt_add (p := bad s.trace) (q := bad (s.trace ++ [.seen j (.exc x)])) hj hbj (by simp [bad])
        (by intro k hk; simp [bad, Ne.symm hk])
      have hle := cnt_le (bad (s.trace ++ [.seen j (.exc x)])) n
      have hlt : When.cnt (bad (s.trace ++ [.seen j (.exc x)])) n ≠ n := fun h => by
        rw [cnt_full h i lt] at hbi; cases hbi
      have hr : ¬ s.ctx.remaining - 1 = 0 := by omega
      simp only [crit, if_neg hr, Out.ok.injEq] at e
      subst e
      constructor <;> (try simp only [Bool.false_eq_true, if_false]) <;> grind [isRes]
  | fire j => simp only [When.step, ne_eq, noFire j, not_false_eq_true, if_true, reduceCtorEq] at e
  | resolve j o =>
    simp only [When.step] at e
    split at e <;> cases e
    have hb := bad_other (t := s.trace) (e := .argRes j o) (by simp)
    constructor <;> (try simp only [hb]) <;> grind [isRes]
  | drop =>
    simp only [When.step] at e
    split at e <;> cases e
    have hb := bad_other (t := s.trace) (e := .dropped) (by simp)
    constructor <;> (try simp only [hb]) <;> grind [isRes]
  | discard j =>
    simp only [When.step] at e
    split at e <;> cases e
    have hb := bad_other (t := s.trace) (e := .discarded j) (by simp)
    constructor <;> (try simp only [hb]) <;> grind [isRes]
  | attach =>
    simp only [When.step] at e
    split at e <;> cases e
    constructor <;> grind
  | store =>
    simp only [When.step] at e
    split at e <;> cases e
    constructor <;> grind
  | run j =>
    simp only [When.step] at e
    split at e
    · cases e
    · split at e
      · cases e; constructor <;> grind
      · split at e <;> cases e
        constructor <;> grind

/-- Either the invariant without throwing stores, or `when_any` on a range is stuck. -/
inductive XInv (m : Mode) (n : Nat) (s : XSt) : Prop where
  | good (I : Inv m n s.b) (h1 : ∀ i ∈ s.thrown, s.b.pc i = .lost ∧ i < n) (h2 : m = .anyRange → s.thrown = [])
  | stuck (i : Nat) (hm : m = .anyRange) (h : s.thrown = [i]) (S : Stuck n s.b i)

theorem lost_step {m : Mode} {n : Nat} {s s' : St} {a : Act} (e : step m n s a = .ok s') {i : Nat} (hi : i < s.att) (h : s.pc i = .lost) :
    s'.pc i = .lost := by
  cases a <;> simp only [When.step] at e <;> (repeat' split at e) <;> first | cases e; done | (cases e; grind)

theorem xinv_init (m : Mode) {n : Nat} (h0 : 0 < n) : XInv m n ⟨init n, []⟩ :=
  .good (Inv.init m h0) (by simp) (fun _ => rfl)

theorem xinv_step {m : Mode} {n : Nat} {s s' : XSt} (X : XInv m n s) {a : XAct} (e : xstep m n s a = .ok s') : XInv m n s' := by
  cases a with
  | base a =>
    simp only [xstep] at e
    split at e <;> cases e
    next b hb =>
    cases X with
    | good I h1 h2 => exact .good (I.step hb) (fun i hi => ⟨lost_step hb ((I.attb i).1 (by simp [(h1 i hi).1])) (h1 i hi).1, (h1 i hi).2⟩) h2
    | stuck i hm h S => subst hm; exact .stuck i rfl h (S.step hb)
  | throw i =>
    simp only [xstep] at e
    split at e
    case h_2 => cases e
    next v hp =>
    split at e <;> cases e
    next hs =>
    cases X with
    | good I h1 h2 =>
      by_cases hm : m = .anyRange
      · subst hm
        exact .stuck i rfl (by simp [h2 rfl]) (stuck_of_lost I hp (by simpa [stores] using hs))
      · refine .good (inv_lost hm I hp) ?_ (fun h => absurd h hm)
        have hl : i < n := Nat.lt_of_lt_of_le ((I.attb i).1 (by simp [hp])) I.attn
        have hpc : (lost m s.b i).pc = upd s.b.pc i .lost := by cases m <;> rfl
        intro j hj
        rw [hpc]
        rcases List.mem_cons.1 hj with rfl | hj
        · exact ⟨by simp [upd], hl⟩
        · refine ⟨?_, (h1 j hj).2⟩
          simp only [upd]
          split
          · rfl
          · exact (h1 j hj).1
    | stuck k hm h S => subst hm; simp [stores, S.single] at hs

theorem XReachable.inv {m : Mode} {n : Nat} (h0 : 0 < n) {s : XSt} (r : XReachable m n s) : XInv m n s := by
  induction r with
  | init => exact xinv_init m h0
  | step _ e ih => exact xinv_step ih e

theorem XReachable.exec {m : Mode} {n : Nat} : ∀ {as : List XAct} {s s' : XSt}, XReachable m n s → xexec m n s as = some s' → XReachable m n s'
  | [], _, _, r, e => by cases e; exact r
  | a :: as, s, _, r, e => by
    simp only [xexec] at e
    split at e
    · next s1 h => exact XReachable.exec (.step r h) e
    · cases e

/-! ## What still holds -/

/-- No step is undefined. -/
theorem c103_no_undefined {m : Mode} {n : Nat} (h0 : 0 < n) {s : XSt} (r : XReachable m n s) (a : XAct) : xstep m n s a ≠ .ub := by
  cases a with
  | throw i => simp only [xstep]; repeat' split <;> simp
  | base a =>
    have key : step m n s.b a ≠ .ub := by
      cases r.inv h0 with
      | good I _ _ => exact inv_no_undefined I a
      | stuck i hm h S =>
        cases a with
        | run j =>
          have := S.sch j
          simp only [step]
          repeat' split
          all_goals first | (simp; done) | grind
        | fire j => have := S.noFire j; simp [step, this]
        | _ => simp only [step]; repeat' split <;> simp
    simp only [xstep]
    split
    · simp
    · next h => exact absurd h key
    · simp

/-- The function is called at most once, and not if the result fails; which happens at most once, too. -/
theorem c103_once {m : Mode} {n : Nat} (h0 : 0 < n) {s : XSt} (r : XReachable m n s) : s.b.trace.countP isRes ≤ 1 := by
  cases r.inv h0 with
  | good I _ _ => exact I.legal.once
  | stuck i hm h S =>
    have : s.b.trace.countP isRes = 0 := by
      rw [List.countP_eq_zero]
      intro x hx
      simp [S.res x hx]
    omega

theorem called_good {m : Mode} {n : Nat} (h0 : 0 < n) {s : XSt} (r : XReachable m n s) {x : Event} (h : x ∈ s.b.trace) (hx : isRes x = true) :
    Inv m n s.b ∧ ∀ i ∈ s.thrown, s.b.pc i = .lost ∧ i < n := by
  cases r.inv h0 with
  | good I h1 _ => exact ⟨I, h1⟩
  | stuck i hm _ S => rw [S.res _ h] at hx; cases hx

/-- `when_all` calls the function with the results of all arguments, never with something in place of one that could not be stored. -/
theorem c103_all_results {m : Mode} (hm : m.isAll = true) {n : Nat} (h0 : 0 < n) {s : XSt} (r : XReachable m n s) {xs : List Nat}
    {idx : Option Nat} (h : .called xs idx ∈ s.b.trace) :
    xs.length = n ∧ (∀ i v, xs[i]? = some v → .argRes i (.val v) ∈ s.b.trace) ∧ s.thrown = [] := by
  obtain ⟨I, h1⟩ := called_good h0 r h rfl
  obtain ⟨hl, hr⟩ := inv_results hm I h
  refine ⟨hl, hr, List.eq_nil_iff_forall_not_mem.2 fun i hi => ?_⟩
  obtain ⟨hp, hn⟩ := h1 i hi
  obtain ⟨a, b, hab⟩ := List.append_of_mem h
  have hx := (I.legal.ok hab).2.2.2
  simp only [Expect, hm, if_true] at hx
  have hs := hx.2.2 i (xs[i]'(by omega)) (List.getElem?_eq_getElem (by omega))
  rcases (I.seen i _ (hab ▸ List.mem_append_left _ hs)).2.2 with h | h <;> rw [hp] at h <;> cases h

/-- `when_any` calls the function with the result of an argument, and its index, never with one that could not be stored. -/
theorem c103_any_results {m : Mode} (hm : m.isAll = false) {n : Nat} (h0 : 0 < n) {s : XSt} (r : XReachable m n s) {xs : List Nat}
    {idx : Option Nat} (h : .called xs idx ∈ s.b.trace) :
    ∃ i v, xs = [v] ∧ idx = some i ∧ .argRes i (.val v) ∈ s.b.trace ∧ i ∉ s.thrown := by
  obtain ⟨I, h1⟩ := called_good h0 r h rfl
  obtain ⟨a, b, hab⟩ := List.append_of_mem h
  obtain ⟨a1, i, v, a2, ha, hr, rfl, rfl, -⟩ := inv_first_success hm I hab
  refine ⟨i, v, rfl, rfl, hr, fun hi => ?_⟩
  rcases (I.seen i (.val v) (by rw [hab, ha]; simp)).2.2 with h | h <;> rw [(h1 i hi).1] at h <;> cases h

/-- If the result fails, it is with the error of an argument; for `when_any`, all arguments have failed then. -/
theorem c103_error {m : Mode} {n : Nat} (h0 : 0 < n) {s : XSt} (r : XReachable m n s) {e : Err} (h : .failed e ∈ s.b.trace) :
    (∃ i, .argRes i (.exc e) ∈ s.b.trace) ∧ (m.isAll = false → ∀ i, i < n → ∃ e', .argRes i (.exc e') ∈ s.b.trace) := by
  obtain ⟨I, -⟩ := called_good h0 r h rfl
  obtain ⟨a, b, hab⟩ := List.append_of_mem h
  cases hm : m.isAll with
  | true =>
    obtain ⟨_, i, _, _, hi, _⟩ := inv_first_error hm I hab
    exact ⟨⟨i, hi⟩, by simp⟩
  | false =>
    obtain ⟨⟨_, i, _, _, hi, _⟩, ha⟩ := inv_last_error hm I hab
    exact ⟨⟨i, hi⟩, fun _ => ha⟩

/-- `when_all` still fails if an argument fails. -/
theorem c103_all_fails_partial {m : Mode} (hm : m.isAll = true) {n : Nat} (h0 : 0 < n) {s : XSt} (r : XReachable m n s) (q : Quiet n s.b)
    {i : Nat} {e : Err} (hi : .argRes i (.exc e) ∈ s.b.trace) (hd : .dropped ∉ s.b.trace) (hx : .discarded i ∉ s.b.trace) :
    ∃ e', .failed e' ∈ s.b.trace := by
  cases r.inv h0 with
  | good I _ _ => exact inv_fails_early hm I q hi hd hx
  | stuck i h _ _ => subst h; cases hm

/-- `when_any` on a pack still calls the function, if another argument succeeds of which the result can be stored. -/
theorem c103_any_pack_partial {n : Nat} (h0 : 0 < n) {s : XSt} (r : XReachable .anyPack n s) (q : Quiet n s.b)
    {i v : Nat} (hi : .argRes i (.val v) ∈ s.b.trace) (hd : .dropped ∉ s.b.trace) (hx : .discarded i ∉ s.b.trace) :
    ∃ xs idx, .called xs idx ∈ s.b.trace := by
  cases r.inv h0 with
  | good I _ _ => exact inv_called_first rfl I q hi hd hx
  | stuck i h _ _ => cases h

/-! ## What does not hold -/

/-- A `when_all` with a result that cannot be stored never gets ready, unless an argument fails. -/
theorem c103_all_lost_counterexample {m : Mode} (hm : m.isAll = true) {n : Nat} (h0 : 0 < n) {s : XSt} (r : XReachable m n s)
    (ht : s.thrown ≠ []) (he : ∀ i e, .argRes i (.exc e) ∉ s.b.trace) : ∀ x ∈ s.b.trace, isRes x = false := by
  intro x hx
  cases x with
  | called xs idx => exact absurd (c103_all_results hm h0 r hx).2.2 ht
  | failed e => obtain ⟨⟨i, hi⟩, -⟩ := c103_error h0 r hx; exact absurd hi (he i e)
  | _ => rfl

/-- A `when_any` on a pack with results that cannot be stored never gets ready, if there are no others. -/
theorem c103_any_pack_lost_counterexample {n : Nat} (h0 : 0 < n) {s : XSt} (r : XReachable .anyPack n s)
    (ht : s.thrown ≠ []) (ho : ∀ i v, .argRes i (.val v) ∈ s.b.trace → i ∈ s.thrown) : ∀ x ∈ s.b.trace, isRes x = false := by
  intro x hx
  cases x with
  | called xs idx =>
    obtain ⟨i, v, -, -, hi, hn⟩ := c103_any_results rfl h0 r hx
    exact absurd (ho i v hi) hn
  | failed e =>
    obtain ⟨I, h1⟩ := called_good h0 r hx rfl
    obtain ⟨a, b, hab⟩ := List.append_of_mem hx
    have hx := (I.legal.ok hab).2.2.2
    simp only [Expect, Mode.isAll, Bool.false_eq_true, if_false] at hx
    obtain ⟨i, hi⟩ := List.exists_mem_of_ne_nil _ ht
    obtain ⟨e', h'⟩ := hx.2 i (h1 i hi).2
    rcases (I.seen i _ (hab ▸ List.mem_append_left _ h')).2.2 with h | h <;> rw [(h1 i hi).1] at h <;> cases h
  | _ => rfl

/-- A `when_any` on a range with a result that cannot be stored never gets ready, whatever the other arguments do. -/
theorem c103_any_range_lost_counterexample {n : Nat} (h0 : 0 < n) {s : XSt} (r : XReachable .anyRange n s) (ht : s.thrown ≠ []) :
    ∀ x ∈ s.b.trace, isRes x = false := by
  cases r.inv h0 with
  | good _ _ h => exact absurd (h rfl) ht
  | stuck _ _ _ S => exact S.res

/-! ## Examples -/

def attach2 : List XAct := [.base .attach, .base .store, .base .attach, .base .store]

/-- Argument 0 cannot be stored, argument 1 can, later. -/
def loseFirst : List XAct := attach2 ++ [.base (.resolve 0 (.val 7)), .base (.run 0), .throw 0, .base (.resolve 1 (.val 8)), .base (.run 1)]

/-- Argument 0 cannot be stored, argument 1 fails. -/
def loseFail : List XAct := attach2 ++ [.base (.resolve 0 (.val 7)), .base (.run 0), .throw 0, .base (.resolve 1 (.exc (.user 5))), .base (.run 1), .base (.crit 1)]

def ending (m : Mode) (as : List XAct) : XSt := (xexec m 2 ⟨init 2, []⟩ as).getD ⟨init 2, []⟩

theorem ending_reachable {m : Mode} {as : List XAct} (h : (xexec m 2 ⟨init 2, []⟩ as).isSome = true) : XReachable m 2 (ending m as) := by
  obtain ⟨x, hx⟩ := Option.isSome_iff_exists.1 h
  exact XReachable.exec (as := as) .init (by simp [ending, hx])

/-- `Quiet`, checked for the two arguments only. -/
theorem quiet_ending {m : Mode} {as : List XAct} (h : (xexec m 2 ⟨init 2, []⟩ as).isSome = true)
    (ha : (ending m as).b.att = 2) (h0 : (ending m as).b.pc 0 = .lost ∨ (ending m as).b.pc 0 = .done)
    (h1 : (ending m as).b.pc 1 = .lost ∨ (ending m as).b.pc 1 = .done) : Quiet 2 (ending m as).b := by
  refine ⟨ha, fun i => ?_⟩
  have : i = 0 ∨ i = 1 ∨ 2 ≤ i := by omega
  rcases this with rfl | rfl | hi
  · rcases h0 with h | h <;> simp [h]
  · rcases h1 with h | h <;> simp [h]
  · have : (ending m as).b.pc i = .none := by
      refine Classical.byContradiction fun hp => ?_
      cases (ending_reachable h).inv (by decide) with
      | good I _ _ => have := (I.attb i).1 hp; omega
      | stuck _ _ _ S => have := S.att i hp; omega
    simp [this]

/-- `when_all`: both arguments succeed, nothing is left to do, and the result is not ready. -/
example : ∀ m, m = .allPack ∨ m = .allRange → XReachable m 2 (ending m (loseFirst ++ [.base (.crit 1)])) ∧
    Quiet 2 (ending m (loseFirst ++ [.base (.crit 1)])).b ∧ (ending m (loseFirst ++ [.base (.crit 1)])).thrown = [0] ∧
    (ending m (loseFirst ++ [.base (.crit 1)])).b.trace = [.argRes 0 (.val 7), .discarded 0, .argRes 1 (.val 8), .seen 1 (.val 8)] := by
  rintro m (rfl | rfl)
  · exact ⟨ending_reachable (by decide), quiet_ending (by decide) (by decide) (by decide) (by decide), by decide, by decide⟩
  · exact ⟨ending_reachable (by decide), quiet_ending (by decide) (by decide) (by decide) (by decide), by decide, by decide⟩

/-- `when_all`: the other argument fails, and so does the result. -/
example : ∀ m, m = .allPack ∨ m = .allRange → (ending m (loseFail ++ [.base (.fire 1)])).b.trace =
    [.argRes 0 (.val 7), .discarded 0, .argRes 1 (.exc (.user 5)), .seen 1 (.exc (.user 5)), .failed (.user 5)] := by
  rintro m (rfl | rfl) <;> decide

/-- `when_any` on a pack: the other argument succeeds, and its value is given to the function. -/
example : (ending .anyPack (loseFirst ++ [.base (.crit 1), .base (.fire 1)])).b.trace =
    [.argRes 0 (.val 7), .discarded 0, .argRes 1 (.val 8), .seen 1 (.val 8), .called [8] (some 1)] := by decide

/-- `when_any` on a pack: the other argument fails, nothing is left to do, and the result is not ready. -/
example : XReachable .anyPack 2 (ending .anyPack loseFail) ∧ Quiet 2 (ending .anyPack loseFail).b ∧ (ending .anyPack loseFail).thrown = [0] ∧
    (ending .anyPack loseFail).b.trace = [.argRes 0 (.val 7), .discarded 0, .argRes 1 (.exc (.user 5)), .seen 1 (.exc (.user 5))] :=
  ⟨ending_reachable (by decide), quiet_ending (by decide) (by decide) (by decide) (by decide), by decide, by decide⟩

/-- `when_any` on a range: the other argument succeeds, nothing is left to do, and the result is not ready. -/
example : XReachable .anyRange 2 (ending .anyRange loseFirst) ∧ Quiet 2 (ending .anyRange loseFirst).b ∧
    (ending .anyRange loseFirst).thrown = [0] ∧ (ending .anyRange loseFirst).b.trace = [.argRes 0 (.val 7), .discarded 0, .argRes 1 (.val 8)] :=
  ⟨ending_reachable (by decide), quiet_ending (by decide) (by decide) (by decide) (by decide), by decide, by decide⟩

end Verif.When.Throw
