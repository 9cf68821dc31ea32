import Verif.Task

/-!
# C29: a task owns its callable

For every history allowed by the specification (`specRun`): no undefined behaviour, calls reach the callable
last given, every function object is destroyed exactly once. Self-move-assignment, self-swap and calling a
moved-from task are not covered, and the code indeed misbehaves there (counterexamples below).
-/

namespace Verif.Task

@[simp] theorem upd_self {α : Type} (f : Nat → α) (k : Nat) (v : α) : upd f k v k = v := by simp [upd]

theorem upd_ne {α : Type} (f : Nat → α) {k i : Nat} (v : α) (h : i ≠ k) : upd f k v i = f i := by simp [upd, h]

/-- Object `o` is a representation of content `v`. -/
def Rep (W : World) (o : Obj) (v : SV) : Prop :=
  match o.vt, o.slot with
  | .empty, .raw => v = .empty
  | .small, .inst i => (W.val i = none ∧ v = .moved) ∨ ∃ c, W.val i = some c ∧ v = .holds c
  | .large, .inst i => ∃ c, W.val i = some c ∧ v = .holds c
  | .large, .null => v = .moved
  | _, _ => False

/-- World `W` implements the variables `σ`. -/
structure R (W : World) (σ : Nat → Option SV) : Prop where
  dom : ∀ x, W.obj x = none ↔ σ x = none
  rep : ∀ x o v, W.obj x = some o → σ x = some v → Rep W o v
  own : ∀ x o i, W.obj x = some o → o.slot = .inst i → i < W.next ∧ W.dtors i = 0
  inj : ∀ x y o p i, W.obj x = some o → W.obj y = some p → o.slot = .inst i → p.slot = .inst i → x = y
  live : ∀ i, i < W.next → W.dtors i = 0 → ∃ x o, W.obj x = some o ∧ o.slot = .inst i
  once : ∀ i, W.dtors i ≤ 1
  fresh : ∀ i, W.next ≤ i → W.dtors i = 0

theorem R.init : R {} (fun _ => none) := by
  constructor <;> simp

theorem R.exists_obj {W : World} {σ : Nat → Option SV} (h : R W σ) {x : Nat} {v : SV} (hx : σ x = some v) :
    ∃ o, W.obj x = some o ∧ Rep W o v := by
  cases ho : W.obj x with
  | none => rw [(h.dom x).1 ho] at hx; cases hx
  | some o => exact ⟨o, rfl, h.rep x o v ho hx⟩

theorem R.ctor {W : World} {σ : Nat → Option SV} (h : R W σ) {x : Nat} (hx : σ x = none) :
    ∃ W', ctor W x = some W' ∧ R W' (upd σ x (some .empty)) ∧ W'.trace = W.trace := by
  have ho := (h.dom x).2 hx
  refine ⟨{ W with obj := upd W.obj x (some ⟨.empty, .raw⟩) }, by simp only [Task.ctor, ho], ?_, rfl⟩
  constructor
  · intro y; have := h.dom y; simp only [upd]; split <;> simp_all
  · intro y o v hy hv; simp only [upd] at hy hv; split at hy
    · rename_i e; subst e; cases hy; simp at hv; simp [Rep, ← hv]
    · rename_i e; rw [if_neg e] at hv; exact h.rep y o v hy hv
  · intro y o i hy hi; simp only [upd] at hy; split at hy
    · cases hy; cases hi
    · exact h.own y o i hy hi
  · intro y z o p i hy hz hi hj; simp only [upd] at hy hz; split at hy
    · cases hy; cases hi
    · split at hz
      · cases hz; cases hj
      · exact h.inj y z o p i hy hz hi hj
  · intro i hi hd
    obtain ⟨y, o, hy, hs⟩ := h.live i hi hd
    refine ⟨y, o, ?_, hs⟩
    have : y ≠ x := by intro e; rw [e, ho] at hy; cases hy
    simpa [upd, this] using hy
  · exact h.once
  · exact h.fresh

theorem R.ctorF {W : World} {σ : Nat → Option SV} (h : R W σ) {x : Nat} (hx : σ x = none) (c : Option Nat)
    (l : Bool) :
    ∃ W', ctorF W x c l = some W' ∧ R W' (upd σ x (some (given c))) ∧ W'.trace = W.trace := by
  have ho := (h.dom x).2 hx
  cases c with
  | none =>
    obtain ⟨W', h1, h2, h3⟩ := h.ctor hx
    refine ⟨W', ?_, h2, h3⟩
    simpa [Task.ctor, Task.ctorF, ho] using h1
  | some c =>
    refine ⟨{ W with obj := upd W.obj x (some ⟨if l then .large else .small, .inst W.next⟩),
                     val := upd W.val W.next (some c), next := W.next + 1 }, by simp only [Task.ctorF, ho], ?_, rfl⟩
    have hlt : ∀ y o i, W.obj y = some o → o.slot = .inst i → i ≠ W.next := by
      intro y o i hy hi e; have := (h.own y o i hy hi).1; omega
    constructor
    · intro y; have := h.dom y; simp only [upd]; split <;> simp_all
    · intro y o v hy hv
      by_cases e : y = x
      · subst e; simp only [upd_self, Option.some.injEq] at hy hv; subst hy hv
        cases l <;> simp [Rep, given]
      · simp only [upd_ne _ _ e] at hy hv
        have hr := h.rep y o v hy hv
        have := hlt y o
        obtain ⟨vt, sl⟩ := o
        cases vt <;> cases sl <;> simp_all [Rep, upd]
    · intro y o i hy hi
      by_cases e : y = x
      · subst e; simp only [upd_self, Option.some.injEq] at hy; subst hy
        simp only [Slot.inst.injEq] at hi; subst hi
        exact ⟨Nat.lt_succ_self _, h.fresh _ (Nat.le_refl _)⟩
      · simp only [upd_ne _ _ e] at hy
        have := h.own y o i hy hi
        exact ⟨Nat.lt_succ_of_lt this.1, this.2⟩
    · intro y z o p i hy hz hi hj
      by_cases e : y = x
      · by_cases e' : z = x
        · rw [e, e']
        · subst e; simp only [upd_self, Option.some.injEq, upd_ne _ _ e'] at hy hz; subst hy
          simp only [Slot.inst.injEq] at hi; subst hi
          exact absurd rfl (hlt z p _ hz hj)
      · by_cases e' : z = x
        · subst e'; simp only [upd_self, Option.some.injEq, upd_ne _ _ e] at hy hz; subst hz
          simp only [Slot.inst.injEq] at hj; subst hj
          exact absurd rfl (hlt y o _ hy hi)
        · simp only [upd_ne _ _ e, upd_ne _ _ e'] at hy hz
          exact h.inj y z o p i hy hz hi hj
    · intro i hi hd
      dsimp only at hi hd
      by_cases e : i = W.next
      · subst e; exact ⟨x, _, upd_self _ _ _, rfl⟩
      · obtain ⟨y, o, hy, hs⟩ := h.live i (by omega) hd
        refine ⟨y, o, ?_, hs⟩
        have : y ≠ x := by intro e; rw [e, ho] at hy; cases hy
        simpa [upd, this] using hy
    · exact h.once
    · intro i hi; exact h.fresh i (by dsimp only at hi; omega)

/-- Destroying the function object owned by `x`, if any, and ending `x`. -/
theorem R.drop {W : World} {σ : Nat → Option SV} (h : R W σ) {x : Nat} {o : Obj} {i : Nat}
    (ho : W.obj x = some o) (hs : o.slot = .inst i) :
    R { W with dtors := upd W.dtors i (W.dtors i + 1), obj := upd W.obj x none } (upd σ x none) := by
  have hi := h.own x o i ho hs
  constructor
  · intro y; have := h.dom y; simp only [upd]; split <;> simp_all
  · intro y p v hy hv
    by_cases e : y = x
    · subst e; simp at hy
    · simp only [upd_ne _ _ e] at hy hv; exact h.rep y p v hy hv
  · intro y p j hy hj
    by_cases e : y = x
    · subst e; simp at hy
    · simp only [upd_ne _ _ e] at hy
      have hne : j ≠ i := by intro e'; subst e'; exact e (h.inj y x p o j hy ho hj hs)
      dsimp only; rw [upd_ne _ _ hne]; exact h.own y p j hy hj
  · intro y z p q j hy hz hi hj
    by_cases e : y = x
    · subst e; simp at hy
    · by_cases e' : z = x
      · subst e'; simp at hz
      · simp only [upd_ne _ _ e, upd_ne _ _ e'] at hy hz
        exact h.inj y z p q j hy hz hi hj
  · intro j hj hd
    by_cases e : j = i
    · subst e; simp at hd
    · simp only [upd_ne _ _ e] at hd
      obtain ⟨y, p, hy, hp⟩ := h.live j hj hd
      refine ⟨y, p, ?_, hp⟩
      have : y ≠ x := by
        intro e'; subst e'; rw [ho] at hy; cases hy; rw [hs] at hp; cases hp; exact e rfl
      simpa [upd, this] using hy
  · intro j; simp only [upd]; split
    · omega
    · exact h.once j
  · intro j hj
    have : j ≠ i := by intro e; dsimp only at hj; omega
    dsimp only; rw [upd_ne _ _ this]; exact h.fresh j hj

/-- Ending `x`, which owns nothing. -/
theorem R.drop_none {W : World} {σ : Nat → Option SV} (h : R W σ) {x : Nat} {o : Obj}
    (ho : W.obj x = some o) (hs : ∀ i, o.slot ≠ .inst i) :
    R { W with obj := upd W.obj x none } (upd σ x none) := by
  constructor
  · intro y; have := h.dom y; simp only [upd]; split <;> simp_all
  · intro y p v hy hv
    by_cases e : y = x
    · subst e; simp at hy
    · simp only [upd_ne _ _ e] at hy hv; exact h.rep y p v hy hv
  · intro y p j hy hj
    by_cases e : y = x
    · subst e; simp at hy
    · simp only [upd_ne _ _ e] at hy; exact h.own y p j hy hj
  · intro y z p q j hy hz hi hj
    by_cases e : y = x
    · subst e; simp at hy
    · by_cases e' : z = x
      · subst e'; simp at hz
      · simp only [upd_ne _ _ e, upd_ne _ _ e'] at hy hz
        exact h.inj y z p q j hy hz hi hj
  · intro j hj hd
    obtain ⟨y, p, hy, hp⟩ := h.live j hj hd
    refine ⟨y, p, ?_, hp⟩
    have : y ≠ x := by intro e'; subst e'; rw [ho] at hy; cases hy; exact hs j hp
    simpa [upd, this] using hy
  · exact h.once
  · exact h.fresh

theorem upd_upd {α : Type} (f : Nat → α) (k : Nat) (v w : α) : upd (upd f k v) k w = upd f k w := by
  funext i; simp only [upd]; split <;> rfl

theorem R.dtor {W : World} {σ : Nat → Option SV} (h : R W σ) {x : Nat} {v : SV} (hx : σ x = some v) :
    ∃ W', dtor W x = some W' ∧ R W' (upd σ x none) ∧ W'.trace = W.trace := by
  obtain ⟨o, ho, hr⟩ := h.exists_obj hx
  obtain ⟨vt, sl⟩ := o
  cases vt <;> cases sl <;> simp only [Rep] at hr
  · exact ⟨_, by simp only [Task.dtor, ho, dtorModel, upd_upd], h.drop_none ho (by simp), rfl⟩
  · exact ⟨_, by simp only [Task.dtor, ho, dtorModel, upd_upd], h.drop ho rfl, rfl⟩
  · exact ⟨_, by simp only [Task.dtor, ho, dtorModel, upd_upd], h.drop_none ho (by simp), rfl⟩
  · exact ⟨_, by simp only [Task.dtor, ho, dtorModel, upd_upd], h.drop ho rfl, rfl⟩

/-- Handing the function object of `y` over to a new `x` (large), or a null pointer. -/
theorem R.moveCtor {W : World} {σ : Nat → Option SV} (h : R W σ) {x y : Nat} {v : SV} (hx : σ x = none)
    (hy : σ y = some v) :
    ∃ W', moveCtor W x y = some W' ∧ R W' (upd (upd σ y (some (from_ v))) x (some v)) ∧
      W'.trace = W.trace := by
  have hxo := (h.dom x).2 hx
  obtain ⟨o, ho, hr⟩ := h.exists_obj hy
  have hne : y ≠ x := by intro e; subst e; rw [hx] at hy; cases hy
  have hupd : ∀ w, upd W.obj y (some w) x = none := by intro w; rw [upd_ne _ _ (Ne.symm hne)]; exact hxo
  obtain ⟨vt, sl⟩ := o
  cases vt <;> cases sl <;> simp only [Rep] at hr
  · -- empty
    obtain ⟨W', h1, h2, h3⟩ := h.ctor hx
    refine ⟨W', ?_, ?_, h3⟩
    · simp only [Task.ctor, hxo] at h1
      simpa only [Task.moveCtor, hxo, ho, moveModel] using h1
    · subst hr
      have : upd (upd σ y (some (from_ .empty))) x (some .empty) = upd σ x (some .empty) := by
        funext z; simp only [upd, from_]; split
        · rfl
        · split
          · rename_i e; subst e; exact hy.symm
          · rfl
      rw [this]; exact h2
  · -- small
    rename_i i
    have hi := h.own y _ i ho rfl
    have hfr : from_ v = .moved := by rcases hr with ⟨_, rfl⟩ | ⟨c, _, rfl⟩ <;> rfl
    refine ⟨{ W with obj := upd W.obj x (some ⟨.small, .inst W.next⟩),
                     val := upd (upd W.val W.next (W.val i)) i none, next := W.next + 1 },
            by simp [Task.moveCtor, hxo, ho, moveModel, alive, hi], ?_, rfl⟩
    have hlt : ∀ z o i, W.obj z = some o → o.slot = .inst i → i ≠ W.next := by
      intro z o i hz hi e; have := (h.own z o i hz hi).1; omega
    have hni : W.next ≠ i := by have := hi.1; omega
    constructor
    · intro z; have := h.dom z; simp only [upd]; split
      · simp
      · split
        · rename_i e; subst e; simp [ho]
        · exact this
    · intro z p w hz hw
      by_cases e : z = x
      · subst e; simp only [upd_self, Option.some.injEq] at hz hw; subst hz hw
        simpa [Rep, upd_ne _ _ hni] using hr
      · simp only [upd_ne _ _ e] at hz hw
        by_cases e' : z = y
        · subst e'; rw [ho] at hz; cases hz; simp only [upd_self, Option.some.injEq] at hw
          subst hw; simp [Rep, hfr]
        · simp only [upd_ne _ _ e'] at hw
          have hrz := h.rep z p w hz hw
          have h1 := hlt z p
          have h2 : ∀ j, p.slot = .inst j → j ≠ i := by
            intro j hj e2; subst e2; exact e' (h.inj z y p _ j hz ho hj rfl)
          obtain ⟨vt, sl⟩ := p
          cases vt <;> cases sl <;> simp_all [Rep, upd]
    · intro z p j hz hj
      by_cases e : z = x
      · subst e; simp only [upd_self, Option.some.injEq] at hz; subst hz
        simp only [Slot.inst.injEq] at hj; subst hj
        exact ⟨Nat.lt_succ_self _, h.fresh _ (Nat.le_refl _)⟩
      · simp only [upd_ne _ _ e] at hz
        have := h.own z p j hz hj
        exact ⟨Nat.lt_succ_of_lt this.1, this.2⟩
    · intro z w p q j hz hw hi hj
      by_cases e : z = x
      · by_cases e' : w = x
        · rw [e, e']
        · subst e; simp only [upd_self, Option.some.injEq, upd_ne _ _ e'] at hz hw; subst hz
          simp only [Slot.inst.injEq] at hi; subst hi
          exact absurd rfl (hlt w q _ hw hj)
      · by_cases e' : w = x
        · subst e'; simp only [upd_self, Option.some.injEq, upd_ne _ _ e] at hz hw; subst hw
          simp only [Slot.inst.injEq] at hj; subst hj
          exact absurd rfl (hlt z p _ hz hi)
        · simp only [upd_ne _ _ e, upd_ne _ _ e'] at hz hw
          exact h.inj z w p q j hz hw hi hj
    · intro j hj hd
      dsimp only at hj hd
      by_cases e : j = W.next
      · subst e; exact ⟨x, _, upd_self _ _ _, rfl⟩
      · obtain ⟨z, p, hz, hs⟩ := h.live j (by omega) hd
        refine ⟨z, p, ?_, hs⟩
        have : z ≠ x := by intro e; rw [e, hxo] at hz; cases hz
        simpa [upd, this] using hz
    · exact h.once
    · intro j hj; exact h.fresh j (by dsimp only at hj; omega)
  · -- large, moved from
    subst hr
    refine ⟨{ W with obj := upd W.obj x (some ⟨.large, .null⟩) },
            by simp [Task.moveCtor, hxo, ho, moveModel], ?_, rfl⟩
    constructor
    · intro z; have := h.dom z; simp only [upd]; split
      · simp
      · split
        · rename_i e; subst e; simp [ho]
        · exact this
    · intro z p w hz hw
      by_cases e : z = x
      · subst e; simp only [upd_self, Option.some.injEq] at hz hw; subst hz hw; simp [Rep]
      · simp only [upd_ne _ _ e] at hz hw
        by_cases e' : z = y
        · subst e'; rw [ho] at hz; cases hz; simp only [upd_self, Option.some.injEq] at hw
          subst hw; simp [Rep, from_]
        · simp only [upd_ne _ _ e'] at hw; exact h.rep z p w hz hw
    · intro z p j hz hj
      by_cases e : z = x
      · subst e; simp only [upd_self, Option.some.injEq] at hz; subst hz; cases hj
      · simp only [upd_ne _ _ e] at hz; exact h.own z p j hz hj
    · intro z w p q j hz hw hi hj
      by_cases e : z = x
      · subst e; simp only [upd_self, Option.some.injEq] at hz; subst hz; cases hi
      · by_cases e' : w = x
        · subst e'; simp only [upd_self, Option.some.injEq] at hw; subst hw; cases hj
        · simp only [upd_ne _ _ e, upd_ne _ _ e'] at hz hw
          exact h.inj z w p q j hz hw hi hj
    · intro j hj hd
      obtain ⟨z, p, hz, hs⟩ := h.live j hj hd
      refine ⟨z, p, ?_, hs⟩
      have : z ≠ x := by intro e; rw [e, hxo] at hz; cases hz
      simpa [upd, this] using hz
    · exact h.once
    · exact h.fresh
  · -- large
    rename_i i
    have hi := h.own y _ i ho rfl
    have hfr : from_ v = .moved := by obtain ⟨c, _, rfl⟩ := hr; rfl
    refine ⟨{ W with obj := upd (upd W.obj y (some ⟨.large, .null⟩)) x (some ⟨.large, .inst i⟩) },
            by simp [Task.moveCtor, hxo, ho, moveModel], ?_, rfl⟩
    constructor
    · intro z; have := h.dom z; simp only [upd]; split
      · simp
      · split
        · simp
        · exact this
    · intro z p w hz hw
      by_cases e : z = x
      · subst e; simp only [upd_self, Option.some.injEq] at hz hw; subst hz hw; simpa [Rep] using hr
      · simp only [upd_ne _ _ e] at hz hw
        by_cases e' : z = y
        · subst e'; simp only [upd_self, Option.some.injEq] at hz hw; subst hz hw; simp [Rep, hfr]
        · simp only [upd_ne _ _ e'] at hz hw; exact h.rep z p w hz hw
    · intro z p j hz hj
      by_cases e : z = x
      · subst e; simp only [upd_self, Option.some.injEq] at hz; subst hz
        simp only [Slot.inst.injEq] at hj; subst hj; exact hi
      · simp only [upd_ne _ _ e] at hz
        by_cases e' : z = y
        · subst e'; simp only [upd_self, Option.some.injEq] at hz; subst hz; cases hj
        · simp only [upd_ne _ _ e'] at hz; exact h.own z p j hz hj
    · have key : ∀ z p j, upd (upd W.obj y (some ⟨.large, .null⟩)) x (some ⟨.large, .inst i⟩) z = some p →
          p.slot = .inst j → (z = x ∧ j = i) ∨ (z ≠ x ∧ z ≠ y ∧ W.obj z = some p) := by
        intro z p j hz hj
        by_cases e : z = x
        · subst e; simp only [upd_self, Option.some.injEq] at hz; subst hz
          simp only [Slot.inst.injEq] at hj; exact .inl ⟨rfl, hj.symm⟩
        · simp only [upd_ne _ _ e] at hz
          by_cases e' : z = y
          · subst e'; simp only [upd_self, Option.some.injEq] at hz; subst hz; cases hj
          · simp only [upd_ne _ _ e'] at hz; exact .inr ⟨e, e', hz⟩
      intro z w p q j hz hw hzi hj
      rcases key z p j hz hzi with ⟨rfl, rfl⟩ | ⟨a, b, c⟩
      · rcases key w q _ hw hj with ⟨rfl, _⟩ | ⟨a', b', c'⟩
        · rfl
        · exact absurd (h.inj w y q _ _ c' ho hj rfl) b'
      · rcases key w q j hw hj with ⟨rfl, rfl⟩ | ⟨a', b', c'⟩
        · exact absurd (h.inj z y p _ _ c ho hzi rfl) b
        · exact h.inj z w p q j c c' hzi hj
    · intro j hj hd
      by_cases e : j = i
      · subst e; exact ⟨x, _, upd_self _ _ _, rfl⟩
      · obtain ⟨z, p, hz, hs⟩ := h.live j hj hd
        refine ⟨z, p, ?_, hs⟩
        have h1 : z ≠ x := by intro e; rw [e, hxo] at hz; cases hz
        have h2 : z ≠ y := by
          intro e'; subst e'; rw [ho] at hz; cases hz; cases hs; exact e rfl
        simpa [upd, h1, h2] using hz
    · exact h.once
    · exact h.fresh

/-- Assignment between different objects destroys the old content and moves the new one in. -/
theorem assign_eq {W : World} {x y : Nat} (hne : x ≠ y) :
    assign W x y = match Task.dtor W x with | none => none | some W1 => Task.moveCtor W1 x y := by
  unfold assign Task.dtor
  cases hx : W.obj x with
  | none => rfl
  | some o =>
    dsimp only
    cases hd : dtorModel W x o with
    | none => rfl
    | some W1 =>
      dsimp only [Task.moveCtor]
      rw [upd_self, upd_ne _ _ (Ne.symm hne)]
      cases hy : W1.obj y with
      | none => rfl
      | some p =>
        have comm : ∀ (f : Nat → Option Obj) u, upd (upd f x none) y u = upd (upd f y u) x none := by
          intro f u; funext z; simp only [upd]; split
          · rename_i e; subst e; simp [Ne.symm hne]
          · rfl
        obtain ⟨vt, sl⟩ := p
        cases vt <;> cases sl <;> simp [moveModel, upd_upd, alive, comm]

theorem R.assign {W : World} {σ : Nat → Option SV} (h : R W σ) {x y : Nat} {u v : SV} (hne : x ≠ y)
    (hx : σ x = some u) (hy : σ y = some v) :
    ∃ W', assign W x y = some W' ∧ R W' (upd (upd σ y (some (from_ v))) x (some v)) ∧
      W'.trace = W.trace := by
  obtain ⟨W1, h1, r1, t1⟩ := h.dtor hx
  obtain ⟨W2, h2, r2, t2⟩ := r1.moveCtor (x := x) (y := y) (v := v) (upd_self _ _ _)
    (by rw [upd_ne _ _ (Ne.symm hne)]; exact hy)
  refine ⟨W2, by rw [assign_eq hne, h1]; exact h2, ?_, t2.trans t1⟩
  have : upd (upd (upd σ x none) y (some (from_ v))) x (some v) =
      upd (upd σ y (some (from_ v))) x (some v) := by
    funext z; simp only [upd]; split
    · rfl
    · split <;> rfl
  rwa [this] at r2

/-- One allowed operation. -/
theorem R.run {W : World} {S S' : Spec} (h : R W S.sv) (h0 : S.sv 0 = none) (ht : W.trace = S.trace) {a : Op}
    (hs : specRun S a = some S') :
    ∃ W', Task.run W a = some W' ∧ R W' S'.sv ∧ S'.sv 0 = none ∧ W'.trace = S'.trace := by
  cases a with
  | ctor x =>
    simp only [specRun] at hs; split at hs <;> cases hs; rename_i hc
    obtain ⟨W', h1, h2, h3⟩ := h.ctor hc.2
    exact ⟨W', h1, h2, by dsimp only; rw [upd_ne _ _ (by omega)]; exact h0, h3.trans ht⟩
  | ctorF x c l =>
    simp only [specRun] at hs; split at hs <;> cases hs; rename_i hc
    obtain ⟨W', h1, h2, h3⟩ := h.ctorF hc.2 c l
    exact ⟨W', h1, h2, by dsimp only; rw [upd_ne _ _ (by omega)]; exact h0, h3.trans ht⟩
  | moveCtor x y =>
    simp only [specRun] at hs; split at hs
    · rename_i v hy; split at hs <;> cases hs; rename_i hc
      obtain ⟨W', h1, h2, h3⟩ := h.moveCtor hc.2 hy
      refine ⟨W', h1, h2, ?_, h3.trans ht⟩
      have : (0 : Nat) ≠ y := by intro e; subst e; rw [h0] at hy; cases hy
      dsimp only; rw [upd_ne _ _ (by omega), upd_ne _ _ this]; exact h0
    · cases hs
  | assign x y =>
    simp only [specRun] at hs; split at hs
    · rename_i u v hx hy; split at hs <;> cases hs; rename_i hc
      obtain ⟨W', h1, h2, h3⟩ := h.assign hc hx hy
      refine ⟨W', h1, h2, ?_, h3.trans ht⟩
      have e1 : (0 : Nat) ≠ y := by intro e; subst e; rw [h0] at hy; cases hy
      have e2 : (0 : Nat) ≠ x := by intro e; subst e; rw [h0] at hx; cases hx
      dsimp only; rw [upd_ne _ _ e2, upd_ne _ _ e1]; exact h0
    · cases hs
  | assignF x c l =>
    simp only [specRun] at hs; split at hs <;> cases hs; rename_i hc
    obtain ⟨u, hu⟩ := Option.ne_none_iff_exists'.1 hc
    have e2 : x ≠ 0 := by intro e; subst e; exact hc h0
    obtain ⟨W1, a1, r1, t1⟩ := h.ctorF h0 c l
    obtain ⟨W2, a2, r2, t2⟩ := r1.assign (x := x) (y := 0) e2 (by rw [upd_ne _ _ e2]; exact hu) (upd_self _ _ _)
    obtain ⟨W3, a3, r3, t3⟩ := r2.dtor (x := 0) (v := from_ (given c))
      (by rw [upd_ne _ _ (Ne.symm e2)]; exact upd_self _ _ _)
    refine ⟨W3, by simp [Task.run, assignF, a1, a2, a3], ?_, ?_, by rw [t3, t2, t1, ht]⟩
    · have : upd (upd (upd (upd S.sv 0 (some (given c))) 0 (some (from_ (given c)))) x (some (given c))) 0 none =
          upd S.sv x (some (given c)) := by
        funext z; simp only [upd]; split
        · rename_i e; subst e; simp [Ne.symm e2, h0]
        · rfl
      rwa [this] at r3
    · dsimp only; rw [upd_ne _ _ (Ne.symm e2)]; exact h0
  | reset x =>
    simp only [specRun] at hs; split at hs <;> cases hs; rename_i hc
    obtain ⟨u, hu⟩ := Option.ne_none_iff_exists'.1 hc
    have e2 : x ≠ 0 := by intro e; subst e; exact hc h0
    obtain ⟨W1, a1, r1, t1⟩ := h.ctor h0
    obtain ⟨W2, a2, r2, t2⟩ := r1.assign (x := x) (y := 0) e2 (by rw [upd_ne _ _ e2]; exact hu) (upd_self _ _ _)
    obtain ⟨W3, a3, r3, t3⟩ := r2.dtor (x := 0) (v := from_ .empty)
      (by rw [upd_ne _ _ (Ne.symm e2)]; exact upd_self _ _ _)
    refine ⟨W3, by simp [Task.run, Task.reset, a1, a2, a3], ?_, ?_, by rw [t3, t2, t1, ht]⟩
    · have : upd (upd (upd (upd S.sv 0 (some .empty)) 0 (some (from_ .empty))) x (some .empty)) 0 none =
          upd S.sv x (some .empty) := by
        funext z; simp only [upd]; split
        · rename_i e; subst e; simp [Ne.symm e2, h0]
        · rfl
      rwa [this] at r3
    · dsimp only; rw [upd_ne _ _ (Ne.symm e2)]; exact h0
  | swap x y =>
    simp only [specRun] at hs; split at hs
    · rename_i v w hx hy; split at hs <;> cases hs; rename_i hc
      have e1 : y ≠ 0 := by intro e; subst e; rw [h0] at hy; cases hy
      have e2 : x ≠ 0 := by intro e; subst e; rw [h0] at hx; cases hx
      obtain ⟨W1, a1, r1, t1⟩ := h.moveCtor (x := 0) h0 hx
      obtain ⟨W2, a2, r2, t2⟩ := r1.assign (x := x) (y := y) (u := from_ v) (v := w) hc
        (by rw [upd_ne _ _ e2]; exact upd_self _ _ _)
        (by rw [upd_ne _ _ e1, upd_ne _ _ (Ne.symm hc)]; exact hy)
      obtain ⟨W3, a3, r3, t3⟩ := r2.assign (x := y) (y := 0) (u := from_ w) (v := v) e1
        (by rw [upd_ne _ _ (Ne.symm hc)]; exact upd_self _ _ _)
        (by rw [upd_ne _ _ (Ne.symm e2), upd_ne _ _ (Ne.symm e1)]; exact upd_self _ _ _)
      obtain ⟨W4, a4, r4, t4⟩ := r3.dtor (x := 0) (v := from_ v)
        (by rw [upd_ne _ _ (Ne.symm e1)]; exact upd_self _ _ _)
      refine ⟨W4, by simp [Task.run, Task.swap, a1, a2, a3, a4], ?_, ?_, by rw [t4, t3, t2, t1, ht]⟩
      · dsimp only
        suffices e : upd (upd S.sv x (some w)) y (some v) = _ by rw [e]; exact r4
        funext z; simp only [upd]
        by_cases z0 : z = 0
        · subst z0; simp [Ne.symm e2, Ne.symm e1, h0]
        · by_cases zy : z = y
          · simp [zy, e1]
          · by_cases zx : z = x
            · simp [zx, hc, e2]
            · simp [z0, zy, zx]
      · dsimp only; rw [upd_ne _ _ (Ne.symm e1), upd_ne _ _ (Ne.symm e2)]; exact h0
    · cases hs
  | dtor x =>
    simp only [specRun] at hs; split at hs <;> cases hs; rename_i hc
    obtain ⟨u, hu⟩ := Option.ne_none_iff_exists'.1 hc
    obtain ⟨W', h1, h2, h3⟩ := h.dtor hu
    exact ⟨W', h1, h2, by simp only [upd]; split <;> simp [h0], h3.trans ht⟩
  | call x =>
    simp only [specRun] at hs; split at hs
    · cases hs; rename_i hx
      obtain ⟨o, ho, hr⟩ := h.exists_obj hx
      refine ⟨{ W with trace := W.trace ++ [.badCall] }, ?_, ⟨h.dom, h.rep, h.own, h.inj, h.live, h.once, h.fresh⟩,
        h0, by dsimp only; rw [ht]⟩
      obtain ⟨vt, sl⟩ := o
      cases vt <;> cases sl <;> simp [Rep] at hr <;> simp [Task.run, Task.call, ho]
    · cases hs; rename_i c hx
      obtain ⟨o, ho, hr⟩ := h.exists_obj hx
      have own := fun i => h.own x o i ho
      refine ⟨{ W with trace := W.trace ++ [.called c] }, ?_,
        ⟨h.dom, h.rep, h.own, h.inj, h.live, h.once, h.fresh⟩, h0, by dsimp only; rw [ht]⟩
      obtain ⟨vt, sl⟩ := o
      cases vt <;> cases sl <;> simp [Rep] at hr <;> simp_all [Task.run, Task.call, alive]
    · cases hs

theorem R.exec {W : World} {S S' : Spec} (h : R W S.sv) (h0 : S.sv 0 = none) (ht : W.trace = S.trace)
    {as : List Op} (hs : specExec S as = some S') :
    ∃ W', Task.exec W as = some W' ∧ R W' S'.sv ∧ W'.trace = S'.trace := by
  induction as generalizing W S with
  | nil => cases hs; exact ⟨W, rfl, h, ht⟩
  | cons a as ih =>
    simp only [specExec] at hs; split at hs
    · cases hs
    · rename_i S1 h1
      obtain ⟨W1, e1, r1, z1, t1⟩ := h.run h0 ht h1
      obtain ⟨W2, e2, r2, t2⟩ := ih r1 z1 t1 hs
      exact ⟨W2, by simp [Task.exec, e1, e2], r2, t2⟩

/-! ## The property -/

/-- Every allowed history runs without undefined behaviour (no use of a destroyed or null function object), and
its calls are exactly those of the specification: each call reaches the callable the task was last given, or
throws `bad_function_call` on an empty task. -/
theorem c29_calls_partial (as : List Op) (S : Spec) (hs : specExec {} as = some S) :
    ∃ W, exec {} as = some W ∧ W.trace = S.trace := by
  obtain ⟨W, h1, _, h3⟩ := R.exec (W := {}) (S := {}) R.init rfl rfl hs
  exact ⟨W, h1, h3⟩

/-- In every allowed history each function object is destroyed at most once, and exactly once if all tasks have
been destroyed. -/
theorem c29_destroyed_once_partial (as : List Op) (S : Spec) (hs : specExec {} as = some S) :
    ∃ W, exec {} as = some W ∧ (∀ i, W.dtors i ≤ 1) ∧
      ((∀ x, S.sv x = none) → ∀ i, i < W.next → W.dtors i = 1) := by
  obtain ⟨W, h1, h2, _⟩ := R.exec (W := {}) (S := {}) R.init rfl rfl hs
  refine ⟨W, h1, h2.once, fun hn i hi => ?_⟩
  have := h2.once i
  refine Classical.byContradiction fun hne => ?_
  obtain ⟨x, o, hx, _⟩ := h2.live i hi (by omega)
  rw [(h2.dom x).2 (hn x)] at hx; cases hx

/-- Distinct tasks never share a function object. -/
theorem c29_unique_owner_partial (as : List Op) (S : Spec) (hs : specExec {} as = some S) :
    ∃ W, exec {} as = some W ∧ ∀ x y o p i, W.obj x = some o → W.obj y = some p →
      o.slot = .inst i → p.slot = .inst i → x = y := by
  obtain ⟨W, h1, h2, _⟩ := R.exec (W := {}) (S := {}) R.init rfl rfl hs
  exact ⟨W, h1, h2.inj⟩

/-- `operator bool` tells whether a task holds a callable, for tasks that have not been moved from. -/
theorem c29_bool_partial (as : List Op) (S : Spec) (hs : specExec {} as = some S) :
    ∃ W, exec {} as = some W ∧ ∀ x, (S.sv x = some .empty → toBool W x = some false) ∧
      ∀ c, S.sv x = some (.holds c) → toBool W x = some true := by
  obtain ⟨W, h1, h2, _⟩ := R.exec (W := {}) (S := {}) R.init rfl rfl hs
  refine ⟨W, h1, fun x => ⟨fun hx => ?_, fun c hx => ?_⟩⟩ <;> obtain ⟨⟨vt, sl⟩, ho, hr⟩ := h2.exists_obj hx <;>
    cases vt <;> cases sl <;> simp [Rep] at hr <;> simp [toBool, ho]

/-- A history that uses every operation on small and large callables. -/
def demo : List Op :=
  [.ctorF 1 (some 7) false, .ctorF 2 (some 8) true, .swap 1 2, .call 1, .call 2, .moveCtor 3 1, .assign 1 2,
   .assignF 2 (some 9) true, .call 2, .reset 3, .call 3, .call 1, .dtor 1, .dtor 2, .dtor 3]

example : (specExec {} demo).map (·.trace) =
    some [.called 8, .called 7, .called 9, .badCall, .called 7] := by decide
example : (exec {} demo).map (fun W => (W.next, (List.range W.next).map W.dtors)) =
    some (6, [1, 1, 1, 1, 1, 1]) := by decide
example : (specExec {} demo).map (fun S => (List.range 4).map S.sv) = some [none, none, none, none] := by decide

/-! ## Where the code does not meet the unrestricted property -/

/-- Self-move-assignment destroys the callable and then moves from it: undefined behaviour for every task that
holds a callable, small or large (task.hpp:226-232 has no self check). -/
theorem c29_self_assign_counterexample (c : Nat) (l : Bool) : exec {} [.ctorF 1 (some c) l, .assign 1 1] = none := by
  cases l <;> simp [exec, run, ctorF, assign, dtorModel, moveModel, upd]

/-- So does swapping a task with itself (task.hpp:243, through `std::swap`). -/
theorem c29_self_swap_counterexample (c : Nat) (l : Bool) : exec {} [.ctorF 1 (some c) l, .swap 1 1] = none := by
  cases l <;> simp [exec, run, ctorF, swap, assign, moveCtor, dtorModel, moveModel, upd, alive]

/-- A moved-from task is not reported empty when its callable is small, and calling it calls the moved-from
function object instead of throwing `bad_function_call`; when the callable is large the task reports itself
empty but calling it dereferences a null pointer. -/
theorem c29_moved_from_counterexample (c : Nat) :
    (∃ W, exec {} [.ctorF 1 (some c) false, .moveCtor 2 1] = some W ∧ toBool W 1 = some true ∧
      ∃ W', call W 1 = some W' ∧ W'.trace = [.calledMoved]) ∧
    (∃ W, exec {} [.ctorF 1 (some c) true, .moveCtor 2 1] = some W ∧ toBool W 1 = some false ∧
      call W 1 = none) := by
  constructor
  · refine ⟨_, rfl, ?_, _, rfl, ?_⟩ <;> rfl
  · refine ⟨_, rfl, ?_, ?_⟩ <;> rfl

end Verif.Task
