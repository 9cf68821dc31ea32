import Verif.Future.When

/-!
# Invariant of `when_all` and `when_any`
-/

namespace Verif.When

open Verif.Shared (Err Outcome upd)

/-! ## Counting -/

/-- How many `i < n` satisfy `p`. -/
def cnt (p : Nat → Bool) : Nat → Nat
  | 0 => 0
  | n + 1 => cnt p n + if p n then 1 else 0

theorem cnt_le (p : Nat → Bool) (n : Nat) : cnt p n ≤ n := by
  induction n with
  | zero => simp [cnt]
  | succ n ih => simp only [cnt]; split <;> omega

theorem cnt_full {p : Nat → Bool} {n : Nat} (h : cnt p n = n) : ∀ i, i < n → p i = true := by
  induction n with
  | zero => omega
  | succ n ih =>
    have := cnt_le p n
    simp only [cnt] at h
    split at h
    · intro i hi
      rcases Nat.lt_succ_iff_lt_or_eq.1 hi with hi | rfl
      · exact ih (by omega) i hi
      · assumption
    · omega

theorem cnt_all {p : Nat → Bool} {n : Nat} (h : ∀ i, i < n → p i = true) : cnt p n = n := by
  induction n with
  | zero => rfl
  | succ n ih => simp only [cnt, ih (fun i hi => h i (by omega)), h n (by omega), if_true]

theorem cnt_congr {p q : Nat → Bool} {n : Nat} (h : ∀ i, i < n → p i = q i) : cnt p n = cnt q n := by
  induction n with
  | zero => rfl
  | succ n ih => simp only [cnt, ih (fun i hi => h i (by omega)), h n (by omega)]

theorem cnt_add {p q : Nat → Bool} {n i : Nat} (hi : i < n) (hp : p i = false) (hq : q i = true)
    (h : ∀ j, j ≠ i → q j = p j) : cnt q n = cnt p n + 1 := by
  induction n with
  | zero => omega
  | succ n ih =>
    simp only [cnt]
    by_cases hn : i = n
    · subst hn
      rw [cnt_congr (q := p) (fun j hj => h j (by omega)), hp, hq]; simp
    · rw [ih (by omega), h n (Ne.symm hn)]; omega

/-! ## Which traces are legal (stated without reference to the machine) -/

/-- The errors the context learned of, in that order. -/
def errs (t : List Event) : List Err := t.filterMap fun
  | .seen _ (.exc e) => some e
  | _ => none

/-- The values the context learned of, with the index of the argument, in that order. -/
def vals (t : List Event) : List (Nat × Nat) := t.filterMap fun
  | .seen i (.val v) => some (v, i)
  | _ => none

/-- What the result must be, given the history. -/
def Expect (m : Mode) (n : Nat) (t : List Event) : Event → Prop
  | .called xs idx =>
    if m.isAll then idx = none ∧ xs.length = n ∧ ∀ i v, xs[i]? = some v → .seen i (.val v) ∈ t
    else ∃ v i, (vals t).head? = some (v, i) ∧ xs = [v] ∧ idx = some i
  | .failed e =>
    if m.isAll then (errs t).head? = some e
    else (errs t).getLast? = some e ∧ ∀ i, i < n → ∃ e', .seen i (.exc e') ∈ t
  | _ => True

/-- May event `e` follow history `t`? -/
def Ok (m : Mode) (n : Nat) (t : List Event) : Event → Prop
  | .argRes i _ => i < n ∧ ∀ o, .argRes i o ∉ t
  | .seen i o => .argRes i o ∈ t ∧ ∀ o', .seen i o' ∉ t
  | .called xs idx => (∀ ys j, .called ys j ∉ t) ∧ (∀ e, .failed e ∉ t) ∧ .dropped ∉ t ∧ Expect m n t (.called xs idx)
  | .failed e => (∀ ys j, .called ys j ∉ t) ∧ (∀ e, .failed e ∉ t) ∧ .dropped ∉ t ∧ Expect m n t (.failed e)
  | .dropped => .dropped ∉ t
  | .discarded _ => True

inductive Legal (m : Mode) (n : Nat) : List Event → Prop
  | nil : Legal m n []
  | snoc {t e} : Legal m n t → Ok m n t e → Legal m n (t ++ [e])

/-! ## The data in the context -/

/-- The condition for calling `_f`. -/
def trig (m : Mode) (c : Ctx) : Prop :=
  match m with
  | .allPack | .allRange => c.exc ≠ none ∨ c.remaining = 0
  | .anyPack | .anyRange => c.index ≠ none ∨ c.remaining = 0

/-- The context knows of an error of argument `i`. -/
def bad (t : List Event) (i : Nat) : Bool := t.any fun
  | .seen j (.exc _) => j = i
  | _ => false

structure AllData (n : Nat) (t : List Event) (c : Ctx) : Prop where
  exc : c.exc = (errs t).head?
  slot : ∀ i v, c.slots i = some v → .seen i (.val v) ∈ t
  slot' : c.exc = none → ∀ i v, .seen i (.val v) ∈ t → c.slots i = some v
  cnt : c.remaining + cnt (fun i => (c.slots i).isSome) n = n

structure AnyData (n : Nat) (t : List Event) (c : Ctx) : Prop where
  first : (vals t).head? = (c.arg.bind fun v => c.index.map fun i => (v, i))
  both : c.arg.isSome = c.index.isSome
  cnt : c.remaining + cnt (bad t) n = n
  exc : c.exc = if c.remaining = 0 then (errs t).getLast? else none

def Data (m : Mode) (n : Nat) (t : List Event) (c : Ctx) : Prop :=
  match m with
  | .allPack => AllData n t c
  | .allRange => AllData n t c ∧ c.single = c.exc.isSome
  | .anyPack => AnyData n t c
  | .anyRange => AnyData n t c ∧ c.single = c.index.isSome

/-- Each argument is seen at most once, with one outcome, and is one of the `n`. -/
structure SeenOk (n : Nat) (t : List Event) : Prop where
  lt : ∀ i o, .seen i o ∈ t → i < n
  uniq : ∀ i o o', .seen i o ∈ t → .seen i o' ∈ t → o = o'

theorem bad_iff {t : List Event} {i : Nat} : bad t i = true ↔ ∃ e, .seen i (.exc e) ∈ t := by
  simp only [bad, List.any_eq_true]
  constructor
  · rintro ⟨x, hx, h⟩
    split at h
    · rename_i j e
      simp at h; subst h; exact ⟨e, hx⟩
    · cases h
  · rintro ⟨e, h⟩; exact ⟨_, h, by simp⟩

theorem errs_mem {t : List Event} {e : Err} : e ∈ errs t ↔ ∃ i, .seen i (.exc e) ∈ t := by
  simp only [errs, List.mem_filterMap]
  constructor
  · rintro ⟨x, hx, h⟩
    split at h
    · rename_i j e'
      simp at h; subst h; exact ⟨_, hx⟩
    · cases h
  · rintro ⟨i, h⟩; exact ⟨_, h, rfl⟩

theorem vals_mem {t : List Event} {v i : Nat} : (v, i) ∈ vals t ↔ .seen i (.val v) ∈ t := by
  simp only [vals, List.mem_filterMap]
  constructor
  · rintro ⟨x, hx, h⟩
    split at h
    · rename_i j e'
      simp at h; obtain ⟨rfl, rfl⟩ := h; exact hx
    · cases h
  · intro h; exact ⟨_, h, rfl⟩

theorem errs_exc (t : List Event) (i : Nat) (e : Err) : errs (t ++ [.seen i (.exc e)]) = errs t ++ [e] := by
  simp [errs]

theorem errs_val (t : List Event) (i v : Nat) : errs (t ++ [.seen i (.val v)]) = errs t := by simp [errs]

theorem vals_exc (t : List Event) (i : Nat) (e : Err) : vals (t ++ [.seen i (.exc e)]) = vals t := by simp [vals]

theorem vals_val (t : List Event) (i v : Nat) : vals (t ++ [.seen i (.val v)]) = vals t ++ [(v, i)] := by
  simp [vals]

theorem bad_val (t : List Event) (i v : Nat) : bad (t ++ [.seen i (.val v)]) = bad t := by
  funext j; simp [bad]

theorem AllData.full {n : Nat} {t : List Event} {c : Ctx} (D : AllData n t c) (h : c.remaining = 0) :
    ∀ i, i < n → ∃ v, c.slots i = some v := by
  have := D.cnt
  intro i hi
  have := cnt_full (p := fun i => (c.slots i).isSome) (by omega) i hi
  exact Option.isSome_iff_exists.1 this

theorem AnyData.full {n : Nat} {t : List Event} {c : Ctx} (D : AnyData n t c) (h : c.remaining = 0) :
    ∀ i, i < n → ∃ e, .seen i (.exc e) ∈ t := by
  have := D.cnt
  intro i hi
  exact bad_iff.1 (cnt_full (by omega) i hi)

/-- Adding a value to the slots. -/
theorem AllData.store {n : Nat} {t : List Event} {c : Ctx} (D : AllData n t c) {i v : Nat} (hi : i < n)
    (hn : ∀ o, .seen i o ∉ t) :
    AllData n (t ++ [.seen i (.val v)]) { c with slots := upd c.slots i (some v), remaining := c.remaining - 1 } ∧
    0 < c.remaining := by
  have h0 : c.slots i = none := by
    cases h : c.slots i with
    | none => rfl
    | some w => exact absurd (D.slot i w h) (hn _)
  have hr : 0 < c.remaining := by
    rcases Nat.eq_zero_or_pos c.remaining with h | h
    · obtain ⟨v, hv⟩ := D.full h i hi; rw [h0] at hv; cases hv
    · exact h
  refine ⟨⟨?_, ?_, ?_, ?_⟩, hr⟩
  · simp only [errs_val]; exact D.exc
  · intro j w h; simp only [upd] at h; split at h
    · simp only [Option.some.injEq] at h; subst j; subst h; simp
    · exact List.mem_append_left _ (D.slot j w h)
  · intro hx j w h
    simp only [List.mem_append, List.mem_singleton, Event.seen.injEq, Outcome.val.injEq] at h
    simp only [upd]
    split
    · rcases h with h | ⟨-, rfl⟩
      · subst j; exact absurd h (hn _)
      · rfl
    · rcases h with h | ⟨rfl, -⟩
      · exact D.slot' hx j w h
      · contradiction
  · have := cnt_add (p := fun i => (c.slots i).isSome) (q := fun j => (upd c.slots i (some v) j).isSome) hi
      (by simp [h0]) (by simp [upd]) (by intro j hj; simp [upd, hj])
    have := D.cnt
    simp only
    omega

theorem AnyData.fail {n : Nat} {t : List Event} {c : Ctx} (D : AnyData n t c) (S : SeenOk n t) {i : Nat} {e : Err}
    (hi : i < n) (hn : ∀ o, .seen i o ∉ t) :
    0 < c.remaining ∧ (c.remaining - 1 = 0 → c.index = none) ∧
    AnyData n (t ++ [.seen i (.exc e)])
      { c with remaining := c.remaining - 1, exc := if c.remaining - 1 = 0 then some e else c.exc } := by
  have h0 : bad t i = false := by
    rw [Bool.eq_false_iff]; intro h
    obtain ⟨e, h⟩ := bad_iff.1 h; exact hn _ h
  have hr : 0 < c.remaining := by
    rcases Nat.eq_zero_or_pos c.remaining with h | h
    · obtain ⟨v, hv⟩ := D.full h i hi; exact absurd hv (hn _)
    · exact h
  have hx := D.exc
  rw [if_neg (by omega)] at hx
  have D' : AnyData n (t ++ [.seen i (.exc e)])
      { c with remaining := c.remaining - 1, exc := if c.remaining - 1 = 0 then some e else c.exc } := by
    refine ⟨?_, D.both, ?_, ?_⟩
    · rw [vals_exc]; exact D.first
    · have := cnt_add (p := bad t) (q := bad (t ++ [.seen i (.exc e)])) hi h0 (by simp [bad])
        (by intro j hj; simp [bad, Ne.symm hj])
      have := D.cnt
      simp only
      omega
    · simp only [errs_exc]
      split
      · simp
      · exact hx
  refine ⟨hr, ?_, D'⟩
  intro h
  cases hc : c.index with
  | none => rfl
  | some j =>
    have hb := D.both
    rw [hc] at hb
    obtain ⟨v, hv⟩ := Option.isSome_iff_exists.1 (hb : c.arg.isSome = true)
    have hf := D.first
    rw [hv, hc] at hf
    have hj := vals_mem.1 (List.mem_of_mem_head? (Option.mem_def.2 hf))
    obtain ⟨e', he⟩ := D'.full h j (S.lt _ _ hj)
    simp only [List.mem_append, List.mem_singleton, Event.seen.injEq] at he
    rcases he with he | ⟨rfl, -⟩
    · cases S.uniq _ _ _ hj he
    · exact absurd hj (hn _)

theorem AnyData.succeed {n : Nat} {t : List Event} {c : Ctx} (D : AnyData n t c) {i v : Nat}
    (hi : i < n) (hn : ∀ o, .seen i o ∉ t) :
    0 < c.remaining ∧
    (c.index = none → AnyData n (t ++ [.seen i (.val v)]) { c with arg := some v, index := some i }) ∧
    (c.index ≠ none → AnyData n (t ++ [.seen i (.val v)]) c) := by
  have hr : 0 < c.remaining := by
    rcases Nat.eq_zero_or_pos c.remaining with h | h
    · obtain ⟨v, hv⟩ := D.full h i hi; exact absurd hv (hn _)
    · exact h
  refine ⟨hr, fun h => ?_, fun h => ?_⟩
  · have hf := D.first
    rw [h] at hf
    refine ⟨?_, rfl, ?_, ?_⟩
    · rw [vals_val, List.head?_append, hf]; cases c.arg <;> simp
    · rw [bad_val]; exact D.cnt
    · rw [errs_val]; exact D.exc
  · obtain ⟨j, hj⟩ := Option.ne_none_iff_exists'.1 h
    have hb := D.both
    rw [hj] at hb
    obtain ⟨w, hw⟩ := Option.isSome_iff_exists.1 (hb : c.arg.isSome = true)
    have hf := D.first
    refine ⟨?_, D.both, ?_, ?_⟩
    · rw [vals_val, List.head?_append, hf, hw, hj]; rfl
    · rw [bad_val]; exact D.cnt
    · rw [errs_val]; exact D.exc

/-- Data after a critical section: it holds of the longer history; `_f` is to be called iff the condition for it is new;
holds are reset only then. -/
theorem Data.crit {m : Mode} {n : Nat} {t : List Event} {c : Ctx} (D : Data m n t c) (S : SeenOk n t) {i : Nat}
    (hi : i < n) (hn : ∀ o, .seen i o ∉ t) (o : Outcome) :
    Data m n (t ++ [.seen i o]) (crit m c i o).1 ∧
    ((crit m c i o).2.2 = true ↔ ¬ trig m c ∧ trig m (crit m c i o).1) ∧
    (trig m c → trig m (crit m c i o).1) ∧
    ((crit m c i o).2.1 ≠ .keep → (crit m c i o).2.2 = true) := by
  cases m with
  | allPack =>
    simp only [Data] at *
    cases o with
    | val v =>
      simp only [When.crit]
      have ⟨h1, h2⟩ := D.store (v := v) hi hn
      by_cases hx : c.exc = none
      · rw [if_pos hx]
        refine ⟨h1, ?_, ?_, ?_⟩ <;> simp [trig, hx]
        · omega
        · omega
      · rw [if_neg hx]
        refine ⟨⟨?_, ?_, ?_, D.cnt⟩, ?_, ?_, ?_⟩
        · rw [errs_val]; exact D.exc
        · intro j w h; exact List.mem_append_left _ (D.slot j w h)
        · intro h; exact absurd h hx
        · simp [trig, hx]
        · simp [trig]
        · simp
    | exc e =>
      simp only [When.crit]
      by_cases hx : c.exc = none
      · rw [if_pos hx]
        have hr : c.remaining ≠ 0 := by
          intro h
          obtain ⟨v, hv⟩ := D.full h i hi
          exact hn _ (D.slot i v hv)
        have he := D.exc
        rw [hx] at he
        refine ⟨⟨?_, ?_, ?_, D.cnt⟩, ?_, ?_, ?_⟩
        · simp only [errs_exc, List.head?_append, ← he]; simp
        · intro j w h; exact List.mem_append_left _ (D.slot j w h)
        · simp
        · simp [trig, hx, hr]
        · simp [trig]
        · simp
      · rw [if_neg hx]
        have he := D.exc
        refine ⟨⟨?_, ?_, ?_, D.cnt⟩, ?_, ?_, ?_⟩
        · simp only [errs_exc, List.head?_append, ← he]
          cases hc : c.exc with
          | none => exact absurd hc hx
          | some => rfl
        · intro j w h; exact List.mem_append_left _ (D.slot j w h)
        · intro h; exact absurd h hx
        · simp [trig, hx]
        · simp [trig]
        · simp
  | allRange =>
    simp only [Data] at *
    obtain ⟨D, ds⟩ := D
    cases o with
    | val v =>
      simp only [When.crit]
      have ⟨h1, h2⟩ := D.store (v := v) hi hn
      refine ⟨⟨h1, ds⟩, ?_, ?_, ?_⟩
      · simp only [decide_eq_true_eq, trig]
        constructor
        · intro h
          refine ⟨?_, .inr h⟩
          rintro (hx | hx)
          · -- some argument failed, so not all of them can have been counted
            rw [D.exc] at hx
            obtain ⟨e, he⟩ := Option.ne_none_iff_exists'.1 hx
            obtain ⟨j, hj⟩ := errs_mem.1 (List.mem_of_mem_head? (Option.mem_def.2 he))
            obtain ⟨w, hw⟩ := h1.full h j (S.lt _ _ hj)
            have := h1.slot j w hw
            simp only [List.mem_append, List.mem_singleton, Event.seen.injEq] at this
            rcases this with h | ⟨rfl, -⟩
            · cases S.uniq _ _ _ hj h
            · exact hn _ hj
          · omega
        · rintro ⟨h, h' | h'⟩
          · exact absurd (.inl h') h
          · exact h'
      · simp only [trig]; rintro (h | h)
        · exact .inl h
        · omega
      · simp
    | exc e =>
      simp only [When.crit]
      have he := D.exc
      cases hs : c.single with
      | false =>
        rw [if_pos rfl]
        rw [hs] at ds
        have hx : c.exc = none := by cases h : c.exc <;> simp_all
        have hr : c.remaining ≠ 0 := by
          intro h
          obtain ⟨v, hv⟩ := D.full h i hi
          exact hn _ (D.slot i v hv)
        rw [hx] at he
        refine ⟨⟨⟨?_, ?_, ?_, D.cnt⟩, ?_⟩, ?_, ?_, ?_⟩
        · simp only [errs_exc, List.head?_append, ← he]; simp
        · intro j w h; exact List.mem_append_left _ (D.slot j w h)
        · simp
        · simp
        · simp [trig, hx, hr]
        · simp [trig]
        · simp
      | true =>
        rw [if_neg (by simp)]
        rw [hs] at ds
        have hx : c.exc ≠ none := by intro h; rw [h] at ds; cases ds
        refine ⟨⟨⟨?_, ?_, ?_, D.cnt⟩, hs.trans ds⟩, ?_, ?_, ?_⟩
        · simp only [errs_exc, List.head?_append, ← he]
          cases hc : c.exc with
          | none => exact absurd hc hx
          | some => rfl
        · intro j w h; exact List.mem_append_left _ (D.slot j w h)
        · intro h; exact absurd h hx
        · simp [trig, hx]
        · simp [trig]
        · simp
  | anyPack =>
    simp only [Data] at *
    cases o with
    | val v =>
      have ⟨h1, h2, h3⟩ := D.succeed (v := v) hi hn
      simp only [When.crit]
      split
      · rename_i h
        refine ⟨h2 h, ?_, ?_, ?_⟩ <;> simp [trig, h]
        omega
      · rename_i h
        refine ⟨h3 h, ?_, ?_, ?_⟩ <;> simp [trig, h]
    | exc e =>
      have ⟨h1, h2, h3⟩ := D.fail (e := e) S hi hn
      simp only [When.crit]
      split
      · rename_i h
        rw [if_pos h] at h3
        refine ⟨h3, ?_, ?_, ?_⟩ <;> simp [trig, h, h2 h]
        omega
      · rename_i h
        rw [if_neg h] at h3
        refine ⟨h3, ?_, ?_, ?_⟩ <;> simp only [trig] <;> grind
  | anyRange =>
    simp only [Data] at *
    obtain ⟨D, ds⟩ := D
    cases o with
    | val v =>
      have ⟨h1, h2, h3⟩ := D.succeed (v := v) hi hn
      simp only [When.crit]
      split
      · rename_i h
        have h : c.index = none := by rw [h] at ds; cases h' : c.index <;> simp_all
        have h2 := h2 h
        refine ⟨⟨⟨h2.first, h2.both, h2.cnt, h2.exc⟩, rfl⟩, ?_, ?_, ?_⟩ <;> simp [trig, h]
        omega
      · rename_i h
        have h : c.index ≠ none := by intro h'; rw [h'] at ds; exact h ds
        refine ⟨⟨h3 h, ds⟩, ?_, ?_, ?_⟩ <;> simp [trig, h]
    | exc e =>
      have ⟨h1, h2, h3⟩ := D.fail (e := e) S hi hn
      simp only [When.crit]
      split
      · rename_i h
        rw [if_pos h] at h3
        refine ⟨⟨h3, ds⟩, ?_, ?_, ?_⟩ <;> simp [trig, h, h2 h]
        omega
      · rename_i h
        rw [if_neg h] at h3
        refine ⟨⟨h3, ds⟩, ?_, ?_, ?_⟩ <;> simp only [trig] <;> grind

/-! ## What calling `_f` does -/

theorem collect_some {f : Nat → Option Nat} {n : Nat} (h : ∀ i, i < n → ∃ v, f i = some v) :
    ∃ xs, collect f n = some xs := by
  induction n with
  | zero => exact ⟨[], rfl⟩
  | succ n ih =>
    obtain ⟨xs, hx⟩ := ih fun i hi => h i (by omega)
    obtain ⟨v, hv⟩ := h n (by omega)
    exact ⟨xs ++ [v], by simp [collect, hx, hv]⟩

theorem collect_spec {f : Nat → Option Nat} {n : Nat} {xs : List Nat} (h : collect f n = some xs) :
    xs.length = n ∧ ∀ i v, xs[i]? = some v → f i = some v := by
  induction n generalizing xs with
  | zero => simp [collect] at h; subst h; simp
  | succ n ih =>
    simp only [collect] at h
    split at h
    · rename_i ys y hy hf
      simp only [Option.some.injEq] at h
      subst h
      obtain ⟨h1, h2⟩ := ih hy
      refine ⟨by simp [h1], ?_⟩
      intro i v hv
      rw [List.getElem?_append] at hv
      split at hv
      · exact h2 i v hv
      · rename_i hi
        have : i - ys.length = 0 := by
          rcases Nat.eq_zero_or_pos (i - ys.length) with h | h
          · exact h
          · rw [List.getElem?_eq_none (by simp; omega)] at hv; cases hv
        rw [this] at hv
        simp at hv
        have : i = n := by omega
        rw [this, hf, hv]
    · cases h

theorem AnyData.call {n : Nat} {t : List Event} {c : Ctx} (D : AnyData n t c) (h0 : 0 < n)
    (h : c.index ≠ none ∨ c.remaining = 0) :
    (∃ e, c.exc = some e ∧ ∀ m : Mode, m.isAll = false → Expect m n t (.failed e)) ∨
    (∃ v i, c.exc = none ∧ c.arg = some v ∧ c.index = some i ∧
      ∀ m : Mode, m.isAll = false → Expect m n t (.called [v] (some i))) := by
  cases hc : c.exc with
  | some e =>
    have hx := D.exc
    rw [hc] at hx
    split at hx
    · rename_i hr
      refine .inl ⟨e, rfl, fun m hm => ?_⟩
      simp only [Expect, hm, Bool.false_eq_true, if_false]
      exact ⟨hx.symm, D.full hr⟩
    · cases hx
  | none =>
    have hi : c.index ≠ none := by
      rcases h with h | h
      · exact h
      · have hx := D.exc
        rw [hc, if_pos h] at hx
        obtain ⟨e, he⟩ := D.full h 0 h0
        have := errs_mem.2 ⟨0, he⟩
        rw [List.getLast?_eq_none_iff.1 hx.symm] at this
        cases this
    obtain ⟨i, hi⟩ := Option.ne_none_iff_exists'.1 hi
    have hb := D.both
    rw [hi] at hb
    obtain ⟨v, hv⟩ := Option.isSome_iff_exists.1 (hb : c.arg.isSome = true)
    refine .inr ⟨v, i, rfl, hv, hi, fun m hm => ?_⟩
    simp only [Expect, hm, Bool.false_eq_true, if_false]
    exact ⟨v, i, by rw [D.first, hv, hi]; rfl, rfl, rfl⟩

/-- If the condition for calling `_f` holds, the call does what the history demands. -/
theorem Data.call {m : Mode} {n : Nat} {t : List Event} {c : Ctx} (D : Data m n t c) (h0 : 0 < n)
    (h : trig m c) :
    (∃ xs idx, call m n c = .call xs idx ∧ Expect m n t (.called xs idx)) ∨
    (∃ e, call m n c = .throw e ∧ Expect m n t (.failed e)) := by
  cases m with
  | allPack =>
    simp only [Data, trig] at *
    simp only [When.call]
    split
    · rename_i xs hx
      obtain ⟨h1, h2⟩ := collect_spec hx
      exact .inl ⟨xs, none, rfl, by
        simp only [Expect, Mode.isAll, if_true]
        exact ⟨trivial, h1, fun i v hv => D.slot i v (h2 i v hv)⟩⟩
    · rename_i hx
      rcases h with h | h
      · obtain ⟨e, he⟩ := Option.ne_none_iff_exists'.1 h
        rw [he]
        exact .inr ⟨e, rfl, by simp only [Expect, Mode.isAll, if_true]; rw [← D.exc, he]⟩
      · obtain ⟨xs, h'⟩ := collect_some (D.full h)
        rw [h'] at hx; cases hx
  | allRange =>
    simp only [Data, trig] at *
    simp only [When.call]
    cases hc : c.exc with
    | some e =>
      exact .inr ⟨e, rfl, by simp only [Expect, Mode.isAll, if_true]; rw [← D.1.exc, hc]⟩
    | none =>
      have hr : c.remaining = 0 := by rcases h with h | h; exact absurd hc h; exact h
      refine .inl ⟨_, _, rfl, ?_⟩
      simp only [Expect, Mode.isAll, if_true]
      refine ⟨trivial, by simp, fun i v hv => ?_⟩
      have hi : i < n := by
        rcases Nat.lt_or_ge i n with h | h
        · exact h
        · rw [List.getElem?_eq_none (by simp; omega)] at hv; cases hv
      obtain ⟨w, hw⟩ := D.1.full hr i hi
      rw [List.getElem?_map, List.getElem?_range hi] at hv
      simp only [Option.map_some, hw, Option.getD_some, Option.some.injEq] at hv
      exact D.1.slot i v (hv ▸ hw)
  | anyPack =>
    simp only [Data, trig] at *
    rcases D.call h0 h with ⟨e, h1, h2⟩ | ⟨v, i, h1, h2, h3, h4⟩
    · exact .inr ⟨e, by simp [When.call, h1], h2 _ rfl⟩
    · exact .inl ⟨[v], some i, by simp [When.call, h1, h2, h3], h4 _ rfl⟩
  | anyRange =>
    simp only [Data, trig] at *
    rcases D.1.call h0 h with ⟨e, h1, h2⟩ | ⟨v, i, h1, h2, h3, h4⟩
    · exact .inr ⟨e, by simp [When.call, h1], h2 _ rfl⟩
    · exact .inl ⟨[v], some i, by simp [When.call, h1, h2, h3], h4 _ rfl⟩

/-! ## Invariant -/

/-- Being called. -/
def isRunning : Pc → Prop
  | .running _ | .fire => True
  | _ => False

structure Inv (m : Mode) (n : Nat) (s : St) : Prop where
  npos : 0 < n
  argt : ∀ i o, .argRes i o ∈ s.trace ↔ s.arg i = some o
  seen : ∀ i o, .seen i o ∈ s.trace → s.arg i = some o ∧ i < n ∧ (s.pc i = .fire ∨ s.pc i = .done)
  run : ∀ i o, s.pc i = .running o → s.arg i = some o
  attb : ∀ i, s.pc i ≠ .none ↔ i < s.att
  attn : s.att ≤ n
  sch : ∀ i, s.pc i = .sched → s.arg i ≠ none
  que : ∀ i, s.pc i = .queued → s.arg i = none
  mem : ∀ i, i ∈ s.running ↔ isRunning (s.pc i)
  nd : s.running.Nodup
  hol : ∀ i, s.hold i = .none ↔ s.att ≤ i
  loc : ∀ i, s.hold i = .loc → i + 1 = s.att
  res : ∀ i, s.hold i = .reset → trig m s.ctx
  fire1 : ∀ i j, s.pc i = .fire → s.pc j = .fire → i = j
  fire2 : ∀ i, s.pc i = .fire → trig m s.ctx ∧ s.fired = false
  trg : trig m s.ctx → s.fired = true ∨ (∃ i, s.pc i = .fire) ∨ s.kept = false
  frd : s.fired = true → trig m s.ctx
  evc : (∃ xs i, .called xs i ∈ s.trace) ∨ (∃ e, .failed e ∈ s.trace) ↔ s.fired = true
  drp : .dropped ∈ s.trace ↔ s.kept = false
  don : ∀ i, s.pc i = .done → (∃ o, .seen i o ∈ s.trace) ∨ trig m s.ctx ∨ s.kept = false
  lst : ∀ i, s.pc i = .lost → .discarded i ∈ s.trace
  data : Data m n s.trace s.ctx
  legal : Legal m n s.trace

theorem not_trig_init (m : Mode) {n : Nat} (h : 0 < n) : ¬ trig m { remaining := n } := by
  cases m <;> simp [trig] <;> omega

theorem cnt_none (n : Nat) : cnt (fun _ => false) n = 0 := by
  induction n with
  | zero => rfl
  | succ n ih => simp [cnt, ih]

theorem Inv.init (m : Mode) {n : Nat} (h : 0 < n) : Inv m n (init n) := by
  have := not_trig_init m h
  have hn := cnt_none n
  have hb : bad [] = fun _ => false := by funext; simp [bad]
  constructor <;> simp [When.init, isRunning, *]
  · cases m <;> simp [Data] <;> constructor <;> simp [errs, vals, hn, hb] <;> omega
  · exact .nil

theorem Inv.seenOk {m : Mode} {n : Nat} {s : St} (I : Inv m n s) : SeenOk n s.trace :=
  ⟨fun i o h => (I.seen i o h).2.1, fun i o o' h h' => by
    have h1 := (I.seen i o h).1
    have h2 := (I.seen i o' h').1
    rw [h1] at h2; cases h2; rfl⟩

/-- Data depends on the history only through what has been seen. -/
theorem Data.other {m : Mode} {n : Nat} {t : List Event} {c : Ctx} (D : Data m n t c) {e : Event}
    (h : ∀ i o, e ≠ .seen i o) : Data m n (t ++ [e]) c := by
  have h1 : errs (t ++ [e]) = errs t := by
    simp only [errs, List.filterMap_append]
    cases e <;> simp_all
  have h2 : vals (t ++ [e]) = vals t := by
    simp only [vals, List.filterMap_append]
    cases e <;> simp_all
  have h3 : bad (t ++ [e]) = bad t := by
    funext i; simp only [bad, List.any_append]
    cases e <;> simp_all
  have h4 : ∀ i o, .seen i o ∈ t ++ [e] ↔ .seen i o ∈ t := by
    intro i o; simp [(h i o).symm]
  have a : ∀ {c}, AllData n t c → AllData n (t ++ [e]) c := fun D =>
    ⟨by rw [h1]; exact D.exc, fun i v hv => (h4 _ _).2 (D.slot i v hv), fun hx i v hv => D.slot' hx i v ((h4 _ _).1 hv),
      D.cnt⟩
  have b : ∀ {c}, AnyData n t c → AnyData n (t ++ [e]) c := fun D =>
    ⟨by rw [h2]; exact D.first, D.both, by rw [h3]; exact D.cnt, by rw [h1]; exact D.exc⟩
  cases m <;> simp only [Data] at *
  · exact a D
  · exact b D
  · exact ⟨a D.1, D.2⟩
  · exact ⟨b D.1, D.2⟩

attribute [local grind =] upd isRunning resets
attribute [local grind] Inv
attribute [local grind .] Legal.snoc

theorem Inv.resolve {m : Mode} {n : Nat} {s s' : St} (I : Inv m n s) {i : Nat} {o : Outcome}
    (e : step m n s (.resolve i o) = .ok s') : Inv m n s' := by
  simp only [step] at e
  split at e
  · cases e
    have D := I.data.other (e := .argRes i o) (by simp)
    have L : Legal m n (s.trace ++ [.argRes i o]) := .snoc I.legal (by simp only [Ok]; grind)
    constructor
    case trg =>
      intro h
      rcases I.trg h with h | ⟨j, hj⟩ | h
      · exact .inl h
      · exact .inr (.inl ⟨j, by grind⟩)
      · exact .inr (.inr h)
    all_goals grind
  · cases e

theorem Inv.attach {m : Mode} {n : Nat} {s s' : St} (I : Inv m n s) (e : step m n s .attach = .ok s') : Inv m n s' := by
  simp only [step] at e
  split at e
  · cases e
    have h0 : s.pc s.att = .none := by grind
    constructor
    case trg =>
      intro h
      rcases I.trg h with h | ⟨j, hj⟩ | h
      · exact .inl h
      · exact .inr (.inl ⟨j, by grind⟩)
      · exact .inr (.inr h)
    all_goals grind
  · cases e

theorem Inv.store {m : Mode} {n : Nat} {s s' : St} (I : Inv m n s) (e : step m n s .store = .ok s') : Inv m n s' := by
  simp only [step] at e
  split at e
  · cases e
    constructor
    case trg =>
      intro h
      rcases I.trg h with h | ⟨j, hj⟩ | h
      · exact .inl h
      · exact .inr (.inl ⟨j, by grind⟩)
      · exact .inr (.inr h)
    all_goals grind
  · cases e

theorem Inv.run' {m : Mode} {n : Nat} {s s' : St} (I : Inv m n s) {i : Nat} (e : step m n s (.run i) = .ok s') :
    Inv m n s' := by
  simp only [step] at e
  split at e
  · cases e
  rename_i hp
  have hp : s.pc i = .sched := by grind
  split at e
  · rename_i h
    cases e
    have key : trig m s.ctx ∨ s.kept = false := by
      have hn : s.hold i ≠ .none := by grind
      have na : s.alive n = false → trig m s.ctx ∨ s.kept = false := by
        intro h
        simp only [St.alive, Bool.or_eq_false_iff] at h
        have := h.1.2
        cases hk : s.kept <;> cases hf : s.fired <;> simp_all
        exact I.frd hf
      rcases h with h | h
      · simp only [St.held, Bool.or_eq_false_iff, Bool.and_eq_false_iff, decide_eq_false_iff_not] at h
        rcases h.2 with h2 | h2
        · left; exact I.res i (by cases hh : s.hold i <;> simp_all)
        · exact na h2
      · exact na h
    constructor
    case trg =>
      intro h
      rcases I.trg h with h | ⟨j, hj⟩ | h
      · exact .inl h
      · exact .inr (.inl ⟨j, by grind⟩)
      · exact .inr (.inr h)
    all_goals grind
  · split at e
    · cases e
    · cases e
      constructor
      case trg =>
        intro h
        rcases I.trg h with h | ⟨j, hj⟩ | h
        · exact .inl h
        · exact .inr (.inl ⟨j, by grind⟩)
        · exact .inr (.inr h)
      all_goals grind

theorem Inv.crit {m : Mode} {n : Nat} {s s' : St} (I : Inv m n s) {i : Nat} (e : step m n s (.crit i) = .ok s') :
    Inv m n s' := by
  simp only [step] at e
  split at e
  · rename_i o hp
    have hi : i < n := by grind
    have hs : ∀ o, .seen i o ∉ s.trace := by grind
    have ⟨D, h1, h2, h3⟩ := I.data.crit I.seenOk hi hs o
    have L : Legal m n (s.trace ++ [.seen i o]) := .snoc I.legal (by simp only [Ok]; grind)
    have nd := I.nd.erase i
    have me : ∀ j, j ∈ s.running.erase i ↔ j ≠ i ∧ j ∈ s.running := fun j => I.nd.mem_erase_iff
    cases e
    generalize hr : When.crit m s.ctx i o = r at *
    obtain ⟨c, re, b⟩ := r
    simp only at D h1 h2 h3 ⊢
    have rs : ∀ j, resets re s.hold j = s.hold j ∨ (resets re s.hold j = .reset ∧ s.hold j = .stored ∧ b = true) := by
      intro j; cases re <;> simp only [resets] <;> grind
    constructor
    case trg =>
      intro h
      by_cases ht : trig m s.ctx
      · rcases I.trg ht with h | ⟨j, hj⟩ | h
        · exact .inl h
        · exact .inr (.inl ⟨j, by grind⟩)
        · exact .inr (.inr h)
      · exact .inr (.inl ⟨i, by grind⟩)
    all_goals grind
  · cases e

theorem Inv.fire {m : Mode} {n : Nat} {s s' : St} (I : Inv m n s) {i : Nat} (e : step m n s (.fire i) = .ok s') :
    Inv m n s' := by
  simp only [step] at e
  split at e
  · cases e
  have nd := I.nd.erase i
  have me : ∀ j, j ∈ s.running.erase i ↔ j ≠ i ∧ j ∈ s.running := fun j => I.nd.mem_erase_iff
  split at e
  · cases e
    constructor
    case trg =>
      grind
    all_goals grind
  split at e
  · cases e
  have ht := (I.fire2 i (by grind)).1
  split at e
  · cases e
  · rename_i xs idx hc
    cases e
    have L : Legal m n (s.trace ++ [.called xs idx]) := by
      refine .snoc I.legal ?_
      have hx : Expect m n s.trace (.called xs idx) := by
        rcases I.data.call I.npos ht with ⟨xs', idx', h, h'⟩ | ⟨e', h, h'⟩
        · rw [hc] at h; cases h; exact h'
        · rw [hc] at h; cases h
      simp only [Ok]; grind
    have D := I.data.other (e := .called xs idx) (by simp)
    constructor
    case trg =>
      grind
    all_goals grind
  · rename_i er hc
    cases e
    have L : Legal m n (s.trace ++ [.failed er]) := by
      refine .snoc I.legal ?_
      have hx : Expect m n s.trace (.failed er) := by
        rcases I.data.call I.npos ht with ⟨xs', idx', h, h'⟩ | ⟨e', h, h'⟩
        · rw [hc] at h; cases h
        · rw [hc] at h; cases h; exact h'
      simp only [Ok]; grind
    have D := I.data.other (e := .failed er) (by simp)
    constructor
    case trg =>
      grind
    all_goals grind

theorem Inv.drop {m : Mode} {n : Nat} {s s' : St} (I : Inv m n s) (e : step m n s .drop = .ok s') : Inv m n s' := by
  simp only [step] at e
  split at e
  · cases e
    have D := I.data.other (e := .dropped) (by simp)
    have L : Legal m n (s.trace ++ [.dropped]) := .snoc I.legal (by simp only [Ok]; grind)
    constructor
    case trg =>
      intro h
      rcases I.trg h with h | ⟨j, hj⟩ | h
      · exact .inl h
      · exact .inr (.inl ⟨j, by grind⟩)
      · exact .inr (.inr rfl)
    all_goals grind
  · cases e

theorem Inv.discard {m : Mode} {n : Nat} {s s' : St} (I : Inv m n s) {i : Nat} (e : step m n s (.discard i) = .ok s') :
    Inv m n s' := by
  simp only [step] at e
  split at e
  · cases e
    have D := I.data.other (e := .discarded i) (by simp)
    have L : Legal m n (s.trace ++ [.discarded i]) := .snoc I.legal trivial
    constructor
    case trg =>
      intro h
      rcases I.trg h with h | ⟨j, hj⟩ | h
      · exact .inl h
      · exact .inr (.inl ⟨j, by grind⟩)
      · exact .inr (.inr h)
    all_goals grind
  · cases e

theorem Inv.step {m : Mode} {n : Nat} {s s' : St} (I : Inv m n s) {a : Act} (e : step m n s a = .ok s') :
    Inv m n s' := by
  cases a with
  | resolve => exact I.resolve e
  | attach => exact I.attach e
  | store => exact I.store e
  | run => exact I.run' e
  | crit => exact I.crit e
  | fire => exact I.fire e
  | drop => exact I.drop e
  | discard => exact I.discard e

theorem Reachable.inv {m : Mode} {n : Nat} (h : 0 < n) {s : St} : Reachable m n s → Inv m n s := by
  rintro ⟨as, e⟩
  have I := Inv.init m h
  generalize When.init n = s0 at *
  induction as generalizing s0 with
  | nil => simp only [exec, Option.some.injEq] at e; exact e ▸ I
  | cons a as ih =>
    simp only [exec] at e
    split at e
    · exact ih _ e (I.step ‹_›)
    · cases e

end Verif.When
