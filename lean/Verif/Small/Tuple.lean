/-!
# Tuple algorithms (include/stlab/concurrency/tuple_algorithm.hpp, include/stlab/utility.hpp)

A tuple is a list of its elements. The recursion over the template arguments is a recursion over numbers. What depends on
the types of the elements only (placeholders) depends on a list of flags of the same length.
-/

namespace Verif.Tuple

variable {α β : Type}

/-- `tuple_find_impl`, tuple_algorithm.hpp lines 37-48: `i` is `I`, `n` is `L - I`. The elements are read by index. -/
def findImpl (op : α → Bool) (t : List α) : Nat → Nat → Nat
  | i, 0 => i
  | i, n + 1 => if (t[i]?.map op).getD false then i else findImpl op t (i + 1) n

/-- `tuple_find`, lines 114-120. -/
def tupleFind (op : α → Bool) (t : List α) : Nat := if t.length = 0 then 1 else findImpl op t 0 t.length

/-- `tuple_for_each`, lines 50-61, 125-128: the elements, in order of the calls of `op`; `op` may change them. -/
def forEachImpl (op : β → α → β) (t : List α) : Nat → Nat → β → β
  | _, 0, b => b
  | i, n + 1, b => match t[i]? with
    | some a => forEachImpl op t (i + 1) n (op b a)
    | none => b

def tupleForEach (op : β → α → β) (t : List α) (b : β) : β := forEachImpl op t 0 t.length b

/-- `get_i_impl`, lines 71-86. -/
def getImpl (f : α → β) (d : β) (t : List α) (index : Nat) : Nat → Nat → β
  | _, 0 => d
  | i, n + 1 => if index = i then (match t[i]? with
    | some a => f a
    | none => d) else getImpl f d t index (i + 1) n

/-- `get_i`, lines 134-138. -/
def getI (f : α → β) (d : β) (t : List α) (index : Nat) : β := getImpl f d t index 0 t.length

/-- `void_i_impl`, lines 88-103, with `f` as a change of the element. -/
def voidImpl (f : α → α) (index : Nat) : List α → Nat → Nat → List α
  | t, _, 0 => t
  | t, i, n + 1 => if index = i then t.modify i f else voidImpl f index t (i + 1) n

/-- `void_i`, lines 143-146. -/
def voidI (f : α → α) (t : List α) (index : Nat) : List α := voidImpl f index t 0 t.length

/-- `index_sequence_transform`, utility.hpp lines 78-102. -/
def transform (F : Nat → List Nat) (seq : List Nat) (index count : Nat) : List Nat :=
  if count = 0 then []
  else if count = 1 then (match seq[index]? with
    | some n => F n
    | none => [])
  else transform F seq index (count / 2) ++ transform F seq (index + count / 2) (count - count / 2)
termination_by count
decreasing_by all_goals omega

/-- `map_placeholder`, tuple_algorithm.hpp lines 174-187, and `remove_placeholder`, lines 230-237. The types of the tuple
are given by `ph`, which says where it is a placeholder (or an optional of it). -/
def removePlaceholder (ph : List Bool) (n : Nat) : List Nat := if ph[n]? = some true then [] else [n]

/-- `apply_impl` and `apply_optional_indexed_impl`, lines 154-163: the arguments of the call. -/
def applyImpl (t : List α) (seq : List Nat) : List α := seq.filterMap fun i => t[i]?

/-- The index sequence in future.hpp lines 1196-1198. -/
def argIndices (ph : List Bool) : List Nat := transform (removePlaceholder ph) (List.range ph.length) 0 ph.length

/-- What `f` is called with, or an exception. -/
inductive Applied (α : Type) where
  | call (args : List α)
  | rethrow
  deriving DecidableEq, Repr

/-- `apply_when_all_args_`, future.hpp lines 1192-1199. The value of a placeholder is not used, only whether it is set. -/
def applyWhenAll (ph : List Bool) (args : List (Option α)) : Applied α :=
  if args.all (·.isSome) then .call ((applyImpl args (argIndices ph)).filterMap id) else .rethrow

/-- `voidless_tuple`, lines 201-203: a `tuple_cat` of no type or one for each type; `void` is `none`. -/
def voidless (ts : List (Option α)) : List α := (ts.map fun t => match t with
  | none => []
  | some t => [t]).flatten

/-! ## What they do -/

theorem findImpl_eq (op : α → Bool) (t : List α) (i n : Nat) (h : i + n = t.length) :
    findImpl op t i n = i + (t.drop i).findIdx op := by
  induction n generalizing i with
  | zero =>
    have : t.drop i = [] := List.drop_eq_nil_of_le (by omega)
    simp [findImpl, this]
  | succ n ih =>
    have hi : i < t.length := by omega
    rw [findImpl, List.getElem?_eq_getElem hi, List.drop_eq_getElem_cons hi, List.findIdx_cons, ih (i + 1) (by omega)]
    simp only [Option.map_some, Option.getD_some]
    by_cases h : op t[i] = true <;> simp [h]; omega

/-- `tuple_find` returns the index of the first match, or the size. Not for the empty tuple, see `c50_counterexample`. -/
theorem c50_find_partial (op : α → Bool) (t : List α) (h : t ≠ []) :
    (∀ i < tupleFind op t, ∃ a, t[i]? = some a ∧ op a = false) ∧
      ((tupleFind op t = t.length) ∨ ∃ a, t[tupleFind op t]? = some a ∧ op a = true) := by
  have hl : t.length ≠ 0 := by simpa using h
  have he : tupleFind op t = t.findIdx op := by
    rw [tupleFind, if_neg hl, findImpl_eq op t 0 _ (by omega)]; simp
  rw [he]
  have hle := List.findIdx_le_length (xs := t) (p := op)
  refine ⟨fun i hi => ?_, ?_⟩
  · have hi' : i < t.length := by omega
    have := List.not_of_lt_findIdx hi
    exact ⟨t[i], List.getElem?_eq_getElem hi', by simpa using this⟩
  · by_cases hlt : t.findIdx op < t.length
    · exact .inr ⟨_, List.getElem?_eq_getElem hlt, List.findIdx_getElem (w := hlt)⟩
    · exact .inl (by omega)

example : tupleFind (· == 7) [3, 7, 7] = 1 ∧ tupleFind (· == 9) [3, 7, 7] = 3 := by decide

/-- For the empty tuple, `tuple_find` returns 1 and not the size 0. -/
theorem c50_counterexample (op : α → Bool) : tupleFind op [] ≠ ([] : List α).length := by simp [tupleFind]

theorem forEachImpl_eq (op : β → α → β) (t : List α) (i n : Nat) (h : i + n = t.length) (b : β) :
    forEachImpl op t i n b = (t.drop i).foldl op b := by
  induction n generalizing i b with
  | zero =>
    have : t.drop i = [] := List.drop_eq_nil_of_le (by omega)
    simp [forEachImpl, this]
  | succ n ih =>
    have hi : i < t.length := by omega
    rw [forEachImpl, List.getElem?_eq_getElem hi, List.drop_eq_getElem_cons hi, List.foldl_cons]
    exact ih (i + 1) (by omega) _

/-- `tuple_for_each` visits every element once, in order. -/
theorem c50_for_each (op : β → α → β) (t : List α) (b : β) : tupleForEach op t b = t.foldl op b := by
  have := forEachImpl_eq op t 0 t.length (by omega) b
  simpa [tupleForEach] using this

theorem getImpl_eq (f : α → β) (d : β) (t : List α) (index i n : Nat) (h : i + n = t.length) (hi : i ≤ index) :
    getImpl f d t index i n = ((t[index]?).map f).getD d := by
  induction n generalizing i with
  | zero =>
    have : t[index]? = none := List.getElem?_eq_none (by omega)
    simp [getImpl, this]
  | succ n ih =>
    rw [getImpl]
    split
    · next h1 => subst h1; cases t[index]? <;> rfl
    · exact ih (i + 1) (by omega) (by omega)

/-- `get_i` reads the element at the index; the default is for indices beyond the last element only. -/
theorem c50_get (f : α → β) (d : β) (t : List α) (index : Nat) : getI f d t index = ((t[index]?).map f).getD d :=
  getImpl_eq f d t index 0 _ (by omega) (by omega)

theorem voidImpl_eq (f : α → α) (t : List α) (index i n : Nat) (h : i + n = t.length) (hi : i ≤ index) :
    voidImpl f index t i n = t.modify index f := by
  induction n generalizing i with
  | zero =>
    rw [voidImpl]
    exact (List.modify_eq_self (by omega)).symm
  | succ n ih =>
    rw [voidImpl]
    split
    · next h1 => rw [h1]
    · exact ih (i + 1) (by omega) (by omega)

/-- `void_i` changes the element at the index and no other. -/
theorem c50_void (f : α → α) (t : List α) (index j : Nat) :
    (voidI f t index)[j]? = if index = j then (t[j]?).map f else t[j]? := by
  rw [voidI, voidImpl_eq f t index 0 _ (by omega) (by omega), List.getElem?_modify]
  split <;> simp

theorem transform_eq (F : Nat → List Nat) (seq : List Nat) (index count : Nat) (h : index + count ≤ seq.length) :
    transform F seq index count = ((seq.drop index).take count).flatMap F := by
  induction count using Nat.strongRecOn generalizing index with
  | _ count ih =>
    rw [transform]
    split
    · next h0 => subst h0; simp
    · split
      · next h1 =>
        subst h1
        have hi : index < seq.length := by omega
        rw [List.getElem?_eq_getElem hi, List.drop_eq_getElem_cons hi]
        simp only [List.take_succ_cons, List.take_zero, List.flatMap_cons, List.flatMap_nil, List.append_nil]
      · rw [ih (count / 2) (by omega) index (by omega), ih (count - count / 2) (by omega) (index + count / 2) (by omega),
          ← List.flatMap_append]
        congr 1
        have : count = count / 2 + (count - count / 2) := by omega
        conv => rhs; rw [this]
        rw [List.take_add, List.drop_drop]

theorem argIndices_eq (ph : List Bool) : argIndices ph = (List.range ph.length).filter fun n => ph[n]? ≠ some true := by
  rw [argIndices, transform_eq _ _ _ _ (by simp)]
  simp only [List.drop_zero]
  have ht : (List.range ph.length).take ph.length = List.range ph.length := List.take_of_length_le (by simp)
  rw [ht]
  generalize List.range ph.length = l
  induction l with
  | nil => rfl
  | cons a l ih =>
    rw [List.flatMap_cons, ih, removePlaceholder, List.filter_cons]
    by_cases h : ph[a]? = some true <;> simp [h]

/-- The elements of `t` at which `ph` is false. -/
def keep : List Bool → List α → List α
  | false :: ph, a :: t => a :: keep ph t
  | true :: ph, _ :: t => keep ph t
  | _, _ => []

theorem keep_eq (ph : List Bool) (t : List α) (h : ph.length = t.length) : applyImpl t (argIndices ph) = keep ph t := by
  rw [argIndices_eq, applyImpl]
  induction ph generalizing t with
  | nil => cases t <;> simp [keep]
  | cons b ph ih =>
    match t, h with
    | a :: t, h =>
      have := ih t (by simpa using h)
      rw [List.length_cons, List.range_succ_eq_map, List.filter_cons, List.filter_map]
      have h1 : List.filterMap (fun i => (a :: t)[i]?) ((List.filter ((fun n => decide ((b :: ph)[n]? ≠ some true)) ∘ Nat.succ)
          (List.range ph.length)).map Nat.succ) = keep ph t := by
        rw [List.filterMap_map, ← this]
        rfl
      cases b
      · simp only [List.getElem?_cons_zero, ne_eq, Option.some.injEq, Bool.false_eq_true, not_false_eq_true, decide_true, ↓reduceIte,
          List.filterMap_cons, keep]
        rw [h1]
      · simp only [List.getElem?_cons_zero, ne_eq, not_true_eq_false, decide_false, Bool.false_eq_true, ↓reduceIte, keep]
        rw [h1]

theorem keep_map (f : α → β) (ph : List Bool) (t : List α) : keep ph (t.map f) = (keep ph t).map f := by
  induction ph generalizing t with
  | nil => cases t <;> rfl
  | cons b ph ih => cases t <;> cases b <;> simp [keep, ih]

/-- The results of the futures, `none` for `void`; all of them are there. -/
def stored (rs : List (Option α)) (unit : α) : List (Option α) := rs.map fun r => some (r.getD unit)

/-- `f` is called with exactly the results that are not void, in order. The value stored for a placeholder does not matter. -/
theorem c50_when_all_arguments (rs : List (Option α)) (unit : α) :
    applyWhenAll (rs.map (·.isNone)) (stored rs unit) = .call (rs.filterMap id) := by
  have h1 : (stored rs unit).all (·.isSome) = true := by simp [stored]
  rw [applyWhenAll, if_pos h1, keep_eq _ _ (by simp [stored]), stored, keep_map]
  congr 1
  induction rs with
  | nil => rfl
  | cons r rs ih =>
    have := ih (by simp [stored])
    cases r <;> simpa [keep] using this

example : applyWhenAll [false, true, false, true] [some 10, some 0, some 25, some 0] = .call [10, 25] :=
  c50_when_all_arguments [some 10, none, some 25, none] 0

/-- If any of the results is missing, the exception is rethrown and `f` is not called. -/
theorem c50_when_all_missing (ph : List Bool) (args : List (Option α)) : applyWhenAll ph args = .rethrow ↔ none ∈ args := by
  rw [applyWhenAll]
  split
  · next h =>
    simp only [List.all_eq_true] at h
    refine ⟨fun h => (by cases h), fun hn => ?_⟩
    have := h _ hn
    cases this
  · next h =>
    refine ⟨fun _ => ?_, fun _ => rfl⟩
    simp only [Bool.not_eq_true, List.all_eq_false] at h
    obtain ⟨x, hx, hn⟩ := h
    cases x with
    | none => exact hx
    | some x => cases hn

example : applyWhenAll [false, true] [some 10, none] = .rethrow := by decide

/-- The types of the arguments, from which the type of the result is found (future.hpp line 1253), are those of the
arguments that `f` is called with. -/
theorem c50_argument_types (ts : List (Option α)) (unit : α) :
    .call (voidless ts) = applyWhenAll (ts.map (·.isNone)) (stored ts unit) := by
  rw [c50_when_all_arguments]
  congr 1
  induction ts with
  | nil => rfl
  | cons t ts ih => cases t <;> simp_all [voidless]

/-- `apply_ignore_placeholders`, lines 219-225; a placeholder is `none`. -/
def applyIgnorePlaceholders (t : List (Option α)) : List (Option α) := applyImpl t (List.range t.length)

/-- `apply_indexed` (lines 240-245) with the indices that `remove_placeholder` leaves, as in test/tuple_test.cpp lines 68-90. -/
def applyIndexed (t : List (Option α)) : List (Option α) := applyImpl t (argIndices (t.map fun x => x = none))

theorem applyImpl_range (t : List α) : applyImpl t (List.range t.length) = t := by
  induction t with
  | nil => rfl
  | cons x t ih =>
    simp only [applyImpl, List.length_cons, List.range_succ_eq_map] at ih ⊢
    rw [List.filterMap_cons]
    simp only [List.getElem?_cons_zero, List.filterMap_map]
    congr 1

theorem keep_none (t : List (Option α)) : keep (t.map fun x => x = none) t = t.filter fun x => x ≠ none := by
  induction t with
  | nil => rfl
  | cons x t ih => cases x <;> simp_all [keep]

/-- The function is called with the elements that are not placeholders, in order. -/
theorem c50_apply_indexed (t : List (Option α)) : applyIndexed t = t.filter fun x => x ≠ none := by
  rw [applyIndexed, keep_eq _ _ (by simp), keep_none]

example : applyIndexed [some 10, none, some 25] = [some 10, some 25] := by rw [c50_apply_indexed]; rfl

/-- `apply_ignore_placeholders` passes the placeholders, too, contrary to its comment. -/
theorem c50_ignore_placeholders_counterexample :
    ¬∀ t : List (Option Nat), applyIgnorePlaceholders t = t.filter fun x => x ≠ none := by
  intro h
  have := h [none, some 10]
  revert this
  decide

/-- It does what it should if there are none, as for `voidless_tuple` in future.hpp line 1253. -/
theorem c50_ignore_placeholders_partial (t : List (Option α)) (h : none ∉ t) :
    applyIgnorePlaceholders t = t.filter fun x => x ≠ none := by
  rw [applyIgnorePlaceholders, applyImpl_range, List.filter_eq_self.2]
  intro x hx
  cases x with
  | none => exact absurd hx h
  | some y => simp

example : none ∉ [some 10, some 25] := by decide

/-- `find_argument_error` (channel.hpp lines 382-397) of the messages of one call, each a value or an error. -/
def findArgumentError (t : List (Sum α β)) : Option (Option β) :=
  let i := tupleFind (·.isRight) t
  if i ≠ t.length then some (getI (fun x => x.getRight?) none t i) else none

/-- It finds the first error if there is one. -/
theorem c50_find_argument_error (t : List (Sum α β)) (h : t ≠ []) :
    findArgumentError t = (t.findSome? (·.getRight?)).map some := by
  have hl : t.length ≠ 0 := by simpa using h
  have he : tupleFind (·.isRight) t = t.findIdx (·.isRight) := by
    rw [tupleFind, if_neg hl, findImpl_eq _ t 0 _ (by omega)]; simp
  rw [findArgumentError, he]
  clear he hl h
  rw [c50_get]
  induction t with
  | nil => rfl
  | cons a t ih =>
    cases a with
    | inl x => simpa [List.findIdx_cons, List.findSome?_cons] using ih
    | inr x => simp [List.findIdx_cons, List.findSome?_cons]

example : findArgumentError [Sum.inl 1, .inr "a", .inr "b"] = some (some "a") := by decide

end Verif.Tuple
