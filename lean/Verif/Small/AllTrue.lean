/-!
# `all_true` (include/stlab/concurrency/traits.hpp lines 23-26)

`all_true<v...>` compares the types `bool_pack<true, v...>` and `bool_pack<v..., true>`. Two specialisations of a template are the same type exactly if
their arguments are the same.
-/

namespace Verif.AllTrue

/-- `bool_pack<v...>` (lines 23-24): a type, known by its arguments. -/
inductive Pack where
  | bool_pack (v : List Bool)
  deriving DecidableEq

/-- `all_true<v...>` (lines 25-26). -/
def all_true (v : List Bool) : Bool := Pack.bool_pack (true :: v) = Pack.bool_pack (v ++ [true])

theorem shift {v : List Bool} (h : true :: v = v ++ [true]) : ∀ b ∈ v, b = true := by
  induction v with
  | nil => intro b hb; cases hb
  | cons x v ih =>
    injection h with h1 h2
    subst h1
    intro b hb
    rcases List.mem_cons.1 hb with rfl | hb
    · rfl
    · exact ih h2 b hb

/-- **C116**: `all_true` is true exactly if every argument is. -/
theorem c116_all_true (v : List Bool) : all_true v = true ↔ ∀ b ∈ v, b = true := by
  simp only [all_true, decide_eq_true_eq, Pack.bool_pack.injEq]
  refine ⟨shift, fun h => ?_⟩
  have : v = List.replicate v.length true := List.eq_replicate_iff.2 ⟨rfl, h⟩
  rw [this]
  exact List.replicate_succ.symm.trans List.replicate_succ'

/-- **C116**: for two packs one after the other. -/
theorem c116_append (v w : List Bool) : all_true (v ++ w) = (all_true v && all_true w) := by
  rw [Bool.eq_iff_iff, Bool.and_eq_true, c116_all_true, c116_all_true, c116_all_true]
  simp only [List.mem_append]
  exact ⟨fun h => ⟨fun b hb => h b (.inl hb), fun b hb => h b (.inr hb)⟩, fun h b hb => hb.elim (h.1 b) (h.2 b)⟩

example : all_true [true, true, true] = true ∧ all_true [] = true ∧ all_true [true, false, true] = false := by decide

end Verif.AllTrue
