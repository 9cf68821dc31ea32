/-!
# `reverse_until` (include/stlab/algorithm/reverse.hpp:101-112)

Model and property C20. The sequence is a list; the iterators are indices into it. `none` stands for
undefined behaviour (decrementing or dereferencing outside the sequence) or a loop that does not end.
-/

namespace Verif.ReverseUntil

variable {α : Type}

/-- `std::iter_swap` of two positions (algorithm/reverse.hpp:106). -/
def iterSwap (xs : List α) (i j : Nat) : Option (List α) := do
  let x ← xs[i]?
  let y ← xs[j]?
  return (xs.set i y).set j x

/-- `--l`. -/
def dec : Nat → Option Nat
  | 0 => none
  | n + 1 => some n

/-- `reverse_until(f, m, l)` (algorithm/reverse.hpp:102-112): the sequence afterwards and the result. -/
def reverseUntil (xs : List α) (f m l : Nat) : Option (List α × Nat × Nat) :=
  if f ≠ m ∧ m ≠ l then do
    let l ← dec l
    let xs ← iterSwap xs f l
    reverseUntil xs (f + 1) m l
  else some (xs, f, l)
partial_fixpoint

theorem iterSwap_eq {xs : List α} {i j : Nat} (hi : i < xs.length) (hj : j < xs.length) :
    ∃ ys, iterSwap xs i j = some ys ∧ ys.length = xs.length ∧ ys[i]? = xs[j]? ∧ ys[j]? = xs[i]? ∧
      ∀ k, k ≠ i → k ≠ j → ys[k]? = xs[k]? := by
  refine ⟨(xs.set i xs[j]).set j xs[i], ?_, by simp, ?_, ?_, ?_⟩
  · simp [iterSwap, hi, hj]
  · by_cases h : j = i
    · subst h; simp [hi]
    · simp [List.getElem?_set, h, hi, hj]
  · simp [hi, hj]
  · intro k h1 h2
    simp [List.getElem?_set, h1.symm, h2.symm]

/-- C20. `reverse_until(f, m, l)` stops with the range `[a, b)` where `a == m` or `b == m`; everything in
`[f, l)` outside `[a, b)` is mirrored about the centre of `[f, l)`, everything else is untouched. -/
theorem c20_reverse_until (m : Nat) : ∀ (f l : Nat) (xs : List α), f ≤ m → m ≤ l → l ≤ xs.length →
    ∃ ys a b, reverseUntil xs f m l = some (ys, a, b) ∧ f ≤ a ∧ a ≤ m ∧ m ≤ b ∧ b ≤ l ∧
      (a = m ∨ b = m) ∧ a - f = l - b ∧ ys.length = xs.length ∧
      (∀ i, f ≤ i → i < l → (i < a ∨ b ≤ i) → ys[i]? = xs[f + l - 1 - i]?) ∧
      (∀ i, (i < f ∨ l ≤ i ∨ (a ≤ i ∧ i < b)) → ys[i]? = xs[i]?) := by
  intro f l
  generalize hn : m - f = n
  induction n generalizing f l with
  | zero =>
    intro xs h1 h2 h3
    have : f = m := by omega
    subst this
    refine ⟨xs, f, l, ?_, by omega, by omega, by omega, by omega, Or.inl rfl, by omega, rfl, ?_, ?_⟩
    · rw [reverseUntil]; simp
    · intro i _ _ h; omega
    · intro i _; rfl
  | succ n ih =>
    intro xs h1 h2 h3
    by_cases hm : m = l
    · subst hm
      refine ⟨xs, f, m, ?_, by omega, by omega, by omega, by omega, Or.inr rfl, by omega, rfl, ?_, ?_⟩
      · rw [reverseUntil]; simp
      · intro i _ _ h; omega
      · intro i _; rfl
    · have hf : f ≠ m := by omega
      obtain ⟨l, rfl⟩ : ∃ k, l = k + 1 := ⟨l - 1, by omega⟩
      obtain ⟨zs, hz, hzl, hzi, hzj, hzk⟩ := iterSwap_eq (xs := xs) (i := f) (j := l) (by omega) (by omega)
      obtain ⟨ys, a, b, e, g1, g2, g3, g4, g5, g6, g7, g8, g9⟩ :=
        ih (f + 1) l (by omega) zs (by omega) (by omega) (by omega)
      refine ⟨ys, a, b, ?_, by omega, g2, g3, by omega, g5, by omega, by omega, ?_, ?_⟩
      · rw [reverseUntil]
        simp [hf, hm, dec, hz, e]
      · intro i hi hil hab
        by_cases e1 : i = f
        · subst e1
          rw [g9 i (by omega), hzi]; congr 1; omega
        · by_cases e2 : i = l
          · subst e2
            rw [g9 i (by omega), hzj]; congr 1; omega
          · rw [g8 i (by omega) (by omega) hab, hzk _ (by omega) (by omega)]
            congr 1; omega
      · intro i hi
        rw [g9 i (by omega)]
        exact hzk i (by omega) (by omega)

/-- A case with unequal halves: `reverse_until` of `[0 … 6]`, middle 2. -/
example : reverseUntil [0, 1, 2, 3, 4, 5, 6] 0 2 7 = some ([6, 5, 2, 3, 4, 1, 0], 2, 5) := by
  rw [reverseUntil]; simp [dec, iterSwap]
  rw [reverseUntil]; simp [dec, iterSwap]
  rw [reverseUntil]; simp [dec, iterSwap]

end Verif.ReverseUntil
