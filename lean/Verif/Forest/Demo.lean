import Verif.Forest.ReverseLemmas

/-!
# A concrete reachable world

Used beside the property theorems to show that their hypotheses can be met: forest 0 holds
`1(2, 3), 4`, forest 100 holds `5`, forest 200 is empty; node `n` holds the value `10 * n`.
-/

namespace Verif.Forest

/-- leading edge -/
abbrev L (n : Ptr) : Iter := ⟨n, .leading⟩
/-- trailing edge -/
abbrev R (n : Ptr) : Iter := ⟨n, .trailing⟩

/-- The traversal of the big demo forest. -/
abbrev demoWord : List Iter := [L 1, L 2, R 2, L 3, R 3, R 1, L 4, R 4]

/-- What the demo world contains. -/
def demoState : AState Nat where
  words q := if q = 0 then some demoWord else if q = 100 then some [L 5, R 5]
    else if q = 200 then some [] else none
  val q := if 1 ≤ q ∧ q ≤ 5 then some (10 * q) else none

theorem step_insert {W : World Nat} {A : AState Nat} (hR : Reachable W) (I : Inv W A) {t p : Ptr}
    {a b : List Iter} (x : Nat) (hw : A.words t = some (a ++ b)) (hp : W.heap p = none) :
    ∃ W', Reachable W' ∧
      Inv W' ((A.setWord t (a ++ (([L p, R p] : List Iter) ++ b))).setVal p (some x)) := by
  obtain ⟨W', h1, I'⟩ := insert_refines I hw hp x
  exact ⟨W', .step (.insert t (posOf t b) x p) hR ⟨hp, a, b, I.rep t _ hw, rfl⟩ (by simp [exec, h1]), I'⟩

theorem step_new {W : World Nat} {A : AState Nat} (hR : Reachable W) (I : Inv W A) {t : Ptr}
    (hp : W.heap t = none) : ∃ W', Reachable W' ∧ Inv W' (A.setWord t []) := by
  obtain ⟨W', h1, I', -⟩ := newForest_refines I hp
  exact ⟨W', .step (.new t) hR hp h1, I'⟩

/-- The demo world is reachable. -/
theorem demo : ∃ W : World Nat, Reachable W ∧ Inv W demoState := by
  obtain ⟨W1, r1, i1⟩ := step_new (t := 0) Reachable.start inv_start rfl
  have fresh : ∀ {W : World Nat} {A : AState Nat} (_ : Inv W A) (p : Ptr),
      (∀ t w, A.words t = some w → p ∉ support t w) → W.heap p = none :=
    fun I p h => I.none_iff.mpr h
  obtain ⟨W2, r2, i2⟩ := step_new (t := 100) r1 i1 (fresh i1 _ (by
    intro t w hw; simp only [AState.setWord] at hw; split at hw <;> simp_all [support]))
  obtain ⟨W3, r3, i3⟩ := step_new (t := 200) r2 i2 (fresh i2 _ (by
    intro t w hw; simp only [AState.setWord] at hw; split at hw
    · simp_all [support]
    · split at hw <;> simp_all [support]))
  obtain ⟨W4, r4, i4⟩ := step_insert (t := 0) (p := 1) (a := []) (b := []) r3 i3 10 rfl (fresh i3 _ (by
    intro t w hw; simp only [AState.setWord] at hw; split at hw
    · simp_all [support]
    · split at hw
      · simp_all [support]
      · split at hw <;> simp_all [support]))
  obtain ⟨W5, r5, i5⟩ := step_insert (t := 0) (p := 2) (a := [L 1]) (b := [R 1]) r4 i4 20 rfl (fresh i4 _ (by
    intro t w hw; simp only [AState.setWord, AState.setVal] at hw
    repeat' (split at hw)
    all_goals simp_all [support]
    all_goals (subst hw; simp)))
  obtain ⟨W6, r6, i6⟩ := step_insert (t := 0) (p := 3) (a := [L 1, L 2, R 2]) (b := [R 1]) r5 i5 30 rfl
    (fresh i5 _ (by
    intro t w hw; simp only [AState.setWord, AState.setVal] at hw
    repeat' (split at hw)
    all_goals simp_all [support]
    all_goals (subst hw; simp)))
  obtain ⟨W7, r7, i7⟩ := step_insert (t := 0) (p := 4) (a := [L 1, L 2, R 2, L 3, R 3, R 1]) (b := []) r6 i6 40
    rfl (fresh i6 _ (by
    intro t w hw; simp only [AState.setWord, AState.setVal] at hw
    repeat' (split at hw)
    all_goals simp_all [support]
    all_goals (subst hw; simp)))
  obtain ⟨W8, r8, i8⟩ := step_insert (t := 100) (p := 5) (a := []) (b := []) r7 i7 50 rfl (fresh i7 _ (by
    intro t w hw; simp only [AState.setWord, AState.setVal] at hw
    repeat' (split at hw)
    all_goals simp_all [support]
    all_goals (subst hw; simp)))
  refine ⟨W8, r8, ?_⟩
  convert i8 using 1
  simp only [demoState, AState.setWord, AState.setVal, AState.mk.injEq]
  constructor
  · funext q
    by_cases h0 : q = 0
    · subst h0; simp
    · by_cases h1 : q = 100
      · subst h1; simp
      · by_cases h2 : q = 200 <;> simp [h0, h1, h2]
  · funext q
    by_cases h1 : q = 1
    · subst h1; simp
    · by_cases h2 : q = 2
      · subst h2; simp
      · by_cases h3 : q = 3
        · subst h3; simp
        · by_cases h4 : q = 4
          · subst h4; simp
          · by_cases h5 : q = 5
            · subst h5; simp
            · have : ¬ (1 ≤ q ∧ q ≤ 5) := by
                rintro ⟨ha, hb⟩
                have key : ∀ m : Nat, m ≠ 1 → m ≠ 2 → m ≠ 3 → m ≠ 4 → m ≠ 5 → 1 ≤ m → m ≤ 5 → False := by
                  omega
                exact key q h1 h2 h3 h4 h5 ha hb
              simp [h1, h2, h3, h4, h5, this]

end Verif.Forest
