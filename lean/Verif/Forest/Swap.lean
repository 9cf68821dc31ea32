import Verif.Forest.Life

/-! # `swap` -/

namespace Verif.Forest

variable {T : Type} {W : World T} {A : AState T}

/-- Free addresses stay free as long as no forest takes them. -/
theorem Inv.none_of {W' : World T} {A' : AState T} (I : Inv W A) (I' : Inv W' A') {q : Ptr}
    (hq : W.heap q = none)
    (hs : ∀ t w, A'.words t = some w → q ∈ support t w → ∃ t' w', A.words t' = some w' ∧ q ∈ support t' w') :
    W'.heap q = none := by
  rw [I'.none_iff]
  intro t w hw hm
  obtain ⟨t', w', h1, h2⟩ := hs t w hw hm
  exact I.none_iff.mp hq t' w' h1 h2

theorem swap_refines (I : Inv W A) {t x tmp tmp1 tmp2 : Ptr} {w v : List Iter} (htx : x ≠ t)
    (hw : A.words t = some w) (hx : A.words x = some v)
    (hp : W.heap tmp = none) (hp1 : W.heap tmp1 = none) (hp2 : W.heap tmp2 = none)
    (hn1 : tmp1 ≠ tmp) (hn2 : tmp2 ≠ tmp) :
    ∃ W', swap W t x tmp tmp1 tmp2 = some W' ∧ Inv W' ((A.setWord x w).setWord t v) := by
  have hA := I.words_none hp
  have hA1 := I.words_none hp1
  have hA2 := I.words_none hp2
  have htt : tmp ≠ t := by rintro rfl; rw [hA] at hw; simp at hw
  have htx' : tmp ≠ x := by rintro rfl; rw [hA] at hx; simp at hx
  -- tmp(move(t))
  obtain ⟨W1, h1, I1⟩ := moveCtor_refines I hw hp
  have sub : ∀ q, W.heap q = none → q ≠ tmp → W1.heap q = none := by
    intro q hq hqt
    refine I.none_of I1 hq ?_
    intro s u hu hm
    by_cases e1 : s = tmp
    · subst e1
      rw [AState.words_setWord] at hu; simp only [Option.some.injEq] at hu; subst hu
      simp only [support, List.mem_cons, hqt, false_or] at hm
      exact ⟨t, w, hw, by simp only [support, List.mem_cons]; exact Or.inr hm⟩
    · rw [AState.words_setWord_ne e1] at hu
      by_cases e2 : s = t
      · subst e2
        rw [AState.words_setWord] at hu; simp only [Option.some.injEq] at hu; subst hu
        simp only [support, List.map_nil, List.mem_singleton] at hm
        exact ⟨s, w, hw, by simp [support, hm]⟩
      · rw [AState.words_setWord_ne e2] at hu
        exact ⟨s, u, hu, hm⟩
  -- t = move(x)
  have hw1 : ((A.setWord t []).setWord tmp w).words t = some [] := by
    rw [AState.words_setWord_ne htt.symm, AState.words_setWord]
  have hx1 : ((A.setWord t []).setWord tmp w).words x = some v := by
    rw [AState.words_setWord_ne htx'.symm, AState.words_setWord_ne htx]; exact hx
  obtain ⟨W2, h2, I2⟩ := moveAssign_refines I1 htx hw1 hx1 (sub tmp1 hp1 hn1)
  rw [dropVals_nil] at I2
  have sub2 : ∀ q, W.heap q = none → q ≠ tmp → W2.heap q = none := by
    intro q hq hqt
    refine I1.none_of I2 (sub q hq hqt) ?_
    intro s u hu hm
    by_cases e1 : s = t
    · subst e1
      rw [AState.words_setWord] at hu; simp only [Option.some.injEq] at hu; subst hu
      simp only [support, List.mem_cons] at hm
      rcases hm with hm | hm
      · exact ⟨s, [], hw1, by simp [support, hm]⟩
      · exact ⟨x, v, hx1, by simp only [support, List.mem_cons]; exact Or.inr hm⟩
    · rw [AState.words_setWord_ne e1] at hu
      by_cases e2 : s = x
      · subst e2
        rw [AState.words_setWord] at hu; simp only [Option.some.injEq] at hu; subst hu
        simp only [support, List.map_nil, List.mem_singleton] at hm
        exact ⟨s, v, hx1, by simp [support, hm]⟩
      · rw [AState.words_setWord_ne e2] at hu
        exact ⟨s, u, hu, hm⟩
  -- x = move(tmp)
  have hx2 : ((((A.setWord t []).setWord tmp w).setWord x []).setWord t v).words x = some [] := by
    rw [AState.words_setWord_ne htx, AState.words_setWord]
  have ht2 : ((((A.setWord t []).setWord tmp w).setWord x []).setWord t v).words tmp = some w := by
    rw [AState.words_setWord_ne htt, AState.words_setWord_ne htx', AState.words_setWord]
  obtain ⟨W3, h3, I3⟩ := moveAssign_refines I2 (t := x) (x := tmp) htx' hx2 ht2 (sub2 tmp2 hp2 hn2)
  rw [dropVals_nil] at I3
  -- ~tmp
  obtain ⟨W4, h4, I4⟩ := destroy_refines I3 (t := tmp) (w := [])
    (by rw [AState.words_setWord_ne htx', AState.words_setWord])
  refine ⟨W4, by simp [swap, h1, h2, h3, h4], ?_⟩
  rw [dropVals_nil, AState.delWord] at I4
  convert I4 using 1
  cases A with
  | mk words val =>
    simp only at hA
    simp only [AState.setWord, AState.mk.injEq, and_true]
    funext q
    by_cases e1 : q = tmp
    · subst e1; simp [htt, htx', hA]
    · by_cases e2 : q = t
      · subst e2; simp [e1, htx.symm]
      · by_cases e3 : q = x
        · subst e3; simp [e1, htx]
        · simp [e1, e2, e3]

theorem swap_self (I : Inv W A) {t tmp tmp1 tmp2 : Ptr} {w : List Iter}
    (hw : A.words t = some w)
    (hp : W.heap tmp = none) (hp1 : W.heap tmp1 = none) (hp2 : W.heap tmp2 = none)
    (hn1 : tmp1 ≠ tmp) (hn2 : tmp2 ≠ tmp) :
    ∃ W', swap W t t tmp tmp1 tmp2 = some W' ∧ Inv W' A := by
  have hA := I.words_none hp
  have htt : tmp ≠ t := by rintro rfl; rw [hA] at hw; simp at hw
  obtain ⟨W1, h1, I1⟩ := moveCtor_refines I hw hp
  have sub : ∀ q, W.heap q = none → q ≠ tmp → W1.heap q = none := by
    intro q hq hqt
    refine I.none_of I1 hq ?_
    intro s u hu hm
    by_cases e1 : s = tmp
    · subst e1
      rw [AState.words_setWord] at hu; simp only [Option.some.injEq] at hu; subst hu
      simp only [support, List.mem_cons, hqt, false_or] at hm
      exact ⟨t, w, hw, by simp only [support, List.mem_cons]; exact Or.inr hm⟩
    · rw [AState.words_setWord_ne e1] at hu
      by_cases e2 : s = t
      · subst e2
        rw [AState.words_setWord] at hu; simp only [Option.some.injEq] at hu; subst hu
        simp only [support, List.map_nil, List.mem_singleton] at hm
        exact ⟨s, w, hw, by simp [support, hm]⟩
      · rw [AState.words_setWord_ne e2] at hu
        exact ⟨s, u, hu, hm⟩
  have hw1 : ((A.setWord t []).setWord tmp w).words t = some [] := by
    rw [AState.words_setWord_ne htt.symm, AState.words_setWord]
  obtain ⟨W2, h2, I2⟩ := moveAssign_self I1 hw1 (sub tmp1 hp1 hn1)
  have sub2 : W2.heap tmp2 = none := I1.none_of I2 (sub tmp2 hp2 hn2) (fun s u hu hm => ⟨s, u, hu, hm⟩)
  have ht2 : ((A.setWord t []).setWord tmp w).words tmp = some w := by rw [AState.words_setWord]
  obtain ⟨W3, h3, I3⟩ := moveAssign_refines I2 (t := t) (x := tmp) htt hw1 ht2 sub2
  rw [dropVals_nil] at I3
  obtain ⟨W4, h4, I4⟩ := destroy_refines I3 (t := tmp) (w := [])
    (by rw [AState.words_setWord_ne htt, AState.words_setWord])
  refine ⟨W4, by simp [swap, h1, h2, h3, h4], ?_⟩
  rw [dropVals_nil, AState.delWord] at I4
  convert I4 using 1
  cases A with
  | mk words val =>
    simp only at hA hw
    simp only [AState.setWord, AState.mk.injEq, and_true]
    funext q
    by_cases e1 : q = tmp
    · subst e1; simp [hA]
    · by_cases e2 : q = t
      · subst e2; simp [e1, hw]
      · simp [e1, e2]

end Verif.Forest
