import Verif.Forest.Traverse

/-! # Construction, destruction, copying and the remaining forms of splice -/

namespace Verif.Forest

variable {T : Type} {W : World T} {A : AState T}

theorem AState.setWord_self {t : Ptr} {w : List Iter} (h : A.words t = some w) : A.setWord t w = A := by
  cases A with
  | mk words val =>
    simp only [AState.setWord, AState.mk.injEq, and_true]
    funext q
    by_cases hq : q = t
    · subst hq; simp only [if_true]; exact h.symm
    · simp [hq]

theorem AState.setWord_setWord {t : Ptr} {w w' : List Iter} :
    (A.setWord t w).setWord t w' = A.setWord t w' := by
  simp only [AState.setWord, AState.mk.injEq, and_true]
  funext q; split <;> rfl

theorem AState.setWord_comm {t x : Ptr} (h : t ≠ x) {w w' : List Iter} :
    (A.setWord t w).setWord x w' = (A.setWord x w').setWord t w := by
  simp only [AState.setWord, AState.mk.injEq, and_true]
  funext q
  by_cases h1 : q = t
  · subst h1; simp [h]
  · simp [h1]

theorem AState.words_setWord {t : Ptr} {w : List Iter} : (A.setWord t w).words t = some w := by
  simp [AState.setWord]

theorem AState.words_setWord_ne {t q : Ptr} (h : q ≠ t) {w : List Iter} :
    (A.setWord t w).words q = A.words q := by simp [AState.setWord, h]

/-- An address is free exactly if no forest occupies it. -/
theorem Inv.none_iff (I : Inv W A) {q : Ptr} :
    W.heap q = none ↔ ∀ t w, A.words t = some w → q ∉ support t w := by
  constructor
  · intro h t w hw hm
    exact (I.rep t w hw).support_ne_none hm h
  · intro h
    by_contra hne
    obtain ⟨t, w, hw, hm⟩ := I.noleak q hne
    exact h t w hw hm

theorem Inv.words_none (I : Inv W A) {q : Ptr} (h : W.heap q = none) : A.words q = none := by
  cases hw : A.words q with
  | none => rfl
  | some w => exact absurd (by simp [support]) (I.none_iff.mp h q w hw)

/-! ## The other forms of `splice` -/

theorem spliceRange_same (I : Inv W A) {t : Ptr} {l S r a c : List Iter}
    (hw : A.words t = some (l ++ (S ++ r))) (hac : l ++ r = a ++ c) (hS : Balanced S) (hne : S ≠ []) :
    ∃ W', spliceRange W t (posOf t c) t (posOf t (S ++ r)) (posOf t r) =
        some (W', posOf t (S ++ r)) ∧ Inv W' (A.setWord t (a ++ (S ++ c))) :=
  splice_same I hw hac hS hne 0

theorem spliceAll_two (I : Inv W A) {t x : Ptr} {v a c : List Iter} (htx : x ≠ t)
    (hw : A.words t = some (a ++ c)) (hx : A.words x = some v) :
    ∃ W', spliceAll W t (posOf t c) x = some (W', posOf t (v ++ c)) ∧
      Inv W' ((A.setWord t (a ++ (v ++ c))).setWord x []) := by
  have R := I.rep x v hx
  obtain ⟨W1, hs, I1, -⟩ := size_refines I hx
  have main : ∀ (W1 : World T) (count : Nat), Inv W1 A → (count = 0 ∨ count = (nodes v).length) →
      ∃ W', splice W1 t (posOf t c) x (posOf x v) (end_ x) count = some (W', posOf t (v ++ c)) ∧
        Inv W' ((A.setWord t (a ++ (v ++ c))).setWord x []) := by
    intro W1 count I1 hc
    by_cases hv : v = []
    · subst hv
      refine ⟨W1, ?_, ?_⟩
      · rw [posOf_nil]; exact splice_empty
      · rw [List.nil_append, AState.setWord_self hw, AState.setWord_self hx]; exact I1
    · have hx' : A.words x = some ([] ++ (v ++ [])) := by simpa using hx
      obtain ⟨W', h1, h2⟩ := splice_two I1 htx hw hx' R.balanced hv hc
      refine ⟨W', ?_, by simpa using h2⟩
      rw [List.append_nil, posOf_nil] at h1
      rw [h1]
      cases v with
      | nil => exact absurd rfl hv
      | cons y v => simp [posOf]
  simp only [spliceAll, R.begin_posOf, Option.bind_eq_bind, Option.bind_some, sizeValid_eq R]
  split
  · rw [hs]
    exact main W1 _ I1 (Or.inr rfl)
  · exact main W 0 I (Or.inl rfl)

/-- Splicing a forest onto its own end changes nothing. -/
theorem spliceAll_self (I : Inv W A) {t : Ptr} {w : List Iter} (hw : A.words t = some w) :
    ∃ W', spliceAll W t (end_ t) t = some (W', posOf t w) ∧ Inv W' A := by
  have R := I.rep t w hw
  obtain ⟨W1, hs, I1, -⟩ := size_refines I hw
  have main : ∀ (W1 : World T) (count : Nat), Inv W1 A →
      ∃ W', splice W1 t (end_ t) t (posOf t w) (end_ t) count = some (W', posOf t w) ∧
        Inv W' A := by
    intro W1 count I1
    by_cases hv : w = []
    · subst hv
      exact ⟨W1, by rw [posOf_nil]; exact splice_empty, I1⟩
    · have hw' : A.words t = some ([] ++ (w ++ [])) := by simpa using hw
      obtain ⟨W', h1, h2⟩ := splice_same I1 (a := []) (c := []) hw' rfl R.balanced hv count
      refine ⟨W', ?_, ?_⟩
      · simpa [posOf_nil] using h1
      · simp only [List.nil_append, List.append_nil] at h2
        rwa [AState.setWord_self hw] at h2
  simp only [spliceAll, R.begin_posOf, Option.bind_eq_bind, Option.bind_some, sizeValid_eq R]
  split
  · rw [hs]; exact main W1 _ I1
  · exact main W 0 I

/-- Moving one subtree to another forest. -/
theorem spliceNode_two (I : Inv W A) {t x n : Ptr} {l b r a c : List Iter} {e : Edge} (htx : x ≠ t)
    (hw : A.words t = some (a ++ c))
    (hx : A.words x = some (l ++ (⟨n, .leading⟩ :: (b ++ [⟨n, .trailing⟩]) ++ r))) (hb : Balanced b) :
    ∃ W', spliceNode W t (posOf t c) x ⟨n, e⟩ = some (W', ⟨n, .leading⟩) ∧
      Inv W' ((A.setWord t (a ++ (⟨n, .leading⟩ :: (b ++ [⟨n, .trailing⟩]) ++ c))).setWord x (l ++ r)) := by
  have R := I.rep x _ hx
  have R1 : Rep W.heap x (l ++ (⟨n, .leading⟩ :: (b ++ ⟨n, .trailing⟩ :: r))) := by simpa using R
  have hci : childIncr W.heap ⟨n, .leading⟩ = some (posOf x r) := by
    have R' : Rep W.heap x ((l ++ ⟨n, .leading⟩ :: b ++ [⟨n, .trailing⟩]) ++ r) := by simpa using R
    have := R'.incr_split
    rw [priorOf_concat] at this
    exact this
  have hhc := hasChildren_eq (e := .leading) R1
  obtain ⟨W', h1, h2⟩ := splice_two I htx hw hx (Balanced.tree n hb) (by simp)
    (count := if decide (b ≠ []) then 0 else 1) (by
      by_cases hbn : b = []
      · subst hbn; simp [nodes]
      · simp [hbn])
  refine ⟨W', ?_, h2⟩
  simp only [spliceNode, Iter.leadingOf, hci, hhc, Option.bind_eq_bind, Option.bind_some]
  simpa [posOf] using h1

/-- Moving one subtree within its forest. -/
theorem spliceNode_same (I : Inv W A) {t n : Ptr} {l b r a c : List Iter} {e : Edge}
    (hw : A.words t = some (l ++ (⟨n, .leading⟩ :: (b ++ [⟨n, .trailing⟩]) ++ r)))
    (hac : l ++ r = a ++ c) (hb : Balanced b) :
    ∃ W', spliceNode W t (posOf t c) t ⟨n, e⟩ = some (W', ⟨n, .leading⟩) ∧
      Inv W' (A.setWord t (a ++ (⟨n, .leading⟩ :: (b ++ [⟨n, .trailing⟩]) ++ c))) := by
  have R := I.rep t _ hw
  have R1 : Rep W.heap t (l ++ (⟨n, .leading⟩ :: (b ++ ⟨n, .trailing⟩ :: r))) := by simpa using R
  have hci : childIncr W.heap ⟨n, .leading⟩ = some (posOf t r) := by
    have R' : Rep W.heap t ((l ++ ⟨n, .leading⟩ :: b ++ [⟨n, .trailing⟩]) ++ r) := by simpa using R
    have := R'.incr_split
    rw [priorOf_concat] at this
    exact this
  have hhc := hasChildren_eq (e := .leading) R1
  obtain ⟨W', h1, h2⟩ := splice_same I hw hac (Balanced.tree n hb) (by simp)
    (if decide (b ≠ []) then 0 else 1)
  refine ⟨W', ?_, h2⟩
  simp only [spliceNode, Iter.leadingOf, hci, hhc, Option.bind_eq_bind, Option.bind_some]
  simpa [posOf] using h1

/-- `insert_parent`. -/
theorem insertParent_refines (I : Inv W A) {t p : Ptr} {a S c : List Iter} (v : T)
    (hw : A.words t = some (a ++ (S ++ c))) (hS : Balanced S) (hp : W.heap p = none) :
    ∃ W', insertParent W t (posOf t (S ++ c)) (posOf t c) v p = some (W', ⟨p, .leading⟩) ∧
      Inv W' ((A.setWord t (a ++ (⟨p, .leading⟩ :: (S ++ [⟨p, .trailing⟩]) ++ c))).setVal p (some v)) := by
  have R := I.rep t _ hw
  have hw' : A.words t = some ((a ++ S) ++ c) := by simpa using hw
  obtain ⟨W1, h1, I1⟩ := insert_refines I hw' hp v
  by_cases hSn : S = []
  · subst hSn
    refine ⟨W1, ?_, by simpa using I1⟩
    simp [insertParent, h1]
  · have hne := posOf_ne R hSn
    have hw1 : (((A.setWord t (a ++ S ++ ([⟨p, .leading⟩, ⟨p, .trailing⟩] ++ c))).setVal p
        (some v)).words t) = some (a ++ (S ++ (⟨p, .leading⟩ :: ⟨p, .trailing⟩ :: c))) := by
      simp [AState.setWord, AState.setVal]
    obtain ⟨W2, h2, I2⟩ := spliceRange_same I1 (a := a ++ [⟨p, .leading⟩]) (c := ⟨p, .trailing⟩ :: c)
      hw1 (by simp) hS hSn
    refine ⟨W2, ?_, ?_⟩
    · simp only [insertParent, h1, hne, Option.bind_eq_bind, Option.bind_some, if_false,
        Iter.trailingOf]
      have e1 : posOf t (S ++ ⟨p, .leading⟩ :: ⟨p, .trailing⟩ :: c) = posOf t (S ++ c) := by
        cases S with
        | nil => exact absurd rfl hSn
        | cons y S => simp [posOf]
      rw [e1] at h2
      simp only [posOf_cons] at h2
      simp [h2]
    · convert I2 using 1
      simp only [AState.setWord, AState.setVal, AState.mk.injEq, and_true]
      funext q
      split
      · simp
      · rfl

/-! ## Construction and destruction -/

theorem Inv.create {W' : World T} (I : Inv W A) {t : Ptr} (hp : W.heap t = none)
    (hR : Rep W'.heap t []) (hS : W'.size t = 0) (hSo : ∀ q, q ≠ t → W'.size q = W.size q)
    (hF : ∀ q, q ≠ t → W'.heap q = W.heap q) : Inv W' (A.setWord t []) := by
  have hnew := I.none_iff.mp hp
  constructor
  · intro q v hv
    by_cases hq : q = t
    · subst hq; rw [AState.words_setWord] at hv; simp only [Option.some.injEq] at hv; subst hv; exact hR
    · rw [AState.words_setWord_ne hq] at hv
      refine (I.rep q v hv).congr ?_
      intro p hp'
      refine hF p ?_
      rintro rfl
      exact hnew q v hv hp'
  · intro q v hv
    by_cases hq : q = t
    · subst hq; left; exact hS
    · rw [AState.words_setWord_ne hq] at hv
      rw [hSo q hq]; exact I.size q v hv
  · intro q v q' v' p hv hv' h1 h2
    by_cases hq : q = t <;> by_cases hq' : q' = t
    · rw [hq, hq']
    · subst hq
      rw [AState.words_setWord] at hv; simp only [Option.some.injEq] at hv; subst hv
      rw [AState.words_setWord_ne hq'] at hv'
      simp only [support, List.map_nil, List.mem_singleton] at h1
      subst h1
      exact absurd h2 (hnew q' v' hv')
    · subst hq'
      rw [AState.words_setWord] at hv'; simp only [Option.some.injEq] at hv'; subst hv'
      rw [AState.words_setWord_ne hq] at hv
      simp only [support, List.map_nil, List.mem_singleton] at h2
      subst h2
      exact absurd h1 (hnew q v hv)
    · rw [AState.words_setWord_ne hq] at hv
      rw [AState.words_setWord_ne hq'] at hv'
      exact I.disj q v q' v' p hv hv' h1 h2
  · intro p h1
    by_cases hpt : p = t
    · subst hpt; exact ⟨p, [], AState.words_setWord, by simp [support]⟩
    · rw [hF p hpt] at h1
      obtain ⟨q, v, hv, hm⟩ := I.noleak p h1
      have hq : q ≠ t := by
        rintro rfl
        exact hnew q v hv (by simp [support])
      exact ⟨q, v, by rw [AState.words_setWord_ne hq]; exact hv, hm⟩
  · intro p
    by_cases hpt : p = t
    · subst hpt
      have h1 := I.val p
      obtain ⟨n, hn1, hn2⟩ := hR.tail_live
      simp only [valueAt, hp, Option.bind_none] at h1
      simp [valueAt, hn1, hn2, AState.setWord, ← h1]
    · have h1 := I.val p
      simp only [valueAt, hF p hpt] at h1 ⊢
      exact h1

/-- Default construction. -/
theorem newForest_refines (I : Inv W A) {t : Ptr} (hp : W.heap t = none) :
    ∃ W', newForest W t = some W' ∧ Inv W' (A.setWord t []) ∧
      ∀ q, q ≠ t → W'.heap q = W.heap q := by
  refine ⟨_, by simp [newForest, Heap.alloc, hp]; rfl, ?_, ?_⟩
  · refine I.create hp ?_ ?_ ?_ ?_
    · refine ⟨Balanced.nil, ?_, ?_, ?_, ?_, ?_⟩
      · simp [closed]
      · simp [closed, Linked, Heap.link, World.setSize, freshNode]
      · simp [Linked, Heap.link, World.setSize, freshNode]
      · simp [World.setSize, freshNode]
      · simp
    · simp [World.setSize]
    · intro q hq; simp [World.setSize, hq]
    · intro q hq; simp [World.setSize, hq]
  · intro q hq; simp [World.setSize, hq]

theorem Inv.delete (I : Inv W A) {t : Ptr} (hw : A.words t = some []) :
    Inv { W with heap := fun q => if q = t then none else W.heap q } (A.delWord t) := by
  have hsub : ∀ q v, (A.delWord t).words q = some v → q ≠ t ∧ A.words q = some v := by
    intro q v hv
    by_cases hq : q = t
    · subst hq; simp [AState.delWord] at hv
    · exact ⟨hq, by simpa [AState.delWord, hq] using hv⟩
  have hts : t ∈ support t [] := by simp [support]
  constructor
  · intro q v hv
    obtain ⟨hq, hv2⟩ := hsub q v hv
    refine (I.rep q v hv2).congr ?_
    intro p hp
    have : p ≠ t := by
      rintro rfl
      exact hq (I.disj q v p [] p hv2 hw hp hts)
    simp [this]
  · intro q v hv
    obtain ⟨hq, hv⟩ := hsub q v hv
    exact I.size q v hv
  · intro q v q' v' p hv hv' h1 h2
    exact I.disj q v q' v' p (hsub q v hv).2 (hsub q' v' hv').2 h1 h2
  · intro p h1
    by_cases hpt : p = t
    · simp [hpt] at h1
    · simp only [hpt, if_false] at h1
      obtain ⟨q, v, hv, hm⟩ := I.noleak p h1
      have hq : q ≠ t := by
        rintro rfl
        rw [hw] at hv; simp only [Option.some.injEq] at hv; subst hv
        simp only [support, List.map_nil, List.mem_singleton] at hm
        exact hpt hm
      exact ⟨q, v, by simp [AState.delWord, hq, hv], hm⟩
  · intro p
    by_cases hpt : p = t
    · subst hpt
      have h1 := I.val p
      obtain ⟨n, hn1, hn2⟩ := (I.rep p [] hw).tail_live
      simp only [valueAt, hn1, Option.bind_some, hn2] at h1
      simp [valueAt, AState.delWord, ← h1]
    · have h1 := I.val p
      simp only [valueAt, hpt, if_false] at h1 ⊢
      exact h1

/-- Destruction. -/
theorem destroy_refines (I : Inv W A) {t : Ptr} {w : List Iter} (hw : A.words t = some w) :
    ∃ W', destroy W t = some W' ∧ Inv W' ((A.dropVals w).delWord t) := by
  obtain ⟨W1, h1, I1, -⟩ := clear_refines I hw
  refine ⟨_, by simp [destroy, h1]; rfl, ?_⟩
  have := I1.delete (t := t) (by simp [AState.dropVals, AState.setWord])
  convert this using 1
  simp only [AState.delWord, AState.dropVals, AState.setWord, AState.mk.injEq, and_true]
  funext q; split <;> simp_all

/-! ## Moves -/

/-- Move construction. -/
theorem moveCtor_refines (I : Inv W A) {t x : Ptr} {v : List Iter} (hx : A.words x = some v)
    (hp : W.heap t = none) :
    ∃ W', moveCtor W t x = some W' ∧ Inv W' ((A.setWord x []).setWord t v) := by
  have htx : x ≠ t := by
    rintro rfl
    rw [I.words_none hp] at hx; simp at hx
  obtain ⟨W1, h1, I1, -⟩ := newForest_refines I hp
  have hx1 : (A.setWord t []).words x = some v := by rw [AState.words_setWord_ne htx]; exact hx
  obtain ⟨W2, h2, I2⟩ := spliceAll_two I1 (a := []) (c := []) htx
    (by rw [AState.words_setWord]; rfl) hx1
  refine ⟨W2, ?_, ?_⟩
  · rw [posOf_nil] at h2
    simp [moveCtor, h1, h2]
  · rw [AState.setWord_setWord, AState.setWord_comm htx.symm] at I2
    simpa using I2

theorem dropVals_setWord {t : Ptr} {w r : List Iter} :
    (A.setWord t w).dropVals r = (A.dropVals r).setWord t w := rfl

theorem words_dropVals {r : List Iter} : (A.dropVals r).words = A.words := rfl

theorem AState.delWord_setWord {t : Ptr} {w : List Iter} (h : A.words t = none) :
    (A.setWord t w).delWord t = A := by
  cases A with
  | mk words val =>
    simp only [AState.setWord, AState.delWord, AState.mk.injEq, and_true]
    funext q
    by_cases hq : q = t
    · subst hq; simp only [if_true]; exact h.symm
    · simp [hq]

/-- Move assignment from another forest. -/
theorem moveAssign_refines (I : Inv W A) {t x tmp : Ptr} {w v : List Iter} (htx : x ≠ t)
    (hw : A.words t = some w) (hx : A.words x = some v) (hp : W.heap tmp = none) :
    ∃ W', moveAssign W t x tmp = some W' ∧
      Inv W' (((A.setWord x []).setWord t v).dropVals w) := by
  have hA := I.words_none hp
  have htt : tmp ≠ t := by rintro rfl; rw [hA] at hw; simp at hw
  have htx' : tmp ≠ x := by rintro rfl; rw [hA] at hx; simp at hx
  obtain ⟨W1, h1, I1⟩ := moveCtor_refines I hx hp
  have hw1 : ((A.setWord x []).setWord tmp v).words t = some w := by
    rw [AState.words_setWord_ne htt.symm, AState.words_setWord_ne htx.symm]; exact hw
  obtain ⟨W2, h2, I2, -⟩ := clear_refines I1 hw1
  obtain ⟨W3, h3, I3⟩ := spliceAll_two I2 (t := t) (x := tmp) (v := v) (a := []) (c := []) htt
    (by simp [words_dropVals, AState.words_setWord])
    (by rw [words_dropVals, AState.words_setWord_ne htt, AState.words_setWord])
  obtain ⟨W4, h4, I4⟩ := destroy_refines I3 (t := tmp) (w := []) (by rw [AState.words_setWord])
  refine ⟨W4, ?_, ?_⟩
  · rw [posOf_nil] at h3
    simp [moveAssign, h1, h2, h3, h4]
  · rw [dropVals_nil, AState.delWord] at I4
    convert I4 using 1
    simp only [AState.setWord, AState.dropVals, AState.mk.injEq, List.nil_append, List.append_nil,
      and_true]
    funext q
    by_cases e1 : q = tmp
    · subst e1; simp [htt, htx', hA]
    · by_cases e2 : q = t
      · subst e2; simp [e1]
      · simp [e1, e2]

/-- Self move assignment keeps the content. -/
theorem moveAssign_self (I : Inv W A) {t tmp : Ptr} {w : List Iter}
    (hw : A.words t = some w) (hp : W.heap tmp = none) :
    ∃ W', moveAssign W t t tmp = some W' ∧ Inv W' A := by
  have hA := I.words_none hp
  have htt : tmp ≠ t := by rintro rfl; rw [hA] at hw; simp at hw
  obtain ⟨W1, h1, I1⟩ := moveCtor_refines I hw hp
  have hw1 : ((A.setWord t []).setWord tmp w).words t = some [] := by
    rw [AState.words_setWord_ne htt.symm, AState.words_setWord]
  obtain ⟨W2, h2, I2, -⟩ := clear_refines I1 hw1
  rw [dropVals_nil] at I2
  obtain ⟨W3, h3, I3⟩ := spliceAll_two I2 (t := t) (x := tmp) (v := w) (a := []) (c := []) htt
    (by simp [AState.words_setWord])
    (by rw [AState.words_setWord_ne htt, AState.words_setWord])
  obtain ⟨W4, h4, I4⟩ := destroy_refines I3 (t := tmp) (w := []) (by rw [AState.words_setWord])
  refine ⟨W4, ?_, ?_⟩
  · rw [posOf_nil] at h3
    simp [moveAssign, h1, h2, h3, h4]
  · rw [dropVals_nil, AState.delWord] at I4
    convert I4 using 1
    cases A with
    | mk words val =>
      simp only [AState.setWord, AState.mk.injEq, List.nil_append, List.append_nil, and_true]
      simp only at hA hw
      funext q
      by_cases e1 : q = tmp
      · subst e1; simp [hA]
      · by_cases e2 : q = t
        · subst e2; simp [e1, hw]
        · simp [e1, e2]

end Verif.Forest
