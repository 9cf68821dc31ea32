import Verif.Forest.Surgery

/-! # The modifiers refine edits of the word -/

namespace Verif.Forest

variable {T : Type} {W : World T} {A : AState T}

theorem nodes_append (a b : List Iter) : nodes (a ++ b) = nodes a ++ nodes b := by
  simp [nodes]

theorem nodes_nil : nodes [] = [] := rfl

theorem nodes_cons_leading (n : Ptr) (w : List Iter) : nodes (⟨n, .leading⟩ :: w) = n :: nodes w := by
  simp [nodes]

theorem nodes_cons_trailing (n : Ptr) (w : List Iter) : nodes (⟨n, .trailing⟩ :: w) = nodes w := by
  simp [nodes]

theorem Balanced.nodes_eq_nil {w : List Iter} (h : Balanced w) : nodes w = [] ↔ w = [] := by
  cases h with
  | nil => simp [nodes]
  | cons n _ _ => simp [nodes_cons_leading]

theorem Rep.support_ne_none {h : Heap T} {t : Ptr} {w : List Iter} (R : Rep h t w) {p : Ptr}
    (hp : p ∈ support t w) : h p ≠ none := by
  obtain ⟨x, hx, rfl⟩ := mem_support_closed.mp hp
  have := R.isSome hx
  intro h0; simp [h0] at this

theorem dataOf_of_eq {h h' : Heap T} {p : Ptr} (e : h' p = h p) : dataOf h' p = dataOf h p := by
  simp [dataOf, e]

theorem sizeValid_eq {t : Ptr} {w : List Iter} (R : Rep W.heap t w) :
    sizeValid W t = some (decide (W.size t ≠ 0 ∨ w = [])) := by
  unfold sizeValid
  split
  · rename_i h; simp [h]
  · rename_i h
    rw [R.isEmpty_eq]
    simp only [ne_eq, Decidable.not_not] at h
    cases w <;> simp [h]

/-- Replacing the word of one forest. -/
theorem Inv.update1 {W' : World T} {A' : AState T} (I : Inv W A) {t : Ptr} {w w' : List Iter}
    (hw : A.words t = some w) (hA : A'.words = (A.setWord t w').words)
    (hR : Rep W'.heap t w') (hS : W'.size t = 0 ∨ W'.size t = (nodes w').length)
    (hSo : ∀ q, q ≠ t → W'.size q = W.size q)
    (hF : ∀ q, q ∉ support t w → q ∉ support t w' → W'.heap q = W.heap q)
    (hnew : ∀ q ∈ support t w', q ∈ support t w ∨ W.heap q = none)
    (hold : ∀ q ∈ support t w, q ∉ support t w' → W'.heap q = none)
    (hV : ∀ p, valueAt W'.heap p = A'.val p) : Inv W' A' := by
  have hwt : A'.words t = some w' := by simp [hA, AState.setWord]
  have hwo : ∀ q, q ≠ t → A'.words q = A.words q := by
    intro q hq; simp [hA, AState.setWord, hq]
  have hdis : ∀ q v p, q ≠ t → A.words q = some v → p ∈ support q v → p ∉ support t w' := by
    intro q v p hq hv hp hp'
    rcases hnew p hp' with h | h
    · exact hq (I.disj q v t w p hv hw hp h)
    · exact (I.rep q v hv).support_ne_none hp h
  constructor
  · intro q v hv
    by_cases hq : q = t
    · subst hq
      rw [hwt] at hv; simp only [Option.some.injEq] at hv; subst hv
      exact hR
    · rw [hwo q hq] at hv
      refine (I.rep q v hv).congr ?_
      intro p hp
      refine hF p ?_ (hdis q v p hq hv hp)
      exact fun hp' => hq (I.disj q v t w p hv hw hp hp')
  · intro q v hv
    by_cases hq : q = t
    · subst hq
      rw [hwt] at hv; simp only [Option.some.injEq] at hv; subst hv
      exact hS
    · rw [hwo q hq] at hv
      rw [hSo q hq]
      exact I.size q v hv
  · intro q v q' v' p hv hv' hp hp'
    by_cases hq : q = t <;> by_cases hq' : q' = t
    · rw [hq, hq']
    · subst hq
      rw [hwt] at hv; simp only [Option.some.injEq] at hv; subst hv
      rw [hwo q' hq'] at hv'
      exact absurd hp (hdis q' v' p hq' hv' hp')
    · subst hq'
      rw [hwt] at hv'; simp only [Option.some.injEq] at hv'; subst hv'
      rw [hwo q hq] at hv
      exact absurd hp' (hdis q v p hq hv hp)
    · rw [hwo q hq] at hv
      rw [hwo q' hq'] at hv'
      exact I.disj q v q' v' p hv hv' hp hp'
  · intro p hp
    by_cases h1 : p ∈ support t w'
    · exact ⟨t, w', hwt, h1⟩
    · by_cases h2 : p ∈ support t w
      · exact absurd (hold p h2 h1) hp
      · rw [hF p h2 h1] at hp
        obtain ⟨q, v, hv, hpv⟩ := I.noleak p hp
        have hq : q ≠ t := by
          rintro rfl
          rw [hw] at hv; simp only [Option.some.injEq] at hv; subst hv
          exact h2 hpv
        exact ⟨q, v, by rw [hwo q hq]; exact hv, hpv⟩
  · exact hV

/-- Replacing the words of two forests by redistributing their nodes. -/
theorem Inv.update2 {W' : World T} {A' : AState T} (I : Inv W A) {t x : Ptr} (htx : x ≠ t)
    {w w' v v' : List Iter}
    (hw : A.words t = some w) (hv : A.words x = some v)
    (hA : A'.words = ((A.setWord t w').setWord x v').words)
    (hR : Rep W'.heap t w') (hRx : Rep W'.heap x v')
    (hS : W'.size t = 0 ∨ W'.size t = (nodes w').length)
    (hSx : W'.size x = 0 ∨ W'.size x = (nodes v').length)
    (hSo : ∀ q, q ≠ t → q ≠ x → W'.size q = W.size q)
    (hF : ∀ q, q ∉ support t w → q ∉ support x v → W'.heap q = W.heap q)
    (hsame : ∀ q, (q ∈ support t w ∨ q ∈ support x v) ↔ (q ∈ support t w' ∨ q ∈ support x v'))
    (hdisj : ∀ q, q ∈ support t w' → q ∉ support x v')
    (hV : ∀ p, valueAt W'.heap p = A'.val p) : Inv W' A' := by
  have hwt : A'.words t = some w' := by simp [hA, AState.setWord, Ne.symm htx]
  have hwx : A'.words x = some v' := by simp [hA, AState.setWord]
  have hwo : ∀ q, q ≠ t → q ≠ x → A'.words q = A.words q := by
    intro q hq hq'; simp [hA, AState.setWord, hq, hq']
  have hdis : ∀ q u p, q ≠ t → q ≠ x → A.words q = some u → p ∈ support q u →
      p ∉ support t w ∧ p ∉ support x v := by
    intro q u p hq hqx hu hp
    exact ⟨fun hp' => hq (I.disj q u t w p hu hw hp hp'),
      fun hp' => hqx (I.disj q u x v p hu hv hp hp')⟩
  have hdis' : ∀ q u p, q ≠ t → q ≠ x → A.words q = some u → p ∈ support q u →
      p ∉ support t w' ∧ p ∉ support x v' := by
    intro q u p hq hqx hu hp
    have := hdis q u p hq hqx hu hp
    have h2 := hsame p
    tauto
  constructor
  · intro q u hu
    by_cases hq : q = t
    · subst hq
      rw [hwt] at hu; simp only [Option.some.injEq] at hu; subst hu
      exact hR
    · by_cases hqx : q = x
      · subst hqx
        rw [hwx] at hu; simp only [Option.some.injEq] at hu; subst hu
        exact hRx
      · rw [hwo q hq hqx] at hu
        refine (I.rep q u hu).congr ?_
        intro p hp
        exact hF p (hdis q u p hq hqx hu hp).1 (hdis q u p hq hqx hu hp).2
  · intro q u hu
    by_cases hq : q = t
    · subst hq
      rw [hwt] at hu; simp only [Option.some.injEq] at hu; subst hu
      exact hS
    · by_cases hqx : q = x
      · subst hqx
        rw [hwx] at hu; simp only [Option.some.injEq] at hu; subst hu
        exact hSx
      · rw [hwo q hq hqx] at hu
        rw [hSo q hq hqx]
        exact I.size q u hu
  · have key : ∀ q u p, A'.words q = some u → p ∈ support q u →
        (q = t ∧ p ∈ support t w') ∨ (q = x ∧ p ∈ support x v') ∨
        (q ≠ t ∧ q ≠ x ∧ A.words q = some u ∧ p ∉ support t w' ∧ p ∉ support x v') := by
      intro q u p hu hp
      by_cases hq : q = t
      · subst hq
        rw [hwt] at hu; simp only [Option.some.injEq] at hu; subst hu
        exact Or.inl ⟨rfl, hp⟩
      · by_cases hqx : q = x
        · subst hqx
          rw [hwx] at hu; simp only [Option.some.injEq] at hu; subst hu
          exact Or.inr (Or.inl ⟨rfl, hp⟩)
        · rw [hwo q hq hqx] at hu
          have := hdis' q u p hq hqx hu hp
          exact Or.inr (Or.inr ⟨hq, hqx, hu, this.1, this.2⟩)
    intro q u q' u' p hu hu' hp hp'
    rcases key q u p hu hp with ⟨rfl, h1⟩ | ⟨rfl, h1⟩ | ⟨h1, h2, h3, h4, h5⟩ <;>
      rcases key q' u' p hu' hp' with ⟨rfl, h1'⟩ | ⟨rfl, h1'⟩ | ⟨h1', h2', h3', h4', h5'⟩
    · rfl
    · exact absurd h1' (hdisj p h1)
    · exact absurd h1 h4'
    · exact absurd h1 (hdisj p h1')
    · rfl
    · exact absurd h1 h5'
    · exact absurd h1' h4
    · exact absurd h1' h5
    · exact I.disj q u q' u' p h3 h3' hp hp'
  · intro p hp
    by_cases h1 : p ∈ support t w'
    · exact ⟨t, w', hwt, h1⟩
    by_cases h2 : p ∈ support x v'
    · exact ⟨x, v', hwx, h2⟩
    have h3 := hsame p
    have h4 : p ∉ support t w := by tauto
    have h5 : p ∉ support x v := by tauto
    rw [hF p h4 h5] at hp
    obtain ⟨q, u, hu, hpu⟩ := I.noleak p hp
    have hq : q ≠ t := by
      rintro rfl
      rw [hw] at hu; simp only [Option.some.injEq] at hu; subst hu
      exact h4 hpu
    have hqx : q ≠ x := by
      rintro rfl
      rw [hv] at hu; simp only [Option.some.injEq] at hu; subst hu
      exact h5 hpu
    exact ⟨q, u, by rw [hwo q hq hqx]; exact hu, hpu⟩
  · exact hV

theorem notMem_support_of_none {h : Heap T} {t : Ptr} {w : List Iter} (R : Rep h t w) {p : Ptr}
    (hp : h p = none) : p ∉ support t w := fun hm => R.support_ne_none hm hp

theorem notMem_closed_of_notMem_support {t : Ptr} {w : List Iter} {p : Ptr}
    (hp : p ∉ support t w) (e : Edge) : (⟨p, e⟩ : Iter) ∉ closed t w :=
  fun hm => hp (mem_support_closed.mpr ⟨_, hm, rfl⟩)

theorem NextEff.frame_support {h h' : Heap T} {x y : Iter} (E : NextEff h h' x y) {t : Ptr}
    {w : List Iter} (hx : x ∈ closed t w) (hy : y ∈ closed t w) {q : Ptr} (hq : q ∉ support t w) :
    h' q = h q :=
  E.frame q (fun he => hq (mem_support_closed.mpr ⟨x, hx, he.symm⟩))
    (fun he => hq (mem_support_closed.mpr ⟨y, hy, he.symm⟩))

theorem support_insert {t p : Ptr} {a b : List Iter} {q : Ptr} :
    q ∈ support t (a ++ (([⟨p, .leading⟩, ⟨p, .trailing⟩] : List Iter) ++ b)) ↔
      q = p ∨ q ∈ support t (a ++ b) := by
  simp only [support, List.mem_cons, List.mem_map, List.mem_append, List.not_mem_nil, or_false]
  constructor
  · rintro (h | ⟨x, h | (rfl | rfl) | h, rfl⟩)
    · exact Or.inr (Or.inl h)
    · exact Or.inr (Or.inr ⟨x, Or.inl h, rfl⟩)
    · exact Or.inl rfl
    · exact Or.inl rfl
    · exact Or.inr (Or.inr ⟨x, Or.inr h, rfl⟩)
  · rintro (rfl | h | ⟨x, h, rfl⟩)
    · exact Or.inr ⟨⟨q, .leading⟩, by simp, rfl⟩
    · exact Or.inl h
    · exact Or.inr ⟨x, by tauto, rfl⟩

/-- Heap and size effect of `insert`. -/
theorem insert_heap {t p : Ptr} {a b : List Iter} (R : Rep W.heap t (a ++ b))
    (hp : W.heap p = none) (x : T) :
    ∃ W', insert W t (posOf t b) x p = some (W', ⟨p, .leading⟩) ∧
      Rep W'.heap t (a ++ (([⟨p, .leading⟩, ⟨p, .trailing⟩] : List Iter) ++ b)) ∧
      (∀ q, q ≠ t → W'.size q = W.size q) ∧
      (W'.size t = if W.size t ≠ 0 ∨ a ++ b = [] then W.size t + 1 else W.size t) ∧
      (∀ q, q ≠ p → q ∉ support t (a ++ b) → W'.heap q = W.heap q) ∧
      (∀ q, valueAt W'.heap q = if q = p then some x else valueAt W.heap q) := by
  have hpns := notMem_support_of_none R hp
  obtain ⟨h0, hh0⟩ : ∃ h0 : Heap T, h0 = fun q => if q = p then some (freshNode p (some x)) else W.heap q := ⟨_, rfl⟩
  have hal : W.heap.alloc p (some x) = some h0 := by simp [Heap.alloc, hp, hh0]
  have h0o : ∀ q, q ≠ p → h0 q = W.heap q := by intro q hq; simp [hh0, hq]
  have h0p : h0 p = some (freshNode p (some x)) := by simp [hh0]
  have R0 : Rep h0 t (a ++ b) := R.congr (fun q hq => h0o q (fun he => hpns (he ▸ hq)))
  have hseg : Seg h0 [⟨p, .leading⟩, ⟨p, .trailing⟩] := by
    refine ⟨Balanced.leaf p, by simp, ?_, ?_⟩
    · rw [List.isChain_cons_cons]
      exact ⟨⟨by simp [Heap.link, h0p, freshNode], by simp [Heap.link, h0p, freshNode]⟩,
        List.IsChain.singleton _⟩
    · intro y hy
      simp at hy
      rcases hy with rfl | rfl <;> exact ⟨x, by simp [dataOf, h0p, freshNode]⟩
  have hdis : ∀ y ∈ ([⟨p, .leading⟩, ⟨p, .trailing⟩] : List Iter), y ∉ closed t (a ++ b) := by
    intro y hy
    simp at hy
    rcases hy with rfl | rfl <;> exact notMem_closed_of_notMem_support hpns _
  obtain ⟨h1, h2, hs1, hs2, E1, E2, R2⟩ := R0.paste hseg hdis (f := ⟨p, .leading⟩)
    (b := ⟨p, .trailing⟩) (by simp) (by simp)
  have hsv : sizeValid { W with heap := h0 } t = some (decide (W.size t ≠ 0 ∨ a ++ b = [])) :=
    sizeValid_eq (W := { W with heap := h0 }) R0
  have hne : (⟨p, .leading⟩ : Iter) ≠ priorOf t a := by
    rintro he
    exact hdis ⟨p, .leading⟩ (by simp) (he ▸ priorOf_mem a b)
  have hinc : incr h1 ⟨p, .leading⟩ = some ⟨p, .trailing⟩ := by
    have hl := E1.next_other ⟨p, .leading⟩ hne
    simp only at hl
    have : h0.link p .leading .next = some p := by simp [Heap.link, h0p, freshNode]
    simp [incr, hl, this, Edge.ofBool]
  let W1 : World T := { W with heap := h0 }
  let W2 : World T := if W.size t ≠ 0 ∨ a ++ b = [] then W1.setSize t (W.size t + 1) else W1
  have hW2 : W2.heap = h0 := by
    show (if W.size t ≠ 0 ∨ a ++ b = [] then W1.setSize t (W.size t + 1) else W1).heap = h0
    split <;> rfl
  have hrun : insert W t (posOf t b) x p = some ({ W2 with heap := h2 }, ⟨p, .leading⟩) := by
    simp only [insert, hal, Option.bind_eq_bind, Option.bind_some, hsv]
    have e : (if decide (W.size t ≠ 0 ∨ a ++ b = []) = true then
        ({ W with heap := h0 } : World T).setSize t (W.size t + 1)
        else { W with heap := h0 }) = W2 := by
      simp [W2, W1]
    rw [e, hW2, R0.decr_split]
    simp [hs1, hinc, hs2]
  refine ⟨_, hrun, R2, ?_, ?_, ?_, ?_⟩
  · intro q hq
    show W2.size q = W.size q
    simp only [W2, W1]
    split <;> simp [World.setSize, hq]
  · show W2.size t = _
    simp only [W2, W1]
    split <;> simp [World.setSize]
  · intro q hq1 hq2
    show h2 q = W.heap q
    have e2 : h2 q = h1 q := E2.frame q hq1
      (fun he => hq2 (mem_support_closed.mpr ⟨_, posOf_mem a b, he.symm⟩))
    have e1 : h1 q = h0 q := E1.frame q
      (fun he => hq2 (mem_support_closed.mpr ⟨_, priorOf_mem a b, he.symm⟩)) hq1
    rw [e2, e1, h0o q hq1]
  · intro q
    show valueAt h2 q = _
    rw [valueAt_eq_dataOf, E2.data, E1.data, ← valueAt_eq_dataOf]
    by_cases hq : q = p
    · subst hq; simp [valueAt, h0p, freshNode]
    · simp [valueAt, h0o q hq, hq]

/-- `insert` at any position of any forest. -/
theorem insert_refines (I : Inv W A) {t p : Ptr} {a b : List Iter} (hw : A.words t = some (a ++ b))
    (hp : W.heap p = none) (x : T) :
    ∃ W', insert W t (posOf t b) x p = some (W', ⟨p, .leading⟩) ∧
      Inv W' ((A.setWord t (a ++ (([⟨p, .leading⟩, ⟨p, .trailing⟩] : List Iter) ++ b))).setVal p
        (some x)) := by
  have R := I.rep t _ hw
  obtain ⟨W', hrun, R', hso, hst, hF, hV⟩ := insert_heap R hp x
  refine ⟨W', hrun, ?_⟩
  refine I.update1 hw (w' := a ++ (([⟨p, .leading⟩, ⟨p, .trailing⟩] : List Iter) ++ b)) rfl R' ?_ hso ?_
    ?_ ?_ ?_
  · rw [hst]
    have hs := I.size t _ hw
    simp only [nodes_append, nodes_cons_leading, nodes_cons_trailing, nodes_nil, List.length_append,
      List.length_cons, List.length_nil] at hs ⊢
    split
    · rename_i h
      rcases h with h | h
      · omega
      · right
        simp only [List.append_eq_nil_iff] at h
        obtain ⟨rfl, rfl⟩ := h
        simp [nodes] at hs ⊢; exact hs
    · rename_i h
      simp only [not_or, Decidable.not_not] at h
      omega
  · intro q h1 h2
    rw [support_insert, not_or] at h2
    exact hF q h2.1 h1
  · intro q hq
    rw [support_insert] at hq
    rcases hq with rfl | hq
    · exact Or.inr hp
    · exact Or.inl hq
  · intro q h1 h2
    rw [support_insert, not_or] at h2
    exact absurd h1 h2.2
  · intro q
    rw [hV, I.val]
    simp [AState.setVal, AState.setWord]

end Verif.Forest
