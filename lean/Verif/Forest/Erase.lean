import Verif.Forest.Ops

/-! # `erase(position)` -/

namespace Verif.Forest

variable {T : Type} {W : World T} {A : AState T}

theorem priorOf_concat {t : Ptr} (a : List Iter) (x : Iter) : priorOf t (a ++ [x]) = x := by
  simp [priorOf]

theorem posOf_cons {t : Ptr} (x : Iter) (b : List Iter) : posOf t (x :: b) = x := by
  simp [posOf]

theorem posOf_nil {t : Ptr} : posOf t [] = end_ t := rfl

/-- In a well formed word the node of a bracketed pair occurs nowhere else. -/
theorem node_unique {a b c : List Iter} {n : Ptr}
    (hN : (a ++ (⟨n, .leading⟩ :: (b ++ ⟨n, .trailing⟩ :: c)) : List Iter).Nodup) {y : Iter}
    (hy : y ∈ a ++ (b ++ c)) : y.node ≠ n := by
  intro he
  have hmem : y ∈ [(⟨n, .leading⟩ : Iter), ⟨n, .trailing⟩] :=
    mem_of_node_eq (by simp) (by simp) he
  have hp : (a ++ (⟨n, .leading⟩ :: (b ++ ⟨n, .trailing⟩ :: c)) : List Iter).Perm
      ([(⟨n, .leading⟩ : Iter), ⟨n, .trailing⟩] ++ (a ++ (b ++ c))) := by
    refine List.perm_middle.trans ?_
    refine List.Perm.cons _ ?_
    have : a ++ (b ++ (⟨n, .trailing⟩ : Iter) :: c) = (a ++ b) ++ ⟨n, .trailing⟩ :: c := by simp
    rw [this]
    refine List.perm_middle.trans ?_
    simp
  exact disjoint_of_nodup (hp.nodup_iff.mp hN) hmem hy

theorem Balanced.unbracket {a b c : List Iter} {n : Ptr}
    (h : Balanced (a ++ (⟨n, .leading⟩ :: (b ++ ⟨n, .trailing⟩ :: c)))) (hb : Balanced b) :
    Balanced (a ++ (b ++ c)) := by
  have h1 : Balanced (a ++ ((⟨n, .leading⟩ :: (b ++ [⟨n, .trailing⟩])) ++ c)) := by simpa using h
  exact (h1.remove (Balanced.tree n hb)).insert hb

theorem support_bracket {t n : Ptr} {a b c : List Iter} {q : Ptr} :
    q ∈ support t (a ++ (⟨n, .leading⟩ :: (b ++ ⟨n, .trailing⟩ :: c))) ↔
      q = n ∨ q ∈ support t (a ++ (b ++ c)) := by
  simp only [support, List.mem_cons, List.mem_map, List.mem_append]
  constructor
  · rintro (h | ⟨x, h | rfl | h | rfl | h, rfl⟩)
    · exact Or.inr (Or.inl h)
    · exact Or.inr (Or.inr ⟨x, Or.inl h, rfl⟩)
    · exact Or.inl rfl
    · exact Or.inr (Or.inr ⟨x, Or.inr (Or.inl h), rfl⟩)
    · exact Or.inl rfl
    · exact Or.inr (Or.inr ⟨x, Or.inr (Or.inr h), rfl⟩)
  · rintro (rfl | h | ⟨x, h, rfl⟩)
    · exact Or.inr ⟨⟨q, .leading⟩, by simp, rfl⟩
    · exact Or.inl h
    · exact Or.inr ⟨x, by tauto, rfl⟩

theorem hasChildren_eq {h : Heap T} {t n : Ptr} {a b c : List Iter} {e : Edge}
    (R : Rep h t (a ++ (⟨n, .leading⟩ :: (b ++ ⟨n, .trailing⟩ :: c)))) :
    hasChildren h ⟨n, e⟩ = some (decide (b ≠ [])) := by
  have hN := R.nodup_word
  have hln : incr h ⟨n, .leading⟩ = some (posOf t (b ++ ⟨n, .trailing⟩ :: c)) := by
    have R' : Rep h t ((a ++ [⟨n, .leading⟩]) ++ (b ++ ⟨n, .trailing⟩ :: c)) := by simpa using R
    have := R'.incr_split
    rwa [priorOf_concat] at this
  simp only [hasChildren, Iter.leadingOf, hln, Option.bind_eq_bind, Option.bind_some]
  cases b with
  | nil => simp [posOf]
  | cons y b =>
    have : y.node ≠ n := node_unique hN (by simp)
    simp [posOf, Ne.symm this]

/-- Heap and size effect of `erase(position)`. -/
theorem erase_heap {t n : Ptr} {a b c : List Iter} {e : Edge}
    (R : Rep W.heap t (a ++ (⟨n, .leading⟩ :: (b ++ ⟨n, .trailing⟩ :: c)))) (hb : Balanced b) :
    ∃ W', erase W t ⟨n, e⟩ =
        some (W', if e = .leading then posOf t (b ++ c) else posOf t c) ∧
      Rep W'.heap t (a ++ (b ++ c)) ∧ W'.heap n = none ∧
      (∀ q, q ≠ t → W'.size q = W.size q) ∧
      (W'.size t = W.size t - 1) ∧
      (∀ q, q ∉ support t (a ++ (⟨n, .leading⟩ :: (b ++ ⟨n, .trailing⟩ :: c))) →
        W'.heap q = W.heap q) ∧
      (∀ q, valueAt W'.heap q = if q = n then none else valueAt W.heap q) := by
  have hN := R.nodup_word
  have hwne : a ++ (⟨n, .leading⟩ :: (b ++ ⟨n, .trailing⟩ :: c)) ≠ [] := by simp
  -- size
  obtain ⟨W1, hW1, hW1h, hso, hst⟩ : ∃ W1 : World T,
      (do if ← sizeValid W t then (usub (W.size t) 1).map (W.setSize t) else some W) = some W1 ∧
      W1.heap = W.heap ∧ (∀ q, q ≠ t → W1.size q = W.size q) ∧ W1.size t = W.size t - 1 := by
    rw [sizeValid_eq R]
    by_cases hz : W.size t = 0
    · refine ⟨W, ?_, rfl, fun _ _ => rfl, by omega⟩
      simp [hz]
    · refine ⟨W.setSize t (W.size t - 1), ?_, rfl, ?_, ?_⟩
      · have : 1 ≤ W.size t := by omega
        simp [hz, usub, this]
      · intro q hq; simp [World.setSize, hq]
      · simp [World.setSize]
  -- navigation
  have hlp : decr W.heap ⟨n, .leading⟩ = some (priorOf t a) := by
    have := R.decr_split
    rwa [posOf_cons] at this
  have hln : incr W.heap ⟨n, .leading⟩ = some (posOf t (b ++ ⟨n, .trailing⟩ :: c)) := by
    have R' : Rep W.heap t ((a ++ [⟨n, .leading⟩]) ++ (b ++ ⟨n, .trailing⟩ :: c)) := by simpa using R
    have := R'.incr_split
    rwa [priorOf_concat] at this
  have htp : decr W.heap ⟨n, .trailing⟩ = some (priorOf t (a ++ ⟨n, .leading⟩ :: b)) := by
    have R' : Rep W.heap t ((a ++ ⟨n, .leading⟩ :: b) ++ (⟨n, .trailing⟩ :: c)) := by simpa using R
    have := R'.decr_split
    rwa [posOf_cons] at this
  have htn : incr W.heap ⟨n, .trailing⟩ = some (posOf t c) := by
    have R' : Rep W.heap t ((a ++ ⟨n, .leading⟩ :: (b ++ [⟨n, .trailing⟩])) ++ c) := by simpa using R
    have := R'.incr_split
    have e : a ++ ⟨n, .leading⟩ :: (b ++ [(⟨n, .trailing⟩ : Iter)]) =
      (a ++ ⟨n, .leading⟩ :: b) ++ [⟨n, .trailing⟩] := by simp
    rw [e, priorOf_concat] at this
    exact this
  have hhc : hasChildren W.heap ⟨n, e⟩ = some (decide (b ≠ [])) := hasChildren_eq R
  have hcl : closed t (a ++ (⟨n, .leading⟩ :: (b ++ ⟨n, .trailing⟩ :: c))) =
      (root t :: a) ++ (⟨n, .leading⟩ :: (b ++ (⟨n, .trailing⟩ :: (c ++ [end_ t])))) := by
    simp [closed, root, end_]
  have hpm : ∀ q ∉ support t (a ++ (⟨n, .leading⟩ :: (b ++ ⟨n, .trailing⟩ :: c))),
      ∀ y ∈ closed t (a ++ (⟨n, .leading⟩ :: (b ++ ⟨n, .trailing⟩ :: c))), q ≠ y.node :=
    fun q hq y hy he => hq (mem_support_closed.mpr ⟨y, hy, he.symm⟩)
  have hpr : priorOf t a ∈ closed t (a ++ (⟨n, .leading⟩ :: (b ++ ⟨n, .trailing⟩ :: c))) :=
    priorOf_mem a _
  have hpo : posOf t c ∈ closed t (a ++ (⟨n, .leading⟩ :: (b ++ ⟨n, .trailing⟩ :: c))) := by
    have : a ++ (⟨n, .leading⟩ :: (b ++ (⟨n, .trailing⟩ : Iter) :: c)) =
      (a ++ (⟨n, .leading⟩ :: (b ++ [⟨n, .trailing⟩]))) ++ c := by simp
    rw [this]; exact posOf_mem _ c
  -- relinking
  obtain ⟨h2, hrel, R2, hF2, hD2⟩ : ∃ h2 : Heap T,
      (if decide (b ≠ []) then do
        let h ← setNext W.heap (priorOf t a) (posOf t (b ++ ⟨n, .trailing⟩ :: c))
        setNext h (priorOf t (a ++ ⟨n, .leading⟩ :: b)) (posOf t c)
      else setNext W.heap (priorOf t a) (posOf t c)) = some h2 ∧ Rep h2 t (a ++ (b ++ c)) ∧
      (∀ q, q ∉ support t (a ++ (⟨n, .leading⟩ :: (b ++ ⟨n, .trailing⟩ :: c))) →
        h2 q = W.heap q) ∧ (∀ q, dataOf h2 q = dataOf W.heap q) := by
    by_cases hbn : b = []
    · subst hbn
      have R' : Rep W.heap t (a ++ (([⟨n, .leading⟩, ⟨n, .trailing⟩] : List Iter) ++ c)) := by
        simpa using R
      obtain ⟨h', hs, E, R'', -⟩ := R'.cut (Balanced.leaf n)
      refine ⟨h', by simpa using hs, by simpa using R'', ?_, E.data⟩
      intro q hq
      exact E.frame q (hpm q hq _ hpr) (hpm q hq _ hpo)
    · obtain ⟨f, b', hbf⟩ : ∃ f b', b = f :: b' := by
        cases b with
        | nil => exact absurd rfl hbn
        | cons f b' => exact ⟨f, b', rfl⟩
      obtain ⟨b'', l, hbl⟩ : ∃ b'' l, b = b'' ++ [l] := by
        rcases List.eq_nil_or_concat b with rfl | ⟨b'', l, rfl⟩
        · exact absurd rfl hbn
        · exact ⟨b'', l, by simp⟩
      have hC := R.chain
      rw [hcl] at hC
      have hC1 := (List.isChain_append.mp hC).1
      have hC2 : List.IsChain (Linked W.heap) (b ++ (⟨n, .trailing⟩ :: (c ++ [end_ t]))) :=
        (List.isChain_append.mp hC).2.1.tail
      have hCb := (List.isChain_append.mp hC2).1
      have hCc : List.IsChain (Linked W.heap) (c ++ [end_ t]) :=
        (List.isChain_append.mp hC2).2.1.tail
      have hsub : List.Sublist (a ++ (b ++ c))
          (a ++ (⟨n, .leading⟩ :: (b ++ ⟨n, .trailing⟩ :: c))) := by
        refine List.Sublist.append (List.Sublist.refl _) (List.Sublist.cons _ ?_)
        exact List.Sublist.append (List.Sublist.refl _) (List.sublist_cons_self _ _)
      obtain ⟨h1, h2, hs1, hs2, E1, E2, R2⟩ := stitch (h := W.heap) (t := t) (a := a) (S := b)
        (c := c) (R.balanced.unbracket hb)
        (R.nodup.sublist (List.Sublist.cons_cons _ (List.Sublist.append hsub (List.Sublist.refl _))))
        hC1 hCb hCc R.wrap R.tail_data (fun x hx => R.data (hsub.subset hx))
        (f := f) (b := l) (by simp [hbf]) (by simp [hbl])
      have e1 : posOf t (b ++ ⟨n, .trailing⟩ :: c) = f := by rw [hbf]; simp [posOf]
      have e2 : priorOf t (a ++ ⟨n, .leading⟩ :: b) = l := by
        rw [hbl]
        have : a ++ ⟨n, .leading⟩ :: (b'' ++ [l]) = (a ++ ⟨n, .leading⟩ :: b'') ++ [l] := by simp
        rw [this, priorOf_concat]
      refine ⟨h2, ?_, R2, ?_, fun q => by rw [E2.data, E1.data]⟩
      · simp [hbn, e1, e2, hs1, hs2]
      · intro q hq
        have hfm : f ∈ closed t (a ++ (⟨n, .leading⟩ :: (b ++ ⟨n, .trailing⟩ :: c))) := by
          rw [hcl, hbf]; simp
        have hlm : l ∈ closed t (a ++ (⟨n, .leading⟩ :: (b ++ ⟨n, .trailing⟩ :: c))) := by
          rw [hcl, hbl]; simp
        rw [E2.frame q (hpm q hq _ hlm) (hpm q hq _ hpo),
          E1.frame q (hpm q hq _ hpr) (hpm q hq _ hfm)]
  -- delete
  have hnns : n ∉ support t (a ++ (b ++ c)) := by
    simp only [support, List.mem_cons, List.mem_map, not_or, not_exists, not_and]
    refine ⟨?_, fun y hy => node_unique hN hy⟩
    rintro rfl
    exact R.end_notin .leading (by simp)
  obtain ⟨v, hv⟩ := R.data (x := ⟨n, .leading⟩) (by simp)
  have hfree : h2.free n = some fun q => if q = n then none else h2 q := by
    have := hD2 n
    rw [hv] at this
    simp only [dataOf, Option.map_eq_some_iff] at this
    obtain ⟨⟨l, d⟩, hn, hd⟩ := this
    simp only at hd
    subst hd
    simp [Heap.free, hn]
  have R3 : Rep (fun q => if q = n then none else h2 q) t (a ++ (b ++ c)) := by
    refine R2.congr ?_
    intro p hp
    have : p ≠ n := fun he => hnns (he ▸ hp)
    simp [this]
  refine ⟨{ W1 with heap := fun q => if q = n then none else h2 q }, ?_, R3, by simp, hso, hst, ?_, ?_⟩
  · have hR3 := R3.incr_split
    simp only [erase, Option.bind_eq_bind] at hW1 ⊢
    rw [sizeValid_eq R] at hW1 ⊢
    have fin : ∀ W2 : World T, W2.heap = W.heap → W2.size = W1.size →
        (do
          let lp ← decr W2.heap (Iter.leadingOf ⟨n, e⟩)
          let ln ← incr W2.heap (Iter.leadingOf ⟨n, e⟩)
          let tp ← decr W2.heap (Iter.trailingOf ⟨n, e⟩)
          let tn ← incr W2.heap (Iter.trailingOf ⟨n, e⟩)
          let hc ← hasChildren W2.heap ⟨n, e⟩
          let h ← if hc then do
              let h ← setNext W2.heap lp ln
              setNext h tp tn
            else setNext W2.heap lp tn
          let h ← h.free n
          let r ← if e = .leading then incr h lp else some tn
          return ({ W2 with heap := h }, r)) =
        some (({ W1 with heap := fun q => if q = n then none else h2 q } : World T),
          if e = Edge.leading then posOf t (b ++ c) else posOf t c) := by
      intro W2 hh hs
      simp only [hh, hs, Iter.leadingOf, Iter.trailingOf, hlp, hln, htp, htn, hhc,
        Option.bind_eq_bind, Option.bind_some] at hrel ⊢
      by_cases hbn : b = []
      · simp only [hbn, ne_eq, not_true_eq_false, decide_false, Bool.false_eq_true, if_false] at hrel ⊢
        rw [hrel]
        simp only [Option.bind_some, hfree]
        cases e with
        | leading =>
          rw [hbn] at hR3
          simp only [List.nil_append] at hR3
          simp [hR3]
        | trailing => simp
      · simp only [hbn, ne_eq, not_false_eq_true, decide_true, if_true] at hrel ⊢
        obtain ⟨h1, e1, e2⟩ := Option.bind_eq_some_iff.mp hrel
        rw [e1]
        simp only [Option.bind_some, e2, hfree]
        cases e with
        | leading => simp [hR3]
        | trailing => simp
    simp only [Option.bind_some] at hW1 ⊢
    split at hW1
    · rename_i hc
      rw [if_pos hc, hW1]
      exact fin W1 hW1h rfl
    · rename_i hc
      rw [if_neg hc]
      simp only [Option.some.injEq] at hW1
      subst hW1
      exact fin W rfl rfl
  · intro q hq
    have hqn : q ≠ n := fun he => hq (by rw [support_bracket]; exact Or.inl he)
    simp [hqn, hF2 q hq]
  · intro q
    by_cases hq : q = n
    · subst hq; simp [valueAt]
    · have : valueAt (fun q => if q = n then none else h2 q) q = valueAt h2 q := by
        simp [valueAt, hq]
      simp only [this, hq, if_false]
      rw [valueAt_eq_dataOf, hD2, ← valueAt_eq_dataOf]

/-- `erase` of any node of any forest, through either of its edges. -/
theorem erase_refines (I : Inv W A) {t n : Ptr} {a b c : List Iter} {e : Edge}
    (hw : A.words t = some (a ++ (⟨n, .leading⟩ :: (b ++ ⟨n, .trailing⟩ :: c)))) (hb : Balanced b) :
    ∃ W', erase W t ⟨n, e⟩ =
        some (W', if e = .leading then posOf t (b ++ c) else posOf t c) ∧
      Inv W' ((A.setWord t (a ++ (b ++ c))).setVal n none) ∧ W'.heap n = none := by
  have R := I.rep t _ hw
  obtain ⟨W', hrun, R', hn, hso, hst, hF, hV⟩ := erase_heap (e := e) R hb
  refine ⟨W', hrun, ?_, hn⟩
  refine I.update1 hw (w' := a ++ (b ++ c)) rfl R' ?_ hso ?_ ?_ ?_ ?_
  · rw [hst]
    have hs := I.size t _ hw
    simp only [nodes_append, nodes_cons_leading, nodes_cons_trailing, List.length_append,
      List.length_cons] at hs ⊢
    omega
  · intro q h1 h2
    exact hF q h1
  · intro q hq
    exact Or.inl (by rw [support_bracket]; exact Or.inr hq)
  · intro q h1 h2
    rw [support_bracket] at h1
    rcases h1 with rfl | h1
    · exact hn
    · exact absurd h1 h2
  · intro q
    rw [hV, I.val]
    simp [AState.setVal, AState.setWord]

end Verif.Forest
