import Verif.Forest.Erase

/-! # `erase(first, last)` and `clear()` -/

namespace Verif.Forest

variable {T : Type} {W : World T} {A : AState T}

theorem posOf_ne {h : Heap T} {t : Ptr} {a r c : List Iter} (R : Rep h t (a ++ (r ++ c))) (hr : r ≠ []) :
    posOf t (r ++ c) ≠ posOf t c := by
  cases r with
  | nil => exact absurd rfl hr
  | cons x r =>
    rw [List.cons_append, posOf_cons]
    intro he
    have hN := R.nodup
    have e : closed t (a ++ (x :: r ++ c)) = (root t :: a ++ [x]) ++ (r ++ (c ++ [end_ t])) := by
      simp [closed, root, end_]
    rw [e] at hN
    refine disjoint_of_nodup hN (z := x) (by simp) ?_
    rw [List.mem_append]; right
    have := posOf_head (t := t) c
    rw [← he] at this
    exact List.mem_of_head? this

/-- In a well formed word a trailing edge does not precede the leading edge of its node. -/
theorem Balanced.order {a b c : List Iter} {n : Ptr}
    (h : Balanced (a ++ ⟨n, .trailing⟩ :: (b ++ ⟨n, .leading⟩ :: c)))
    (hN : (a ++ ⟨n, .trailing⟩ :: (b ++ ⟨n, .leading⟩ :: c) : List Iter).Nodup) : False := by
  obtain ⟨a1, b1, c1, he, -⟩ := h.split (n := n) (e := .trailing) (by simp)
  have he' : a ++ ⟨n, .trailing⟩ :: (b ++ ⟨n, .leading⟩ :: c) =
      (a1 ++ ⟨n, .leading⟩ :: b1) ++ ⟨n, .trailing⟩ :: c1 := by rw [he]; simp
  obtain ⟨h1, -⟩ := append_cons_inj hN he'
  refine disjoint_of_nodup hN (z := ⟨n, .leading⟩) ?_ (by simp)
  rw [h1]; simp

theorem dropVals_nil (A : AState T) : A.dropVals [] = A := by
  simp [AState.dropVals, Within]

theorem eraseLoop_refines (t : Ptr) (a c : List Iter) :
    ∀ (r Ts Ls : List Iter) (W : World T) (A : AState T), Inv W A →
      A.words t = some (a ++ ((Ts ++ Ls) ++ (r ++ c))) →
      (∀ x ∈ Ts, x.edge = .trailing) → (∀ x ∈ Ls, x.edge = .leading) →
      ∃ W', eraseLoop W t (posOf t (r ++ c)) (posOf t c) (Ls.length : Int) = some W' ∧
        Inv W' ((A.setWord t (a ++ (prune (Ts ++ Ls ++ r) ++ c))).dropVals (Ts ++ Ls ++ r)) ∧
        ∀ q, Within (Ts ++ Ls ++ r) q → W'.heap q = none := by
  intro r
  induction r with
  | nil =>
    intro Ts Ls W A I hw hT hL
    refine ⟨W, by rw [eraseLoop]; simp, ?_, ?_⟩
    all_goals
      have R := I.rep t _ hw
      have hno : ∀ q, ¬ Within (Ts ++ Ls ++ []) q := by
        rintro q ⟨h1, h2⟩
        simp only [List.append_nil, List.mem_append] at h1 h2
        have h1' : (⟨q, .leading⟩ : Iter) ∈ Ls := by
          rcases h1 with h1 | h1
          · exact absurd (hT _ h1) (by simp)
          · exact h1
        have h2' : (⟨q, .trailing⟩ : Iter) ∈ Ts := by
          rcases h2 with h2 | h2
          · exact h2
          · exact absurd (hL _ h2) (by simp)
        obtain ⟨s1, s2, rfl⟩ := List.append_of_mem h2'
        obtain ⟨l1, l2, rfl⟩ := List.append_of_mem h1'
        have e : a ++ ((s1 ++ ⟨q, .trailing⟩ :: s2 ++ (l1 ++ (⟨q, .leading⟩ : Iter) :: l2)) ++ ([] ++ c)) =
          (a ++ s1) ++ ⟨q, .trailing⟩ :: ((s2 ++ l1) ++ ⟨q, .leading⟩ :: (l2 ++ c)) := by simp
        have hB := R.balanced
        have hN := R.nodup_word
        rw [e] at hB hN
        exact hB.order hN
    · have e1 : prune (Ts ++ Ls ++ []) = Ts ++ Ls := by
        rw [prune, List.filter_eq_self.mpr]
        · simp
        · intro x _; simpa using hno x.node
      have e2 : (A.setWord t (a ++ (prune (Ts ++ Ls ++ []) ++ c))).dropVals (Ts ++ Ls ++ []) = A := by
        rw [e1]
        simp only [AState.dropVals, AState.setWord, hno, if_false]
        cases A
        simp only [AState.mk.injEq, and_true]
        funext q
        split
        · rename_i hq; subst hq; simp only at hw; rw [hw]; simp
        · rfl
      rw [e2]; exact I
    · intro q hq; exact absurd hq (hno q)
  | cons x r ih =>
    intro Ts Ls W A I hw hT hL
    have R := I.rep t _ hw
    have hne : posOf t (x :: r ++ c) ≠ posOf t c := by
      have R' : Rep W.heap t ((a ++ (Ts ++ Ls)) ++ ((x :: r) ++ c)) := by simpa using R
      exact posOf_ne R' (by simp)
    have hinc : incr W.heap x = some (posOf t (r ++ c)) := by
      have R' : Rep W.heap t ((a ++ (Ts ++ Ls) ++ [x]) ++ (r ++ c)) := by simpa using R
      have := R'.incr_split
      rwa [priorOf_concat] at this
    rw [List.cons_append, posOf_cons] at hne
    rw [List.cons_append, posOf_cons]
    obtain ⟨n, e⟩ := x
    cases e with
    | leading =>
      obtain ⟨W', h1, h2, h3⟩ := ih Ts (Ls ++ [⟨n, .leading⟩]) W A I (by simpa using hw) hT
        (by
          intro y hy
          rcases List.mem_append.mp hy with hy | hy
          · exact hL y hy
          · simp only [List.mem_singleton] at hy; subst hy; rfl)
      refine ⟨W', ?_, by simpa using h2, by simpa using h3⟩
      rw [eraseLoop]
      simp only [hne, if_false, if_true, hinc, Option.bind_eq_bind, Option.bind_some]
      simpa using h1
    | trailing =>
      rcases List.eq_nil_or_concat Ls with rfl | ⟨Ls', m, rfl⟩
      · obtain ⟨W', h1, h2, h3⟩ := ih (Ts ++ [⟨n, .trailing⟩]) [] W A I (by simpa using hw)
          (by
            intro y hy
            rcases List.mem_append.mp hy with hy | hy
            · exact hT y hy
            · simp only [List.mem_singleton] at hy; subst hy; rfl) (by simp)
        refine ⟨W', ?_, by simpa using h2, by simpa using h3⟩
        rw [eraseLoop]
        simp only [hne, if_false, hinc, Option.bind_eq_bind, Option.bind_some]
        have e2 : max (0 : Int) (-1) = 0 := by decide
        simpa [e2] using h1
      · rw [List.concat_eq_append] at hw hL ⊢
        obtain ⟨m, em⟩ := m
        have hem : em = .leading := hL ⟨m, em⟩ (by simp)
        subst hem
        have hmn : m = n := by
          have hB := R.balanced
          have e : a ++ (Ts ++ (Ls'.concat ⟨m, .leading⟩) ++ ((⟨n, .trailing⟩ : Iter) :: r ++ c)) =
            (a ++ Ts ++ Ls') ++ ⟨m, .leading⟩ :: ⟨n, .trailing⟩ :: (r ++ c) := by simp
          rw [e] at hB
          exact hB.adj_leaf
        subst hmn
        have hw' : A.words t = some ((a ++ (Ts ++ Ls')) ++ (⟨m, .leading⟩ :: ([] ++ ⟨m, .trailing⟩ :: (r ++ c)))) := by
          rw [hw]; simp
        obtain ⟨W1, hrun, I1, hfree⟩ := erase_refines I (e := .trailing) hw' Balanced.nil
        obtain ⟨W', h1, h2, h3⟩ := ih Ts Ls' W1 _ I1 (by simp [AState.setVal, AState.setWord]) hT
          (fun y hy => hL y (by simp [hy]))
        have hN := (I.rep t _ hw').nodup_word
        have hu : ∀ y ∈ Ts ++ Ls' ++ r, y.node ≠ m := fun y hy => node_unique hN (by
          simp only [List.mem_append, List.nil_append] at hy ⊢; tauto)
        have hWi : ∀ q, Within (Ts ++ (Ls' ++ [⟨m, .leading⟩]) ++ ⟨m, .trailing⟩ :: r) q ↔
            q = m ∨ Within (Ts ++ Ls' ++ r) q := by
          intro q
          constructor
          · rintro ⟨g1, g2⟩
            by_cases hq : q = m
            · exact Or.inl hq
            · refine Or.inr ⟨?_, ?_⟩
              · simp [hq] at g1 ⊢; tauto
              · simp [hq] at g2 ⊢; tauto
          · rintro (rfl | ⟨g1, g2⟩)
            · exact ⟨by simp, by simp⟩
            · constructor
              · simp at g1 ⊢; tauto
              · simp at g2 ⊢; tauto
        have hpr : prune (Ts ++ (Ls' ++ [⟨m, .leading⟩]) ++ ⟨m, .trailing⟩ :: r) =
            prune (Ts ++ Ls' ++ r) := by
          have e0 : Ts ++ (Ls' ++ [(⟨m, .leading⟩ : Iter)]) ++ ⟨m, .trailing⟩ :: r =
            (Ts ++ Ls') ++ ([⟨m, .leading⟩, ⟨m, .trailing⟩] ++ r) := by simp
          have hm : Within (Ts ++ (Ls' ++ [⟨m, .leading⟩]) ++ ⟨m, .trailing⟩ :: r) m :=
            (hWi m).mpr (Or.inl rfl)
          have hf : ∀ l : List Iter, (∀ y ∈ l, y ∈ Ts ++ Ls' ++ r) →
              l.filter (fun x => ¬ Within (Ts ++ (Ls' ++ [⟨m, .leading⟩]) ++ ⟨m, .trailing⟩ :: r) x.node) =
              l.filter (fun x => ¬ Within (Ts ++ Ls' ++ r) x.node) := by
            intro l hl
            refine List.filter_congr ?_
            intro y hy
            have := hu y (hl y hy)
            have h4 := hWi y.node
            by_cases h5 : Within (Ts ++ Ls' ++ r) y.node
            · have h6 := h4.mpr (Or.inr h5); simp only [h5, h6]
            · have h6 : ¬ Within (Ts ++ (Ls' ++ [⟨m, .leading⟩]) ++ ⟨m, .trailing⟩ :: r) y.node := by
                tauto
              simp only [h5, h6]
          unfold prune
          rw [← hf _ (fun y hy => hy)]
          generalize hG : (fun x : Iter => decide (¬ Within (Ts ++ (Ls' ++ [⟨m, .leading⟩]) ++ ⟨m, .trailing⟩ :: r) x.node)) = G
          rw [e0, List.filter_append, List.filter_append [_, _] r]
          rw [List.filter_append (Ts ++ Ls') r]
          have : List.filter G [⟨m, .leading⟩, ⟨m, .trailing⟩] = [] := by
            rw [List.filter_eq_nil_iff]
            intro y hy
            have : y.node = m := by simp at hy; rcases hy with rfl | rfl <;> rfl
            rw [← hG]
            simp only [this, hm]
            simp
          rw [this, List.nil_append]
        refine ⟨W', ?_, ?_, ?_⟩
        · rw [eraseLoop]
          have : ((Ls' ++ [(⟨m, .leading⟩ : Iter)]).length : Int) > 0 := by simp
          simp only [hne, if_false, this, if_true, hrun, Option.bind_eq_bind, Option.bind_some]
          have e2 : max 0 (((Ls' ++ [(⟨m, .leading⟩ : Iter)]).length : Int) - 1) = (Ls'.length : Int) := by
            simp
          simp only [reduceCtorEq, if_false]
          rw [e2]
          exact h1
        · rw [hpr]
          convert h2 using 1
          simp only [AState.dropVals, AState.setWord, AState.setVal, AState.mk.injEq]
          refine ⟨?_, ?_⟩
          · funext q; split <;> rfl
          · funext q
            by_cases g : Within (Ts ++ Ls' ++ r) q
            · simp only [g, (hWi q).mpr (Or.inr g), if_true]
            · by_cases g2 : q = m
              · rw [if_pos ((hWi q).mpr (Or.inl g2)), if_neg g, if_pos g2]
              · have : ¬ Within (Ts ++ (Ls' ++ [⟨m, .leading⟩]) ++ ⟨m, .trailing⟩ :: r) q := by
                  rw [hWi]; tauto
                simp only [this, g, g2, if_false]
        · intro q hq
          by_cases g : Within (Ts ++ Ls' ++ r) q
          · exact h3 q g
          · have : q = m := by have := (hWi q).mp hq; tauto
            subst this
            by_contra hne'
            obtain ⟨t', w', hw1, hp1⟩ := h2.noleak q hne'
            have hval := h2.val q
            have R' := h2.rep t' w' hw1
            have hnt' : q ≠ t' := by
              rintro rfl
              by_cases hqt : q = t
              · subst hqt; exact (I.rep q _ hw').end_notin .leading (by simp)
              · simp only [AState.dropVals, AState.setWord, AState.setVal, hqt, if_false] at hw1
                have := I.disj q w' t _ q hw1 hw' (by simp [support]) (by simp [support])
                exact hqt this
            simp only [support, List.mem_cons, hnt', false_or, List.mem_map] at hp1
            obtain ⟨y, hy, rfl⟩ := hp1
            obtain ⟨nn, v, hn1, hn2⟩ := R'.live y hy
            simp [valueAt, hn1, hn2, AState.dropVals, AState.setWord, AState.setVal] at hval

/-- `erase(first, last)` for an arbitrary range of consecutive positions. -/
theorem eraseRange_refines (I : Inv W A) {t : Ptr} {a r c : List Iter}
    (hw : A.words t = some (a ++ (r ++ c))) :
    ∃ W', eraseRange W t (posOf t (r ++ c)) (posOf t c) = some (W', posOf t c) ∧
      Inv W' ((A.setWord t (a ++ (prune r ++ c))).dropVals r) ∧
      ∀ q, Within r q → W'.heap q = none := by
  obtain ⟨W', h1, h2, h3⟩ := eraseLoop_refines t a c r [] [] W A I (by simpa using hw) (by simp) (by simp)
  refine ⟨W', ?_, by simpa using h2, by simpa using h3⟩
  replace h1 : eraseLoop W t (posOf t (r ++ c)) (posOf t c) 0 = some W' := h1
  simp [eraseRange, h1]

theorem prune_balanced {w : List Iter} (h : Balanced w) : prune w = [] := by
  rw [prune, List.filter_eq_nil_iff]
  intro x hx
  simp only [decide_not, Bool.not_eq_true', decide_eq_false_iff_not, not_not]
  exact ⟨h.mem_edge hx _, h.mem_edge hx _⟩

/-- `clear()` empties the forest; its assertion holds. -/
theorem clear_refines (I : Inv W A) {t : Ptr} {w : List Iter} (hw : A.words t = some w) :
    ∃ W', clear W t = some W' ∧ Inv W' ((A.setWord t []).dropVals w) ∧
      ∀ q, Within w q → W'.heap q = none := by
  have R := I.rep t w hw
  obtain ⟨W', h1, h2, h3⟩ := eraseRange_refines I (a := []) (r := w) (c := []) (by simpa using hw)
  rw [prune_balanced R.balanced] at h2
  refine ⟨W', ?_, by simpa using h2, h3⟩
  have hb : begin_ W.heap t = some (posOf t w) := by
    rw [R.begin_eq, posOf_head]
  have R' := h2.rep t [] (by simp [AState.dropVals, AState.setWord])
  simp only [List.append_nil] at h1
  simp only [clear, hb, Option.bind_eq_bind, Option.bind_some]
  rw [posOf_nil] at h1
  simp [h1, R'.isEmpty_eq]

end Verif.Forest
