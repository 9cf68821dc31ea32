import Verif.Forest.Copy

/-! # Whole-forest copying and forest_algorithms -/

namespace Verif.Forest

variable {T : Type} {W : World T} {A : AState T}

/-- Inserting a copy of a child range of another forest. -/
theorem insertRange_refines (I : Inv W A) {t x : Ptr} {a c l S r : List Iter} {ps : List Ptr}
    (htx : x ≠ t) (hw : A.words t = some (a ++ c)) (hx : A.words x = some (l ++ (S ++ r)))
    (hS : Balanced S) (hnd : ps.Nodup) (hfr : ∀ p ∈ ps, W.heap p = none)
    (hlen : (nodes S).length ≤ ps.length) :
    ∃ W' A' E, insertRangeLoop W t (posOf t c) (posOf x (S ++ r)) (posOf x r) ps =
        some (W', posOf t c) ∧ Inv W' A' ∧
      A'.words = (A.setWord t (a ++ (E ++ c))).words ∧ content A'.val E = content A.val S ∧
      (∀ q, q ∉ ps → A'.val q = A.val q) := by
  have hv : ∀ y ∈ S, ∃ v, A.val y.node = some v := fun y hy =>
    (I.val_some hx (x := y) (by simp [hy])).imp fun _ h => h.1
  have hN : Nested 0 (content A.val S) := by
    have := nested_content hS hv 0 []
    simp only [List.append_nil] at this
    exact this.mpr rfl
  have hop : opens (content A.val S) ≤ ps.length := by rw [opens_content hv]; exact hlen
  have e := insertRangeLoop_eq t x a c r htx S l ps [] [] W A I (by simpa using hw) hx (by simp)
    hN hnd hfr hop
  obtain ⟨W', A', E, g1, g2, g3, g4, g5⟩ := unflattenLoop_refines t a c (content A.val S) ps [] [] W A I
    (by simpa using hw) (by simp) hN hnd hfr hop
  simp only [List.nil_append] at e g1 g3
  exact ⟨W', A', E, by rw [e]; exact g1, g2, by simpa using g3, g4, g5⟩

/-- Copy construction. -/
theorem copyCtor_refines (I : Inv W A) {t x : Ptr} {v : List Iter} {ps : List Ptr}
    (hx : A.words x = some v) (hp : W.heap t = none) (hnd : ps.Nodup)
    (hfr : ∀ p ∈ ps, W.heap p = none) (htp : t ∉ ps) (hlen : (nodes v).length ≤ ps.length) :
    ∃ W' A' E, copyCtor W t x ps = some W' ∧ Inv W' A' ∧ A'.words = (A.setWord t E).words ∧
      content A'.val E = content A.val v ∧ (∀ q, q ∉ ps → A'.val q = A.val q) := by
  have htx : x ≠ t := by
    rintro rfl
    rw [I.words_none hp] at hx; simp at hx
  obtain ⟨W1, h1, I1, hF⟩ := newForest_refines I hp
  have hx1 : (A.setWord t []).words x = some ([] ++ (v ++ [])) := by
    rw [AState.words_setWord_ne htx]; simpa using hx
  obtain ⟨W', A', E, g1, g2, g3, g4, g5⟩ := insertRange_refines I1 (a := []) (c := []) htx
    (by rw [AState.words_setWord]; rfl) hx1 (I.rep x v hx).balanced hnd
    (fun p hp' => by rw [hF p (fun e => htp (e ▸ hp'))]; exact hfr p hp') hlen
  refine ⟨W', A', E, ?_, g2, ?_, g4, g5⟩
  · have hb := (I1.rep x v (by simpa using hx1)).begin_posOf
    simp only [List.append_nil, posOf_nil] at g1
    simp [copyCtor, h1, hb, g1]
  · rw [g3, AState.setWord_setWord]; simp

/-- Copy assignment. -/
theorem copyAssign_refines (I : Inv W A) {t x tmp tmp1 : Ptr} {w v : List Iter} {ps : List Ptr}
    (htx : x ≠ t) (hw : A.words t = some w) (hx : A.words x = some v) (hp : W.heap tmp = none)
    (hp1 : W.heap tmp1 = none) (hne : tmp1 ≠ tmp) (hnd : ps.Nodup)
    (hfr : ∀ p ∈ ps, W.heap p = none) (htp : tmp ∉ ps) (htp1 : tmp1 ∉ ps)
    (hlen : (nodes v).length ≤ ps.length) :
    ∃ W' A' E, copyAssign W t x tmp tmp1 ps = some W' ∧ Inv W' A' ∧
      A'.words = (A.setWord t E).words ∧ content A'.val E = content A.val v ∧
      (∀ q, q ∉ ps → ¬ Within w q → A'.val q = A.val q) ∧ (∀ q, Within w q → A'.val q = none) := by
  have hA := I.words_none hp
  have hA1 := I.words_none hp1
  have htt : tmp ≠ t := by rintro rfl; rw [hA] at hw; simp at hw
  have htx' : tmp ≠ x := by rintro rfl; rw [hA] at hx; simp at hx
  obtain ⟨W1, A1, E, h1, I1, hA1w, hc, hv⟩ := copyCtor_refines I hx hp hnd hfr htp hlen
  have ht1 : A1.words t = some w := by rw [hA1w, AState.words_setWord_ne htt.symm]; exact hw
  have htm1 : A1.words tmp = some E := by rw [hA1w, AState.words_setWord]
  -- the nodes of the copy are among `ps`
  have hE : ∀ y ∈ E, y.node ∈ ps := by
    intro y hy
    by_contra hn
    have h3 := hv y.node hn
    obtain ⟨u, hu, -⟩ := I1.val_some htm1 hy
    rw [hu, ← I.val] at h3
    have h4 : W.heap y.node ≠ none := by
      intro h0; simp [valueAt, h0] at h3
    obtain ⟨s, z, hz, hm⟩ := I.noleak _ h4
    have hs : s ≠ tmp := by rintro rfl; rw [hA] at hz; simp at hz
    have := I1.disj s z tmp E y.node (by rw [hA1w, AState.words_setWord_ne hs]; exact hz) htm1 hm
      (by simp only [support, List.mem_cons, List.mem_map]; exact Or.inr ⟨y, hy, rfl⟩)
    exact hs this
  have hq1 : W1.heap tmp1 = none := by
    rw [I1.none_iff]
    intro s z hz hm
    rw [hA1w] at hz
    by_cases hs : s = tmp
    · subst hs
      rw [AState.words_setWord] at hz; simp only [Option.some.injEq] at hz; subst hz
      simp only [support, List.mem_cons, hne, false_or, List.mem_map] at hm
      obtain ⟨y, hy, rfl⟩ := hm
      exact htp1 (hE y hy)
    · rw [AState.words_setWord_ne hs] at hz
      exact I.none_iff.mp hp1 s z hz hm
  obtain ⟨W2, h2, I2⟩ := moveAssign_refines I1 htt ht1 htm1 hq1
  obtain ⟨W3, h3, I3⟩ := destroy_refines I2 (t := tmp) (w := [])
    (by rw [words_dropVals, AState.words_setWord_ne htt, AState.words_setWord])
  refine ⟨W3, _, E, ?_, I3, ?_, ?_, ?_, ?_⟩
  · simp [copyAssign, htx.symm, h1, h2, h3]
  · simp only [AState.delWord, AState.dropVals, AState.setWord]
    funext q
    by_cases e1 : q = tmp
    · subst e1; simp [htt, hA]
    · by_cases e2 : q = t
      · subst e2; simp [e1]
      · simp only [e1, e2, if_false, hA1w, AState.setWord]
  · rw [← hc]
    refine content_congr ?_
    intro y hy
    have : ¬ Within w y.node := by
      rintro ⟨h4, -⟩
      have := I1.disj t w tmp E y.node ht1 htm1
        (by simp only [support, List.mem_cons, List.mem_map]; exact Or.inr ⟨_, h4, rfl⟩)
        (by simp only [support, List.mem_cons, List.mem_map]; exact Or.inr ⟨y, hy, rfl⟩)
      exact htt this.symm
    have h0 : ¬ Within ([] : List Iter) y.node := by simp [Within]
    simp [AState.delWord, AState.dropVals, AState.setWord, this, h0]
  · intro q hq hnw
    have h0 : ¬ Within ([] : List Iter) q := by simp [Within]
    simp only [AState.delWord, AState.dropVals, AState.setWord, hnw, h0, if_false]
    exact hv q hq
  · intro q hq
    simp [AState.delWord, AState.dropVals, AState.setWord, hq]

/-- `transcribe` of a whole forest, projected, to the front of another forest. -/
theorem transcribe_refines (proj : T → T) (I : Inv W A) {t x : Ptr} {w v : List Iter} {ps : List Ptr}
    (htx : x ≠ t) (hw : A.words t = some w) (hx : A.words x = some v) (hnd : ps.Nodup)
    (hfr : ∀ p ∈ ps, W.heap p = none) (hlen : (nodes v).length ≤ ps.length) :
    ∃ W' A' E, transcribe proj W x t ps = some (W', posOf t w) ∧ Inv W' A' ∧
      A'.words = (A.setWord t (E ++ w)).words ∧
      content A'.val E = (content A.val v).map (Option.map proj) ∧
      (∀ q, q ∉ ps → A'.val q = A.val q) := by
  have hv : ∀ y ∈ v, ∃ u, A.val y.node = some u := fun y hy =>
    (I.val_some hx hy).imp fun _ h => h.1
  have hN : Nested 0 (content A.val v) := by
    have := nested_content (I.rep x v hx).balanced hv 0 []
    simp only [List.append_nil] at this
    exact this.mpr rfl
  have hop : opens (content A.val v) ≤ ps.length := by rw [opens_content hv]; exact hlen
  have e := transcribeLoop_eq proj t x [] w [] htx v [] ps [] [] W A I (by simpa using hw)
    (by simpa using hx) (by simp) hN hnd hfr hop
  have hop' : opens ((content A.val v).map (Option.map proj)) ≤ ps.length := by
    have : opens ((content A.val v).map (Option.map proj)) = opens (content A.val v) := by
      simp only [opens, List.filter_map, List.length_map]
      congr 1
      refine List.filter_congr ?_
      intro o _
      cases o <;> rfl
    rw [this]; exact hop
  obtain ⟨W', A', E, g1, g2, g3, g4, g5⟩ := unflattenLoop_refines t [] w
    ((content A.val v).map (Option.map proj)) ps [] [] W A I
    (by simpa using hw) (by simp) ((nested_map proj _ _).mpr hN) hnd hfr hop'
  simp only [List.nil_append, List.append_nil, posOf_nil] at e g1 g3
  refine ⟨W', A', E, ?_, g2, g3, g4, g5⟩
  simp only [transcribe, (I.rep t w hw).begin_posOf, (I.rep x v hx).begin_posOf, Option.bind_eq_bind,
    Option.bind_some]
  rw [e]; exact g1

/-- `unflatten` of a properly nested sequence into a forest. -/
theorem unflatten_refines (I : Inv W A) {t : Ptr} {w : List Iter} {ps : List Ptr}
    {s : List (Option T)} (hw : A.words t = some w) (hN : Nested 0 s) (hnd : ps.Nodup)
    (hfr : ∀ p ∈ ps, W.heap p = none) (hlen : opens s ≤ ps.length) :
    ∃ W' A' E, unflatten W t s ps = some (W', posOf t w) ∧ Inv W' A' ∧
      A'.words = (A.setWord t (E ++ w)).words ∧ content A'.val E = s ∧
      (∀ q, q ∉ ps → A'.val q = A.val q) := by
  obtain ⟨W', A', E, g1, g2, g3, g4, g5⟩ := unflattenLoop_refines t [] w s ps [] [] W A I
    (by simpa using hw) (by simp) hN hnd hfr hlen
  simp only [List.nil_append] at g1 g3
  refine ⟨W', A', E, ?_, g2, g3, g4, g5⟩
  simp only [unflatten, (I.rep t w hw).begin_posOf, Option.bind_eq_bind, Option.bind_some]
  exact g1

/-- What `equal_shape` computes. -/
theorem equalShape_refines (I : Inv W A) {x y : Ptr} {v w : List Iter} (hx : A.words x = some v)
    (hy : A.words y = some w) :
    ∃ W', equalShape W x y =
        some (W', if (W.size x ≠ 0 ∨ v = []) ∧ (W.size y ≠ 0 ∨ w = []) then decide (shape v = shape w)
          else decide (shape v <+: shape w)) ∧ Inv W' A := by
  have Bx := (I.rep x v hx).balanced
  have By := (I.rep y w hy).balanced
  have loop : ∀ W1 : World T, Inv W1 A → shapeLoop W1.heap (posOf x v) (end_ x) (posOf y w) =
      some (decide (shape v <+: shape w)) := fun W1 I1 =>
    shapeLoop_eq (a1 := []) (a2 := []) (by simpa using I1.rep x v hx) (by simpa using I1.rep y w hy) rfl
  simp only [equalShape, sizeValid_eq (I.rep x v hx), sizeValid_eq (I.rep y w hy), Option.bind_eq_bind,
    Option.bind_some]
  by_cases hc : (W.size x ≠ 0 ∨ v = []) ∧ (W.size y ≠ 0 ∨ w = [])
  · obtain ⟨W1, h1, I1, -⟩ := size_refines I hx
    obtain ⟨W2, h2, I2, -⟩ := size_refines I1 hy
    refine ⟨W2, ?_, I2⟩
    rw [if_pos hc]
    have hb : (decide (W.size x ≠ 0 ∨ v = []) && decide (W.size y ≠ 0 ∨ w = [])) = true := by
      simp only [Bool.and_eq_true, decide_eq_true_eq]; exact hc
    rw [if_pos hb]
    have hlen : shape v = shape w → (nodes v).length = (nodes w).length := by
      intro h
      have := congrArg List.length h
      simp only [shape, List.length_map, Bx.length_nodes, By.length_nodes] at this
      omega
    simp only [h1, h2, Option.bind_some]
    by_cases hl : (nodes v).length = (nodes w).length
    · have hp : (shape v <+: shape w) ↔ shape v = shape w := by
        constructor
        · intro h
          refine h.eq_of_length ?_
          simp only [shape, List.length_map, Bx.length_nodes, By.length_nodes, hl]
        · intro h; rw [h]; exact List.prefix_refl _
      simp only [hl, ne_eq, not_true_eq_false, if_false, shapeTail, (I2.rep x v hx).begin_posOf,
        (I2.rep y w hy).begin_posOf, Option.bind_eq_bind, Option.bind_some, loop W2 I2, pure]
      simp [hp]
    · have : shape v ≠ shape w := fun h => hl (hlen h)
      simp [hl, this]
  · refine ⟨W, ?_, I⟩
    rw [if_neg hc]
    have hb : ¬ (decide (W.size x ≠ 0 ∨ v = []) && decide (W.size y ≠ 0 ∨ w = [])) = true := by
      simp only [Bool.and_eq_true, decide_eq_true_eq]; exact hc
    rw [if_neg hb]
    simp [shapeTail, (I.rep x v hx).begin_posOf, (I.rep y w hy).begin_posOf, loop W I]

end Verif.Forest
