import Verif.Forest.Props1

/-!
# Property theorems C09–C14: copies, equality, moves, ownership, algorithms
-/

namespace Verif.Forest

variable {T : Type} {W : World T} {t x y n p : Ptr}

/-- Every reachable forest denotes a list of trees. -/
theorem reachable_denotes (hW : Reachable W) (hf : IsForest W t) {w : List Iter} (ho : order W t = some w) :
    ∃ ts, Denotes W.value w ts := by
  obtain ⟨A, I⟩ := hW.inv
  exact I.denotes (I.words_of_order hf ho)

theorem Inv.content_denotes {A : AState T} (I : Inv W A) {w : List Iter} {ts : List (Tree T)}
    (hd : Denotes W.value w ts) : Forest.content A.val w = enc ts := by
  rw [← hd.content]
  exact content_congr (fun x _ => (I.val x.node).symm)

theorem Inv.dead {A : AState T} (I : Inv W A) {q : Ptr} (h : A.val q = none) (hf : ¬ IsForest W q) :
    W.heap q = none := by
  rcases hq : W.heap q with _ | k
  · rfl
  · exfalso
    refine hf ⟨k, hq, ?_⟩
    have := I.val q
    simpa [valueAt, hq, h] using this

theorem Inv.not_forest {A : AState T} (I : Inv W A) {w : List Iter} (hw : A.words t = some w) {y : Iter}
    (hy : y ∈ w) : ¬ IsForest W y.node := by
  rintro ⟨k, hk, hd⟩
  obtain ⟨m, v, h1, h2⟩ := (I.rep t w hw).live y hy
  rw [h1] at hk
  simp only [Option.some.injEq] at hk
  subst hk
  rw [h2] at hd; simp at hd

/-- The trees of the demo forest. -/
abbrev demoTrees : List (Tree Nat) := [.node 10 [.node 20 [], .node 30 []], .node 40 []]

theorem demo_denotes {W : World Nat} (I : Inv W demoState) : Denotes W.value demoWord demoTrees := by
  have hv : ∀ q, W.value q = demoState.val q := fun q => I.val q
  refine Denotes.cons 1 (b := [L 2, R 2, L 3, R 3]) (c := [L 4, R 4]) (by rw [hv]; rfl) ?_ ?_
  · exact Denotes.cons 2 (b := []) (c := [L 3, R 3]) (by rw [hv]; rfl) .nil
      (Denotes.cons 3 (b := []) (c := []) (by rw [hv]; rfl) .nil .nil)
  · exact Denotes.cons 4 (b := []) (c := []) (by rw [hv]; rfl) .nil .nil

theorem demo_free {W : World Nat} (I : Inv W demoState) {q : Ptr} (h : q = 6 ∨ q = 7 ∨ q = 8 ∨ q = 9 ∨ q = 300 ∨ q = 301 ∨ q = 302) :
    W.heap q = none := by
  refine I.none_iff.mpr ?_
  intro t w hw
  simp only [demoState] at hw
  rcases h with rfl | rfl | rfl | rfl | rfl | rfl | rfl
  all_goals
    repeat' (split at hw)
    all_goals simp_all [support]
    all_goals (subst hw; simp)

theorem demo_fresh {W : World Nat} (I : Inv W demoState) : Fresh W [6, 7, 8, 9] (countTrees demoTrees) := by
  refine ⟨by decide, ?_, by simp [countTrees]⟩
  intro p hp
  refine demo_free I ?_
  simp only [List.mem_cons, List.not_mem_nil, or_false] at hp
  rcases hp with rfl | rfl | rfl | rfl <;> simp

/-! ## C09 -/

/-- C09. The copy constructor builds, from fresh nodes, a forest denoting the same trees, and nothing
else changes. -/
theorem c09_copy (hW : Reachable W) (hx : IsForest W x) {v : List Iter} (ho : order W x = some v)
    {ts : List (Tree T)} (hd : Denotes W.value v ts) (ht : W.heap t = none) {ps : List Ptr} (htp : t ∉ ps)
    (hps : Fresh W ps (countTrees ts)) :
    ∃ W' E, copyCtor W t x ps = some W' ∧ IsForest W' t ∧ order W' t = some E ∧ Denotes W'.value E ts ∧
      SameForests [t] W W' ∧ SameValues ps W W' ∧ Reachable W' := by
  obtain ⟨A, I⟩ := hW.inv
  have hw := I.words_of_order hx ho
  rw [← hd.count] at hps
  obtain ⟨hnd, hfr, hlen⟩ := hps
  obtain ⟨W', A', E, h1, I', hwords, hc, hval⟩ := copyCtor_refines I hw ht hnd hfr htp hlen
  have hwt : A'.words t = some E := by rw [hwords]; simp [AState.setWord]
  refine ⟨W', E, h1, I'.isForest_iff.mpr ⟨_, hwt⟩, I'.order hwt, ?_, ?_, ?_, ?_⟩
  · refine I'.denotes_of_content (a := []) (c := []) (by simpa using hwt) (I'.rep t _ hwt).balanced ?_
    rw [hc, I.content_denotes hd]
  · refine sameForests_of_inv I I' ?_
    intro q hq; simp only [List.mem_singleton] at hq; simp [hwords, AState.setWord, hq]
  · exact sameValues_of_inv I I' hval
  · exact .step (.copyNew t x ps) hW ⟨ht, htp, v, I.rep x _ hw, hnd, hfr, hlen⟩ h1

/-- C09. Copy assignment replaces the destination by a copy; its former nodes are destroyed. -/
theorem c09_copy_assign (hW : Reachable W) (ht : IsForest W t) (hx : IsForest W x) (htx : x ≠ t)
    {w v : List Iter} (hot : order W t = some w) (ho : order W x = some v)
    {ts : List (Tree T)} (hd : Denotes W.value v ts) {tmp tmp1 : Ptr} {ps : List Ptr}
    (h1 : W.heap tmp = none) (h2 : W.heap tmp1 = none) (h12 : tmp1 ≠ tmp) (h3 : tmp ∉ ps) (h4 : tmp1 ∉ ps)
    (hps : Fresh W ps (countTrees ts)) :
    ∃ W' E, copyAssign W t x tmp tmp1 ps = some W' ∧ IsForest W' t ∧ order W' t = some E ∧
      Denotes W'.value E ts ∧ (∀ y ∈ w, W'.heap y.node = none) ∧
      SameForests [t] W W' ∧ SameValues (ps ++ w.map (·.node)) W W' ∧ Reachable W' := by
  obtain ⟨A, I⟩ := hW.inv
  have hw := I.words_of_order ht hot
  have hv := I.words_of_order hx ho
  rw [← hd.count] at hps
  obtain ⟨hnd, hfr, hlen⟩ := hps
  obtain ⟨W', A', E, he, I', hwords, hc, hval, hgone⟩ :=
    copyAssign_refines I htx hw hv h1 h2 h12 hnd hfr h3 h4 hlen
  have hwt : A'.words t = some E := by rw [hwords]; simp [AState.setWord]
  have hden : Denotes W'.value E ts := by
    refine I'.denotes_of_content (a := []) (c := []) (by simpa using hwt) (I'.rep t _ hwt).balanced ?_
    rw [hc, I.content_denotes hd]
  refine ⟨W', E, he, I'.isForest_iff.mpr ⟨_, hwt⟩, I'.order hwt, hden, ?_, ?_, ?_, ?_⟩
  · intro y hy
    have hB := (I.rep t w hw).balanced
    have hnf := I.not_forest hw hy
    refine I'.dead (hgone _ ⟨hB.mem_edge hy _, hB.mem_edge hy _⟩) ?_
    intro h
    have e1 : y.node ≠ t := fun e => hnf (e ▸ ht)
    refine hnf (((sameForests_of_inv (ts := [t]) I I' ?_) y.node (by simp [e1])).1.mp h)
    intro q hq; simp only [List.mem_singleton] at hq; simp [hwords, AState.setWord, hq]
  · refine sameForests_of_inv I I' ?_
    intro q hq; simp only [List.mem_singleton] at hq; simp [hwords, AState.setWord, hq]
  · refine sameValues_of_inv I I' ?_
    intro q hq
    simp only [List.mem_append, not_or] at hq
    refine hval q hq.1 ?_
    intro hq'
    exact hq.2 (List.mem_map.mpr ⟨_, hq'.1, rfl⟩)
  · exact .step (.copyAssign t x tmp tmp1 ps) hW
      ⟨htx, h1, h2, h12, h3, h4, ⟨w, I.rep t _ hw⟩, v, I.rep x _ hv, hnd, hfr, hlen⟩ he

/-- C09. `operator==` returns true exactly when both forests denote the same trees. -/
theorem c09_equal [DecidableEq T] (hW : Reachable W) (hx : IsForest W x) (hy : IsForest W y)
    {v w : List Iter} (hox : order W x = some v) (hoy : order W y = some w)
    {ts us : List (Tree T)} (hts : Denotes W.value v ts) (hus : Denotes W.value w us) :
    ∃ W' r, equal W x y = some (W', r) ∧ (r = true ↔ ts = us) ∧ SameForests [] W W' ∧ SameValues [] W W' := by
  obtain ⟨A, I⟩ := hW.inv
  have hv := I.words_of_order hx hox
  have hw := I.words_of_order hy hoy
  obtain ⟨W', h1, I'⟩ := equal_refines I hv hw
  refine ⟨W', _, h1, ?_, sameForests_of_inv I I' (fun _ _ => rfl), sameValues_of_inv I I' (fun _ _ => rfl)⟩
  rw [I.content_denotes hts, I.content_denotes hus]
  simp only [decide_eq_true_eq]
  exact ⟨enc_inj, fun h => by rw [h]⟩

/-- C09. A copy compares equal to its source. -/
theorem c09_copy_equal [DecidableEq T] (hW : Reachable W) (hx : IsForest W x) {v : List Iter}
    (ho : order W x = some v) (ht : W.heap t = none) {ps : List Ptr} (htp : t ∉ ps)
    (hps : Fresh W ps v.length) :
    ∃ W' W'', copyCtor W t x ps = some W' ∧ equal W' t x = some (W'', true) := by
  obtain ⟨ts, hd⟩ := reachable_denotes hW hx ho
  have hps' : Fresh W ps (countTrees ts) := by
    refine ⟨hps.1, hps.2.1, le_trans ?_ hps.2.2⟩
    rw [← hd.count, nodes, List.length_map]
    exact List.length_filter_le _ _
  obtain ⟨W', E, h1, hf, hoE, hdE, hF, hV, hR⟩ := c09_copy hW hx ho hd ht htp hps'
  have hxt : x ≠ t := by
    rintro rfl
    obtain ⟨k, hk, -⟩ := hx
    rw [ht] at hk; simp at hk
  have hF' := hF x (by simpa using hxt)
  obtain ⟨us, hdx⟩ := reachable_denotes hR (hF'.1.mpr hx) (by rw [hF'.2 hx]; exact ho)
  have hus : us = ts := by
    refine hdx.unique (hd.congr ?_)
    intro y hy
    obtain ⟨A, I⟩ := hW.inv
    obtain ⟨m, u, hm, -⟩ := (I.rep x v (I.words_of_order hx ho)).live y hy
    refine hV _ ?_
    intro hp
    rw [hps.2.1 _ hp] at hm; simp at hm
  subst hus
  obtain ⟨W'', r, h2, hr, -, -⟩ := c09_equal hR hf (hF'.1.mpr hx) hoE (by rw [hF'.2 hx]; exact ho) hdE hdx
  refine ⟨W', W'', h1, ?_⟩
  rw [h2, hr.mpr rfl]

-- for `c09_copy`, `c09_copy_assign`, `c09_copy_equal`: copying forest 0 to the new forest 300 or over forest 100
example : ∃ W : World Nat, Reachable W ∧ IsForest W 0 ∧ IsForest W 100 ∧ order W 0 = some demoWord ∧
    order W 100 = some [L 5, R 5] ∧ Denotes W.value demoWord demoTrees ∧ W.heap 300 = none ∧ W.heap 301 = none ∧
    Fresh W [6, 7, 8, 9] (countTrees demoTrees) := by
  obtain ⟨W, h, I⟩ := demo
  exact ⟨W, h, I.isForest_iff.mpr ⟨_, rfl⟩, I.isForest_iff.mpr ⟨_, rfl⟩, I.order rfl, I.order rfl,
    demo_denotes I, demo_free I (by simp), demo_free I (by simp), demo_fresh I⟩

-- for `c09_equal`: two forests denoting different trees
example : ∃ W : World Nat, Reachable W ∧ IsForest W 0 ∧ IsForest W 100 ∧ order W 0 = some demoWord ∧
    order W 100 = some [L 5, R 5] ∧ Denotes W.value demoWord demoTrees ∧
    Denotes W.value [L 5, R 5] [.node 50 []] := by
  obtain ⟨W, h, I⟩ := demo
  refine ⟨W, h, I.isForest_iff.mpr ⟨_, rfl⟩, I.isForest_iff.mpr ⟨_, rfl⟩, I.order rfl, I.order rfl,
    demo_denotes I, Denotes.cons 5 (b := []) (c := []) (by rw [World.value, I.val]; rfl) .nil .nil⟩

/-! ## C10 -/

/-- C10. Move construction: the destination takes over the very nodes of the source, which is left empty. -/
theorem c10_move_construct (hW : Reachable W) (hx : IsForest W x) {v : List Iter} (ho : order W x = some v)
    (ht : W.heap t = none) :
    ∃ W', moveCtor W t x = some W' ∧ IsForest W' t ∧ IsForest W' x ∧ order W' t = some v ∧
      order W' x = some [] ∧ SameValues [] W W' ∧ SameForests [t, x] W W' ∧ Reachable W' := by
  obtain ⟨A, I⟩ := hW.inv
  have hv := I.words_of_order hx ho
  have hxt : x ≠ t := by
    rintro rfl
    obtain ⟨k, hk, -⟩ := hx
    rw [ht] at hk; simp at hk
  obtain ⟨W', h1, I'⟩ := moveCtor_refines I hv ht
  have hwt : ((A.setWord x []).setWord t v).words t = some v := by simp [AState.setWord]
  have hwx : ((A.setWord x []).setWord t v).words x = some [] := by simp [AState.setWord, hxt]
  refine ⟨W', h1, I'.isForest_iff.mpr ⟨_, hwt⟩, I'.isForest_iff.mpr ⟨_, hwx⟩, I'.order hwt, I'.order hwx,
    sameValues_of_inv I I' (fun _ _ => rfl), ?_, .step (.moveNew t x) hW ⟨ht, v, I.rep x _ hv⟩ h1⟩
  refine sameForests_of_inv I I' ?_
  intro q hq
  simp only [List.mem_cons, List.not_mem_nil, or_false, not_or] at hq
  simp [AState.setWord, hq.1, hq.2]

/-- C10. Move assignment: as construction, and all former nodes of the destination are destroyed. -/
theorem c10_move_assign (hW : Reachable W) (ht : IsForest W t) (hx : IsForest W x) (htx : x ≠ t)
    {w v : List Iter} (hot : order W t = some w) (ho : order W x = some v) {tmp : Ptr}
    (h1 : W.heap tmp = none) :
    ∃ W', moveAssign W t x tmp = some W' ∧ IsForest W' t ∧ IsForest W' x ∧ order W' t = some v ∧
      order W' x = some [] ∧ (∀ y ∈ w, W'.heap y.node = none) ∧
      SameValues (w.map (·.node)) W W' ∧ SameForests [t, x] W W' ∧ Reachable W' := by
  obtain ⟨A, I⟩ := hW.inv
  have hw := I.words_of_order ht hot
  have hv := I.words_of_order hx ho
  obtain ⟨W', he, I'⟩ := moveAssign_refines I htx hw hv h1
  have hwt : (((A.setWord x []).setWord t v).dropVals w).words t = some v := by
    simp [AState.setWord, AState.dropVals]
  have hwx : (((A.setWord x []).setWord t v).dropVals w).words x = some [] := by
    simp [AState.setWord, AState.dropVals, htx]
  have hB := (I.rep t w hw).balanced
  have hF : SameForests [t, x] W W' := by
    refine sameForests_of_inv I I' ?_
    intro q hq
    simp only [List.mem_cons, List.not_mem_nil, or_false, not_or] at hq
    simp [AState.setWord, AState.dropVals, hq.1, hq.2]
  refine ⟨W', he, I'.isForest_iff.mpr ⟨_, hwt⟩, I'.isForest_iff.mpr ⟨_, hwx⟩, I'.order hwt, I'.order hwx,
    ?_, ?_, hF, .step (.moveAssign t x tmp) hW ⟨h1, ⟨w, I.rep t _ hw⟩, v, I.rep x _ hv⟩ he⟩
  · intro y hy
    have hnf := I.not_forest hw hy
    refine I'.dead ?_ ?_
    · have : Within w y.node := ⟨hB.mem_edge hy _, hB.mem_edge hy _⟩
      simp [AState.dropVals, this]
    · have e1 : y.node ≠ t := fun e => hnf (e ▸ ht)
      have e2 : y.node ≠ x := fun e => hnf (e ▸ hx)
      intro h
      exact hnf ((hF y.node (by simp [e1, e2])).1.mp h)
  · refine sameValues_of_inv I I' ?_
    intro q hq
    have : ¬ Within w q := fun h => hq (List.mem_map.mpr ⟨_, h.1, rfl⟩)
    simp [AState.dropVals, AState.setWord, this]

/-- C10. Self move assignment keeps the content. -/
theorem c10_self_move (hW : Reachable W) (ht : IsForest W t) {tmp : Ptr} (h1 : W.heap tmp = none) :
    ∃ W', moveAssign W t t tmp = some W' ∧ SameValues [] W W' ∧ SameForests [] W W' ∧ Reachable W' := by
  obtain ⟨A, I⟩ := hW.inv
  obtain ⟨w, hw⟩ := I.forest ht
  obtain ⟨W', he, I'⟩ := moveAssign_self I hw h1
  exact ⟨W', he, sameValues_of_inv I I' (fun _ _ => rfl), sameForests_of_inv I I' (fun _ _ => rfl),
    .step (.moveAssign t t tmp) hW ⟨h1, ⟨w, I.rep t _ hw⟩, w, I.rep t _ hw⟩ he⟩

/-- C10. `swap` exchanges the contents, node for node; swapping a forest with itself changes nothing. -/
theorem c10_swap (hW : Reachable W) (ht : IsForest W t) (hx : IsForest W x)
    {w v : List Iter} (hot : order W t = some w) (ho : order W x = some v) {tmp tmp1 tmp2 : Ptr}
    (h0 : W.heap tmp = none) (h1 : W.heap tmp1 = none) (h2 : W.heap tmp2 = none)
    (hn1 : tmp1 ≠ tmp) (hn2 : tmp2 ≠ tmp) :
    ∃ W', swap W t x tmp tmp1 tmp2 = some W' ∧ IsForest W' t ∧ IsForest W' x ∧ order W' t = some v ∧
      order W' x = some w ∧ SameValues [] W W' ∧ SameForests [t, x] W W' ∧ Reachable W' := by
  obtain ⟨A, I⟩ := hW.inv
  have hw := I.words_of_order ht hot
  have hv := I.words_of_order hx ho
  have hal : Allowed W (.swap t x tmp tmp1 tmp2) :=
    ⟨h0, h1, h2, hn1, hn2, ⟨w, I.rep t _ hw⟩, v, I.rep x _ hv⟩
  by_cases htx : x = t
  · subst htx
    have hwv : w = v := by rw [hw] at hv; simpa using hv
    subst hwv
    obtain ⟨W', he, I'⟩ := swap_self I hw h0 h1 h2 hn1 hn2
    exact ⟨W', he, I'.isForest_iff.mpr ⟨_, hw⟩, I'.isForest_iff.mpr ⟨_, hw⟩, I'.order hw, I'.order hw,
      sameValues_of_inv I I' (fun _ _ => rfl), sameForests_of_inv I I' (fun _ _ => rfl), .step _ hW hal he⟩
  · obtain ⟨W', he, I'⟩ := swap_refines I htx hw hv h0 h1 h2 hn1 hn2
    have hwt : ((A.setWord x w).setWord t v).words t = some v := by simp [AState.setWord]
    have hwx : ((A.setWord x w).setWord t v).words x = some w := by simp [AState.setWord, htx]
    refine ⟨W', he, I'.isForest_iff.mpr ⟨_, hwt⟩, I'.isForest_iff.mpr ⟨_, hwx⟩, I'.order hwt, I'.order hwx,
      sameValues_of_inv I I' (fun _ _ => rfl), ?_, .step _ hW hal he⟩
    refine sameForests_of_inv I I' ?_
    intro q hq
    simp only [List.mem_cons, List.not_mem_nil, or_false, not_or] at hq
    simp [AState.setWord, hq.1, hq.2]

example : ∃ W : World Nat, Reachable W ∧ IsForest W 0 ∧ IsForest W 100 ∧ order W 0 = some demoWord ∧
    order W 100 = some [L 5, R 5] ∧ W.heap 300 = none ∧ W.heap 301 = none ∧ W.heap 302 = none := by
  obtain ⟨W, h, I⟩ := demo
  exact ⟨W, h, I.isForest_iff.mpr ⟨_, rfl⟩, I.isForest_iff.mpr ⟨_, rfl⟩, I.order rfl, I.order rfl,
    demo_free I (by simp), demo_free I (by simp), demo_free I (by simp)⟩

/-! ## C11 -/

/-- C11. In every reachable state an address is allocated iff it is the sentinel of a live forest or a node
in the traversal of one; no node belongs to two forests. -/
theorem c11_no_leak (hW : Reachable W) (p : Ptr) :
    (W.heap p ≠ none ↔ IsForest W p ∨ ∃ t w, IsForest W t ∧ order W t = some w ∧ ∃ y ∈ w, y.node = p) ∧
    (∀ t t' w w' y y', IsForest W t → IsForest W t' → order W t = some w → order W t' = some w' →
      y ∈ w → y' ∈ w' → y.node = y'.node → t = t') := by
  obtain ⟨A, I⟩ := hW.inv
  refine ⟨⟨?_, ?_⟩, ?_⟩
  · intro h
    obtain ⟨t, w, hw, hm⟩ := I.noleak p h
    simp only [support, List.mem_cons, List.mem_map] at hm
    rcases hm with rfl | ⟨y, hy, hyp⟩
    · exact Or.inl (I.isForest_iff.mpr ⟨_, hw⟩)
    · exact Or.inr ⟨t, w, I.isForest_iff.mpr ⟨_, hw⟩, I.order hw, y, hy, hyp⟩
  · rintro (⟨k, hk, -⟩ | ⟨t, w, hf, ho, y, hy, rfl⟩)
    · rw [hk]; simp
    · obtain ⟨m, v, h1, -⟩ := (I.rep t w (I.words_of_order hf ho)).live y hy
      rw [h1]; simp
  · intro t t' w w' y y' hf hf' ho ho' hy hy' hn
    refine I.disj t w t' w' y.node (I.words_of_order hf ho) (I.words_of_order hf' ho') ?_ ?_
    · exact List.mem_cons_of_mem _ (List.mem_map.mpr ⟨y, hy, rfl⟩)
    · rw [hn]; exact List.mem_cons_of_mem _ (List.mem_map.mpr ⟨y', hy', rfl⟩)

/-- C11. No call whose precondition holds has undefined behaviour (use after free, double free, freeing a
sentinel, dereferencing `end()`) or fails to return. -/
theorem c11_no_undefined (hW : Reachable W) (o : Op T) (ha : Allowed W o) : ∃ W', exec W o = some W' ∧ Reachable W' := by
  obtain ⟨A, I⟩ := hW.inv
  obtain ⟨W', A', h, -⟩ := exec_refines I o ha
  exact ⟨W', h, .step o hW ha h⟩

/-- C11. When no forest is left, no node is. -/
theorem c11_all_freed (hW : Reachable W) (h : ∀ t, ¬ IsForest W t) (p : Ptr) : W.heap p = none := by
  by_contra hp
  rcases (c11_no_leak hW p).1.mp hp with hf | ⟨t, w, hf, -⟩
  · exact h _ hf
  · exact h _ hf

/-- C11. Destroying a forest frees its nodes and its sentinel, nothing else. -/
theorem c11_destroy (hW : Reachable W) (ht : IsForest W t) {w : List Iter} (ho : order W t = some w) :
    ∃ W', destroy W t = some W' ∧ ¬ IsForest W' t ∧ W'.heap t = none ∧ (∀ y ∈ w, W'.heap y.node = none) ∧
      SameValues (w.map (·.node)) W W' ∧ SameForests [t] W W' ∧ Reachable W' := by
  obtain ⟨A, I⟩ := hW.inv
  have hw := I.words_of_order ht ho
  obtain ⟨W', he, I'⟩ := destroy_refines I hw
  have hnt : ((A.dropVals w).delWord t).words t = none := by simp [AState.delWord]
  have hF : SameForests [t] W W' := by
    refine sameForests_of_inv I I' ?_
    intro q hq
    simp only [List.mem_singleton] at hq
    simp [AState.delWord, AState.dropVals, hq]
  have hB := (I.rep t w hw).balanced
  have hft : ¬ IsForest W' t := by
    intro h
    obtain ⟨u, hu⟩ := I'.isForest_iff.mp h
    rw [hnt] at hu; simp at hu
  have hvt : A.val t = none := by
    obtain ⟨k, hk, hd⟩ := ht
    rw [← I.val]; simp [valueAt, hk, hd]
  refine ⟨W', he, hft, ?_, ?_, ?_, hF, .step (.destroy t) hW ⟨w, I.rep t _ hw⟩ he⟩
  · refine I'.dead ?_ hft
    simp [AState.delWord, AState.dropVals, hvt]
  · intro y hy
    have hnf := I.not_forest hw hy
    refine I'.dead ?_ ?_
    · have : Within w y.node := ⟨hB.mem_edge hy _, hB.mem_edge hy _⟩
      simp [AState.delWord, AState.dropVals, this]
    · intro h
      exact hnf ((hF y.node (by simp; exact fun e => hnf (e ▸ ht))).1.mp h)
  · refine sameValues_of_inv I I' ?_
    intro q hq
    have : ¬ Within w q := fun h => hq (List.mem_map.mpr ⟨_, h.1, rfl⟩)
    simp [AState.dropVals, AState.delWord, this]

-- for `c11_no_leak`, `c11_no_undefined`, `c11_destroy`: the demo world and an allowed call in it
example : ∃ W : World Nat, Reachable W ∧ IsForest W 0 ∧ order W 0 = some demoWord ∧
    Allowed W (.eraseRange 0 (L 3) (end_ 0)) ∧ Allowed W (.destroy 0) := by
  obtain ⟨W, h, I⟩ := demo
  exact ⟨W, h, I.isForest_iff.mpr ⟨_, rfl⟩, I.order rfl,
    ⟨[L 1, L 2, R 2], [L 3, R 3, R 1, L 4, R 4], [], I.rep 0 _ rfl, rfl, rfl⟩, demoWord, I.rep 0 _ rfl⟩

-- for `c11_all_freed`: destroy all three forests of the demo world
example : ∃ W : World Nat, Reachable W ∧ ∀ t, ¬ IsForest W t := by
  obtain ⟨W, h, I⟩ := demo
  obtain ⟨W1, -, hn1, -, -, -, hF1, hR1⟩ := c11_destroy h (I.isForest_iff.mpr ⟨_, rfl⟩) (I.order (t := 0) rfl)
  obtain ⟨W2, -, hn2, -, -, -, hF2, hR2⟩ := c11_destroy (t := 100) hR1
    ((hF1 100 (by decide)).1.mpr (I.isForest_iff.mpr ⟨_, rfl⟩))
    (by rw [(hF1 100 (by decide)).2 (I.isForest_iff.mpr ⟨_, rfl⟩)]; exact I.order rfl)
  have hf200 : IsForest W 200 := I.isForest_iff.mpr ⟨_, rfl⟩
  have h200 : IsForest W1 200 := (hF1 200 (by decide)).1.mpr hf200
  obtain ⟨W3, -, hn3, -, -, -, hF3, hR3⟩ := c11_destroy (t := 200) hR2
    ((hF2 200 (by decide)).1.mpr h200)
    (by rw [(hF2 200 (by decide)).2 h200, (hF1 200 (by decide)).2 hf200]; exact I.order rfl)
  refine ⟨W3, hR3, ?_⟩
  intro t ht
  by_cases e3 : t = 200
  · subst e3; exact hn3 ht
  have ht2 := (hF3 t (by simpa using e3)).1.mp ht
  by_cases e2 : t = 100
  · subst e2; exact hn2 ht2
  have ht1 := (hF2 t (by simpa using e2)).1.mp ht2
  by_cases e1 : t = 0
  · subst e1; exact hn1 ht1
  have ht0 := (hF1 t (by simpa using e1)).1.mp ht1
  obtain ⟨w, hw⟩ := I.isForest_iff.mp ht0
  simp [demoState, e1, e2, e3] at hw

/-! ## C12 -/

/-- C12, the part that holds: when both sizes are known, `equal_shape` decides equality of shapes.
Missing: an unknown size (see the counterexample). -/
theorem c12_equal_shape_partial (hW : Reachable W) (hx : IsForest W x) (hy : IsForest W y)
    {v w : List Iter} (hox : order W x = some v) (hoy : order W y = some w)
    {ts us : List (Tree T)} (hts : Denotes W.value v ts) (hus : Denotes W.value w us)
    (hsx : sizeValid W x = some true) (hsy : sizeValid W y = some true) :
    ∃ W' r, equalShape W x y = some (W', r) ∧ (r = true ↔ shapeOf ts = shapeOf us) := by
  obtain ⟨A, I⟩ := hW.inv
  have hv := I.words_of_order hx hox
  have hw := I.words_of_order hy hoy
  obtain ⟨W', h1, -⟩ := equalShape_refines I hv hw
  rw [sizeValid_eq (I.rep x _ hv)] at hsx
  rw [sizeValid_eq (I.rep y _ hw)] at hsy
  simp only [Option.some.injEq, decide_eq_true_eq] at hsx hsy
  rw [if_pos ⟨hsx, hsy⟩] at h1
  refine ⟨W', _, h1, ?_⟩
  simp only [decide_eq_true_eq]
  exact shape_eq_iff hts hus

/-- C12, what holds when a size is unknown: `equal_shape` then says whether the first forest has the shape of the
first trees of the second one, and leaves the rest of the second one out of account. -/
theorem c12_unknown_partial (hW : Reachable W) (hx : IsForest W x) (hy : IsForest W y)
    {v w : List Iter} (hox : order W x = some v) (hoy : order W y = some w)
    {ts us : List (Tree T)} (hts : Denotes W.value v ts) (hus : Denotes W.value w us)
    (hs : sizeValid W x = some false ∨ sizeValid W y = some false) :
    ∃ W' r, equalShape W x y = some (W', r) ∧ (r = true ↔ shapeOf ts <+: shapeOf us) := by
  obtain ⟨A, I⟩ := hW.inv
  have hv := I.words_of_order hx hox
  have hw := I.words_of_order hy hoy
  obtain ⟨W', h1, -⟩ := equalShape_refines I hv hw
  rw [sizeValid_eq (I.rep x _ hv), sizeValid_eq (I.rep y _ hw)] at hs
  simp only [Option.some.injEq, decide_eq_false_iff_not] at hs
  rw [if_neg (by rintro ⟨h2, h3⟩; rcases hs with hs | hs <;> contradiction)] at h1
  refine ⟨W', _, h1, ?_⟩
  simp only [decide_eq_true_eq]
  exact shape_prefix_iff hts hus

/-- C12, the part that holds whatever is known of the sizes: forests of equal shape are found equal, and forests with
equally many nodes are told apart. -/
theorem c12_complete_partial (hW : Reachable W) (hx : IsForest W x) (hy : IsForest W y)
    {v w : List Iter} (hox : order W x = some v) (hoy : order W y = some w)
    {ts us : List (Tree T)} (hts : Denotes W.value v ts) (hus : Denotes W.value w us) :
    ∃ W' r, equalShape W x y = some (W', r) ∧ (shapeOf ts = shapeOf us → r = true) ∧
      (countTrees us ≤ countTrees ts → r = true → shapeOf ts = shapeOf us) := by
  obtain ⟨A, I⟩ := hW.inv
  have hv := I.words_of_order hx hox
  have hw := I.words_of_order hy hoy
  obtain ⟨W', h1, -⟩ := equalShape_refines I hv hw
  refine ⟨W', _, h1, ?_, ?_⟩
  · intro h
    have := (shape_eq_iff hts hus).2 h
    split <;> simp [this]
  · intro hc hr
    rw [← shape_eq_iff hts hus]
    split at hr
    · simpa using hr
    · have hp : shape v <+: shape w := by simpa using hr
      refine hp.eq_of_length_le ?_
      simp only [shape, List.length_map, hts.length, hus.length]
      omega

theorem splice_size_zero {W W' : World T} {t x : Ptr} {pos first last r : Iter} (hxt : x ≠ t) (h1 : first ≠ last)
    (h2 : first ≠ pos) (h : splice W t pos x first last 0 = some (W', r)) : W'.size t = 0 := by
  have hw : W'.size = ((W.setSize t 0).setSize x 0).size := by
    simp only [splice, h1, h2, or_self, if_false, hxt, ne_eq, not_false_eq_true, if_true, not_true_eq_false,
      Option.bind_eq_bind, Option.bind_some, Option.bind_eq_some_iff, pure, Option.some.injEq, Prod.mk.injEq] at h
    obtain ⟨-, -, -, -, -, -, -, -, -, -, -, -, rfl, -⟩ := h
    rfl
  rw [hw]
  simp [World.setSize]

/-- C12 is false of the code: after a splice has made the size of `y` unknown, `equal_shape` calls the empty
forest `x` and the non-empty forest `y` equal in shape. -/
theorem c12_equal_shape_counterexample :
    ∃ (W : World Nat) (x y : Ptr) (w : List Iter) (W' : World Nat), Reachable W ∧ IsForest W x ∧ IsForest W y ∧
      order W x = some [] ∧ order W y = some w ∧ w ≠ [] ∧ equalShape W x y = some (W', true) := by
  obtain ⟨W, hR, I⟩ := demo
  obtain ⟨W', h1, hft, hfx, hot, hox, -, -, hR'⟩ := c05_splice_between (t := 200) (x := 100) (a := []) (c := [])
    (l := []) (S := [L 5, R 5]) (r := []) (k := 0) hR (I.isForest_iff.mpr ⟨_, rfl⟩)
    (I.isForest_iff.mpr ⟨_, rfl⟩) (by decide) (I.order rfl) (I.order rfl)
    (Balanced.cons 5 (b := []) .nil .nil) (by simp) (Or.inl rfl)
  obtain ⟨A', I'⟩ := hR'.inv
  obtain ⟨W'', h2, -⟩ := equalShape_refines I' (I'.words_of_order hfx hox) (I'.words_of_order hft hot)
  have hs : W'.size 200 = 0   := splice_size_zero (by decide) (by decide) (by decide) h1
  refine ⟨W', 100, 200, _, W'', hR', hfx, hft, hox, hot, by simp, ?_⟩
  rw [h2, if_neg (by simp [hs])]
  simp [shape]

-- `size()` makes the size of a forest known, so `c12_equal_shape_partial` applies afterwards
example : ∃ W : World Nat, Reachable W ∧ IsForest W 0 ∧ IsForest W 200 ∧ order W 0 = some demoWord ∧
    order W 200 = some [] ∧ sizeValid W 0 = some true ∧ sizeValid W 200 = some true := by
  obtain ⟨W, h, I⟩ := demo
  obtain ⟨W', h1, I', -, hs, -⟩ := size_refines (t := 0) (w := demoWord) I rfl
  refine ⟨W', .step (.size 0) h ⟨_, I.rep 0 _ rfl⟩ (by simp [exec, h1]), I'.isForest_iff.mpr ⟨_, rfl⟩,
    I'.isForest_iff.mpr ⟨_, rfl⟩, I'.order rfl, I'.order rfl, ?_, ?_⟩
  · rw [sizeValid_eq (I'.rep 0 _ rfl), hs]; decide
  · rw [sizeValid_eq (I'.rep 200 [] rfl)]; simp

-- a splice without count makes the size of a forest unknown, so `c12_unknown_partial` applies afterwards
example : ∃ W : World Nat, Reachable W ∧ IsForest W 0 ∧ IsForest W 200 ∧ order W 0 = some demoWord ∧
    order W 200 = some [L 5, R 5] ∧ sizeValid W 200 = some false := by
  obtain ⟨W, hR, I⟩ := demo
  obtain ⟨W', h1, hft, hfx, hot, hox, -, hsame, hR'⟩ := c05_splice_between (t := 200) (x := 100) (a := []) (c := [])
    (l := []) (S := [L 5, R 5]) (r := []) (k := 0) hR (I.isForest_iff.mpr ⟨_, rfl⟩)
    (I.isForest_iff.mpr ⟨_, rfl⟩) (by decide) (I.order rfl) (I.order rfl)
    (Balanced.cons 5 (b := []) .nil .nil) (by simp) (Or.inl rfl)
  have hs : W'.size 200 = 0 := splice_size_zero (by decide) (by decide) (by decide) h1
  obtain ⟨A', I'⟩ := hR'.inv
  have h0 := hsame 0 (by decide)
  refine ⟨W', hR', h0.1.2 (I.isForest_iff.mpr ⟨_, rfl⟩), hft, ?_, by simpa using hot, ?_⟩
  · rw [h0.2 (I.isForest_iff.mpr ⟨_, rfl⟩)]; exact I.order rfl
  · rw [sizeValid_eq (I'.rep 200 _ (I'.words_of_order hft hot)), hs]; decide

/-! ## C13 -/

/-- C13. `flatten` of a forest is the flat form of its trees. -/
theorem c13_flatten (hW : Reachable W) (hx : IsForest W x) {v : List Iter} (ho : order W x = some v)
    {ts : List (Tree T)} (hd : Denotes W.value v ts) :
    ∃ b, begin_ W.heap x = some b ∧ flatten W.heap b (end_ x) = some (enc ts) := by
  obtain ⟨A, I⟩ := hW.inv
  have hv := I.words_of_order hx ho
  refine ⟨_, (I.rep x _ hv).begin_posOf, ?_⟩
  have := flatten_eq I (a := []) (r := v) (c := []) (by simpa using hv)
  simp only [List.append_nil, posOf_nil] at this
  rw [this, I.content_denotes hd]

/-- C13. `unflatten` of the flat form of `ts` puts exactly the trees `ts` before the previous content. -/
theorem c13_unflatten (hW : Reachable W) (ht : IsForest W t) {w : List Iter} (ho : order W t = some w)
    (ts : List (Tree T)) {ps : List Ptr} (hps : Fresh W ps (countTrees ts)) :
    ∃ W' E, unflatten W t (enc ts) ps = some (W', posOf t w) ∧ IsForest W' t ∧ order W' t = some (E ++ w) ∧
      Denotes W'.value E ts ∧ SameForests [t] W W' ∧ SameValues ps W W' ∧ Reachable W' := by
  obtain ⟨A, I⟩ := hW.inv
  have hw := I.words_of_order ht ho
  have hN : Nested 0 (enc ts) := by
    have := enc_nested ts 0 [] rfl
    simpa using this
  rw [← enc_opens] at hps
  obtain ⟨hnd, hfr, hlen⟩ := hps
  obtain ⟨W', A', E, h1, I', hwords, hc, hval⟩ := unflatten_refines I hw hN hnd hfr hlen
  have hwt : A'.words t = some (E ++ w) := by rw [hwords]; simp [AState.setWord]
  refine ⟨W', E, h1, I'.isForest_iff.mpr ⟨_, hwt⟩, I'.order hwt, ?_, ?_, ?_, ?_⟩
  · have Rp := I'.rep t _ hwt
    refine I'.denotes_of_content (a := []) (c := w) (by simpa using hwt) ?_ hc
    refine Balanced.infix (val := A'.val) (a := []) (c := w) (by simpa using Rp.balanced) ?_ (by rw [hc]; exact hN)
    intro y hy
    obtain ⟨u, hu, -⟩ := I'.val_some hwt (x := y) (by simp [hy])
    exact ⟨u, hu⟩
  · refine sameForests_of_inv I I' ?_
    intro q hq; simp only [List.mem_singleton] at hq; simp [hwords, AState.setWord, hq]
  · exact sameValues_of_inv I I' hval
  · exact .step (.unflatten t (enc ts) ps) hW ⟨⟨w, I.rep t _ hw⟩, hN, hnd, hfr, hlen⟩ (by simp [exec, h1])

/-- C13. Round trip: flattening any forest and unflattening the result into an empty one gives a forest
denoting the same trees, whose flattening is the same sequence again. -/
theorem c13_round_trip (hW : Reachable W) (hx : IsForest W x) (ht : IsForest W t) {v : List Iter}
    (ho : order W x = some v) (hot : order W t = some []) {ts : List (Tree T)} (hd : Denotes W.value v ts)
    {ps : List Ptr} (hps : Fresh W ps (countTrees ts)) :
    ∃ b s W' i E b', begin_ W.heap x = some b ∧ flatten W.heap b (end_ x) = some s ∧
      unflatten W t s ps = some (W', i) ∧ order W' t = some E ∧ Denotes W'.value E ts ∧
      begin_ W'.heap t = some b' ∧ flatten W'.heap b' (end_ t) = some s := by
  obtain ⟨b, h1, h2⟩ := c13_flatten hW hx ho hd
  obtain ⟨W', E, h3, hf, ho', hd', -, -, hR⟩ := c13_unflatten hW ht hot ts hps
  rw [List.append_nil] at ho'
  obtain ⟨b', h4, h5⟩ := c13_flatten hR hf ho' hd'
  exact ⟨b, _, W', _, E, b', h1, h2, h3, ho', hd', h4, h5⟩

/-! ## C14 -/

/-- C14. `transcribe` puts the projected trees of the source before the destination's previous content. -/
theorem c14_transcribe (proj : T → T) (hW : Reachable W) (hx : IsForest W x) (ht : IsForest W t)
    (htx : x ≠ t) {v w : List Iter} (hox : order W x = some v) (hot : order W t = some w)
    {ts : List (Tree T)} (hd : Denotes W.value v ts) {ps : List Ptr} (hps : Fresh W ps (countTrees ts)) :
    ∃ W' E, transcribe proj W x t ps = some (W', posOf t w) ∧ IsForest W' t ∧ order W' t = some (E ++ w) ∧
      Denotes W'.value E (mapTrees proj ts) ∧ SameForests [t] W W' ∧ SameValues ps W W' ∧ Reachable W' := by
  obtain ⟨A, I⟩ := hW.inv
  have hw := I.words_of_order ht hot
  have hv := I.words_of_order hx hox
  rw [← hd.count] at hps
  obtain ⟨hnd, hfr, hlen⟩ := hps
  obtain ⟨W', A', E, h1, I', hwords, hc, hval⟩ := transcribe_refines proj I htx hw hv hnd hfr hlen
  have hwt : A'.words t = some (E ++ w) := by rw [hwords]; simp [AState.setWord]
  have hc' : Forest.content A'.val E = enc (mapTrees proj ts) := by
    rw [hc, I.content_denotes hd, enc_map]
  have hN : Nested 0 (enc (mapTrees proj ts)) := by
    have := enc_nested (mapTrees proj ts) 0 [] rfl
    simpa using this
  refine ⟨W', E, h1, I'.isForest_iff.mpr ⟨_, hwt⟩, I'.order hwt, ?_, ?_, ?_, ?_⟩
  · have Rp := I'.rep t _ hwt
    refine I'.denotes_of_content (a := []) (c := w) (by simpa using hwt) ?_ hc'
    refine Balanced.infix (val := A'.val) (a := []) (c := w) (by simpa using Rp.balanced) ?_ (by rw [hc']; exact hN)
    intro y hy
    obtain ⟨u, hu, -⟩ := I'.val_some hwt (x := y) (by simp [hy])
    exact ⟨u, hu⟩
  · refine sameForests_of_inv I I' ?_
    intro q hq; simp only [List.mem_singleton] at hq; simp [hwords, AState.setWord, hq]
  · exact sameValues_of_inv I I' hval
  · exact .step (.transcribe proj x t ps) hW
      ⟨htx, ⟨w, I.rep t _ hw⟩, v, I.rep x _ hv, hnd, hfr, hlen⟩ (by simp [exec, h1])

-- for C13 and C14
example : ∃ W : World Nat, Reachable W ∧ IsForest W 0 ∧ IsForest W 100 ∧ IsForest W 200 ∧
    order W 0 = some demoWord ∧ order W 100 = some [L 5, R 5] ∧ order W 200 = some [] ∧
    Denotes W.value demoWord demoTrees ∧ Fresh W [6, 7, 8, 9] (countTrees demoTrees) := by
  obtain ⟨W, h, I⟩ := demo
  exact ⟨W, h, I.isForest_iff.mpr ⟨_, rfl⟩, I.isForest_iff.mpr ⟨_, rfl⟩, I.isForest_iff.mpr ⟨_, rfl⟩,
    I.order rfl, I.order rfl, I.order rfl, demo_denotes I, demo_fresh I⟩

end Verif.Forest
