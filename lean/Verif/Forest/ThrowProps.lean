import Verif.Forest.Throw

/-!
# Property theorems C83: a copy throws
-/

namespace Verif.Forest

variable {T : Type} {W : World T} {t x y p : Ptr} {a c l S r w v : List Iter}

/-- A node that is allocated and belongs to no forest: nothing can free it any more. -/
def Leaked (W : World T) (q : Ptr) : Prop :=
  W.heap q ≠ none ∧ ¬ IsForest W q ∧ ∀ t w, IsForest W t → order W t = some w → ∀ y ∈ w, y.node ≠ q

/-- In a reachable world nothing is leaked. -/
theorem not_leaked (hW : Reachable W) (q : Ptr) : ¬ Leaked W q := by
  rintro ⟨h1, h2, h3⟩
  rcases (c11_no_leak hW q).1.mp h1 with hf | ⟨t, w, hf, ho, y, hy, e⟩
  · exact h2 hf
  · exact h3 t w hf ho y hy e

/-! ## The model with and without exceptions -/

theorem unflattenThrow_all (t : Ptr) : ∀ (s : List (Option T)) (ps : List Ptr) (n : Nat) (W : World T) (out : Iter),
    opens s ≤ n → unflattenThrow W t out ps n s = (unflattenLoop W t out ps s).map fun r => (r.1, some r.2)
  | [], ps, n, W, out, _ => by simp [unflattenThrow, unflattenLoop]
  | some v :: s, [], n, W, out, _ => by simp [unflattenThrow, unflattenLoop]
  | some v :: s, p :: ps, 0, W, out, h => by simp [opens] at h
  | some v :: s, p :: ps, n + 1, W, out, h => by
    have e : (n + 1 != 0) = true := by simp
    have ho : opens s ≤ n := by
      simp only [opens, Option.isSome_some, List.filter_cons_of_pos, List.length_cons] at h ⊢; omega
    simp only [unflattenThrow, insertThrow, e, if_true, unflattenLoop, transcribeAssign, Option.bind_eq_bind, pure,
      Nat.add_sub_cancel]
    cases h1 : insert W t out v p with
    | none => simp
    | some r =>
      simp only [Option.bind_some]
      cases h2 : incr r.1.heap r.2 with
      | none => simp
      | some o => simp only [Option.bind_some]; exact unflattenThrow_all t s ps n r.1 o ho
  | none :: s, ps, n, W, out, h => by
    have ho : opens s ≤ n := by simpa [opens] using h
    simp only [unflattenThrow, unflattenLoop, Option.bind_eq_bind]
    cases h2 : incr W.heap out.trailingOf with
    | none => simp
    | some o => simp only [Option.bind_some]; exact unflattenThrow_all t s ps n W o ho

theorem firstNodes_balanced {A : AState T} (I : Inv W A) {E : List Iter} {ts : List (Tree T)} (n : Nat)
    (hwt : A.words t = some (a ++ (E ++ c))) (hc : Forest.content A.val E = enc (firstNodes n ts)) :
    Denotes W.value E (firstNodes n ts) := by
  have hN : Nested 0 (enc (firstNodes n ts)) := by
    have := enc_nested (firstNodes n ts) 0 [] rfl
    simpa using this
  refine I.denotes_of_content (a := a) (c := c) hwt ?_ hc
  refine Balanced.infix (val := A.val) (a := a) (c := c) (I.rep t _ hwt).balanced ?_ (by rw [hc]; exact hN)
  intro y hy
  obtain ⟨u, hu, -⟩ := I.val_some hwt (x := y) (by simp [hy])
  exact ⟨u, hu⟩

/-! ## C83 -/

/-- C83. `insert` of a value and `insert_parent`: if the copy throws nothing at all has changed; if it does not, they do what C02 and
C07 say. -/
theorem c83_insert_parent (W : World T) (t : Ptr) (pos first last : Iter) (x : T) (p : Ptr) :
    insertThrow W t pos x p false = some (W, none) ∧
    insertThrow W t pos x p true = (insert W t pos x p).map (fun r => (r.1, some r.2)) ∧
    insertParentThrow W t first last x p false = some (W, none) ∧
    insertParentThrow W t first last x p true = (insertParent W t first last x p).map (fun r => (r.1, some r.2)) := by
  refine ⟨by simp [insertThrow], ?_, by simp [insertParentThrow, insertThrow], ?_⟩
  · cases h : insert W t pos x p <;> simp [insertThrow, h]
  · cases h : insert W t last x p with
    | none => simp [insertParentThrow, insertParent, insertThrow, h]
    | some r =>
      by_cases e : first = last
      · simp [insertParentThrow, insertParent, insertThrow, h, e]
      · simp only [insertParentThrow, insertThrow, insertParent, h, e, if_true, if_false, Option.bind_eq_bind, Option.bind_some, pure]
        cases spliceRange r.1 t r.2.trailingOf t first r.2 <;> simp

/-- C83. Inserting a range of another forest when the copy number `n` (from 0) throws: the forest stays well formed and has, at the
place of insertion, the first `n` nodes of the range, in preorder and with the same parents; nothing is leaked, nothing else changes,
and everything that holds of reachable worlds holds afterwards. If the range has at most `n` nodes it is inserted as a whole. -/
theorem c83_insert_range (hW : Reachable W) (ht : IsForest W t) (hx : IsForest W x) (htx : x ≠ t)
    (hot : order W t = some (a ++ c)) (hox : order W x = some (l ++ (S ++ r)))
    {ts : List (Tree T)} (hd : Denotes W.value S ts) {ps : List Ptr} (hps : Fresh W ps (countTrees ts)) (n : Nat) :
    ∃ W' E, insertRangeThrow W t (posOf t c) (posOf x (S ++ r)) (posOf x r) ps n =
        some (W', if n < countTrees ts then none else some (posOf t c)) ∧
      IsForest W' t ∧ order W' t = some (a ++ (E ++ c)) ∧ Denotes W'.value E (firstNodes n ts) ∧
      (nodes E).length = min n (countTrees ts) ∧ (∀ q, ¬ Leaked W' q) ∧
      SameForests [t] W W' ∧ SameValues ps W W' ∧ Reachable W' := by
  obtain ⟨A, I⟩ := hW.inv
  have hw := I.words_of_order ht hot
  have hv := I.words_of_order hx hox
  rw [← hd.count] at hps
  obtain ⟨hnd, hfr, hlen⟩ := hps
  obtain ⟨W', A', E, h1, I', hwords, hc, hval, hre⟩ :=
    insertRangeThrow_refines I n htx hw hv hd.balanced hnd hfr hlen
  rw [hd.count] at h1
  have hwt : A'.words t = some (a ++ (E ++ c)) := by rw [hwords]; simp [AState.setWord]
  have hc' : Forest.content A'.val E = enc (firstNodes n ts) := by
    rw [hc, I.content_denotes hd, cut_firstNodes]
  have hden := firstNodes_balanced I' n hwt hc'
  refine ⟨W', E, h1, I'.isForest_iff.mpr ⟨_, hwt⟩, I'.order hwt, hden, by rw [hden.count, count_firstNodes],
    not_leaked (hre hW), ?_, sameValues_of_inv I I' hval, hre hW⟩
  refine sameForests_of_inv I I' ?_
  intro q hq; simp only [List.mem_singleton] at hq; simp [hwords, AState.setWord, hq]

/-- C83. The same for `unflatten`: the first `n` nodes are there, before the former content. -/
theorem c83_unflatten (hW : Reachable W) (ht : IsForest W t) (ho : order W t = some w)
    (ts : List (Tree T)) {ps : List Ptr} (hps : Fresh W ps (countTrees ts)) (n : Nat) :
    ∃ W' E, unflattenAllThrow W t (enc ts) ps n =
        some (W', if n < countTrees ts then none else some (posOf t w)) ∧
      IsForest W' t ∧ order W' t = some (E ++ w) ∧ Denotes W'.value E (firstNodes n ts) ∧
      (∀ q, ¬ Leaked W' q) ∧ SameForests [t] W W' ∧ SameValues ps W W' ∧ Reachable W' := by
  obtain ⟨A, I⟩ := hW.inv
  have hw := I.words_of_order ht ho
  have hN : Nested 0 (enc ts) := by
    have := enc_nested ts 0 [] rfl
    simpa using this
  rw [← enc_opens] at hps
  obtain ⟨hnd, hfr, hlen⟩ := hps
  obtain ⟨W', A', E, h1, I', hwords, hc, hval, hre⟩ := unflattenThrow_refines t [] w (enc ts) ps n [] [] W A I
    (by simpa using hw) (by simp) hN hnd hfr hlen
  simp only [List.nil_append] at h1 hwords
  rw [enc_opens] at h1
  have hwt : A'.words t = some ([] ++ (E ++ w)) := by rw [hwords]; simp [AState.setWord]
  have hc' : Forest.content A'.val E = enc (firstNodes n ts) := by
    rw [hc]; exact cut_firstNodes ts n
  refine ⟨W', E, ?_, I'.isForest_iff.mpr ⟨_, hwt⟩, I'.order hwt, firstNodes_balanced I' n hwt hc',
    not_leaked (hre hW), ?_, sameValues_of_inv I I' hval, hre hW⟩
  · rw [unflattenAllThrow, (I.rep t w hw).begin_posOf]; exact h1
  · refine sameForests_of_inv I I' ?_
    intro q hq; simp only [List.mem_singleton] at hq; simp [hwords, AState.setWord, hq]

theorem nodup_nodes (h : w.Nodup) : (nodes w).Nodup := by
  refine List.Nodup.map_on ?_ (h.filter _)
  intro y hy z hz e
  simp only [List.mem_filter, decide_eq_true_eq] at hy hz
  cases y; cases z; simp_all

/-- C83, the part that holds for the copy constructor when the copy number `n` throws: no forest and no value that was there is
changed, and the object that was being constructed is gone. Missing: the `n` nodes that were copied before are not freed. -/
theorem c83_copy_partial (hW : Reachable W) (hx : IsForest W x) (hox : order W x = some v)
    {ts : List (Tree T)} (hd : Denotes W.value v ts) (ht : W.heap t = none) {ps : List Ptr} (htp : t ∉ ps)
    (hps : Fresh W ps (countTrees ts)) {n : Nat} (hn : n < countTrees ts) :
    ∃ (W' : World T) (qs : List Ptr), copyCtorThrow W t x ps n = some (W', false) ∧ SameForests [] W W' ∧ SameValues ps W W' ∧
      W'.heap t = none ∧ qs.length = n ∧ qs.Nodup ∧ (∀ q ∈ qs, q ∈ ps) ∧ ∀ q, Leaked W' q ↔ q ∈ qs := by
  obtain ⟨A, I⟩ := hW.inv
  have hv := I.words_of_order hx hox
  have htx : x ≠ t := by rintro rfl; rw [I.words_none ht] at hv; simp at hv
  rw [← hd.count] at hps
  obtain ⟨hnd, hfr, hlen⟩ := hps
  obtain ⟨W1, h1, I1, hF⟩ := newForest_refines I ht
  have hx1 : (A.setWord t []).words x = some ([] ++ (v ++ [])) := by
    rw [AState.words_setWord_ne htx]; simpa using hv
  obtain ⟨W2, A2, E, g1, I2, g3, g4, g5, -⟩ := insertRangeThrow_refines I1 n (a := []) (c := []) htx
    (by rw [AState.words_setWord]; rfl) hx1 (I.rep x v hv).balanced hnd
    (fun p hp' => by rw [hF p (fun e => htp (e ▸ hp'))]; exact hfr p hp') hlen
  have hb := (I1.rep x v (by simpa using hx1)).begin_posOf
  simp only [List.append_nil, posOf_nil, hd.count, hn, if_true] at g1
  have hwt : A2.words t = some E := by rw [g3]; simp [AState.setWord]
  have hoth : ∀ q, q ≠ t → A2.words q = A.words q := by
    intro q hq; rw [g3]; simp [AState.setWord, hq]
  obtain ⟨f1, f2, f3⟩ := I2.forget hwt rfl
  have hc' : Forest.content A2.val E = enc (firstNodes n ts) := by
    rw [g4]
    have : Forest.content (A.setWord t []).val v = enc ts := I.content_denotes hd
    rw [this, cut_firstNodes]
  have hden := firstNodes_balanced (a := []) (c := []) I2 n (by simpa using hwt) hc'
  have hB := hden.balanced
  have hsf : ∀ q, q ≠ t → (IsForest W2 q ↔ IsForest W q) := by
    intro q hq; rw [I2.isForest_iff, I.isForest_iff, hoth q hq]
  have hnt : ¬ IsForest W t := by rintro ⟨k, hk, -⟩; rw [ht] at hk; simp at hk
  have hlive : ∀ q, (∃ y ∈ E, y.node = q) →
      Leaked ({ W2 with heap := fun q => if q = t then none else W2.heap q } : World T) q := by
    rintro q ⟨y, hy, rfl⟩
    have hyt : y.node ≠ t := by
      intro e
      have hnd := (I2.rep t E hwt).nodup
      have := hB.mem_edge hy .trailing
      rw [e] at this
      simp only [closed, List.nodup_cons, List.nodup_append] at hnd
      exact hnd.2.2.2 _ this _ (by simp) rfl
    have hnf := I2.not_forest hwt hy
    obtain ⟨m, u, m1, -⟩ := (I2.rep t E hwt).live y hy
    refine ⟨by simp [hyt, m1], fun h => hnf ((f1 _).mp h).2, ?_⟩
    intro s z hs hz y' hy' e
    obtain ⟨hst, hs2⟩ := (f1 s).mp hs
    rw [f2 s hst hs2] at hz
    have hz2 := I2.words_of_order hs2 hz
    refine hst (I2.disj s z t E y.node hz2 hwt ?_ ?_)
    · simp only [support, List.mem_cons, List.mem_map]; exact Or.inr ⟨y', hy', e⟩
    · simp only [support, List.mem_cons, List.mem_map]; exact Or.inr ⟨y, hy, rfl⟩
  have hmem : ∀ q, q ∈ nodes E ↔ ∃ y ∈ E, y.node = q := by
    intro q
    simp only [nodes, List.mem_map, List.mem_filter, decide_eq_true_eq]
    constructor
    · rintro ⟨y, ⟨hy, -⟩, e⟩; exact ⟨y, hy, e⟩
    · rintro ⟨y, hy, rfl⟩; exact ⟨⟨y.node, .leading⟩, ⟨hB.mem_edge hy _, rfl⟩, rfl⟩
  refine ⟨({ W2 with heap := fun q => if q = t then none else W2.heap q } : World T), nodes E, ?_, ?_, ?_, by simp, ?_, nodup_nodes (I2.rep t E hwt).nodup_word, ?_, ?_⟩
  · simp only [copyCtorThrow, h1, hb, Option.bind_eq_bind, Option.bind_some, g1]; rfl
  · intro q _
    by_cases hq : q = t
    · subst hq
      exact ⟨⟨fun h => absurd rfl ((f1 q).mp h).1, fun h => absurd h hnt⟩, fun h => absurd h hnt⟩
    · refine ⟨by rw [f1, hsf q hq]; simp [hq], fun h => ?_⟩
      rw [f2 q hq ((hsf q hq).mpr h)]
      obtain ⟨u, hu⟩ := I.isForest_iff.mp h
      rw [I.order hu, I2.order (by rw [hoth q hq]; exact hu)]
  · intro q hq
    rw [f3, World.value, World.value, I2.val, I.val, g5 q hq]; rfl
  · rw [hden.count, count_firstNodes]; omega
  · intro q hq
    by_contra hn'
    obtain ⟨y, hy, rfl⟩ := (hmem q).mp hq
    have e2 := g5 y.node hn'
    obtain ⟨u, hu, -⟩ := I2.val_some hwt hy
    rw [hu] at e2
    have e3 : A.val y.node = some u := e2.symm
    rw [← I.val] at e3
    have h4 : W.heap y.node ≠ none := by
      intro h0; simp [valueAt, h0] at e3
    obtain ⟨s, z, hz, hm⟩ := I.noleak _ h4
    have hs : s ≠ t := by rintro rfl; rw [I.words_none ht] at hz; simp at hz
    refine hs (I2.disj s z t E y.node (by rw [hoth s hs]; exact hz) hwt hm ?_)
    simp only [support, List.mem_cons, List.mem_map]; exact Or.inr ⟨y, hy, rfl⟩
  · intro q
    rw [hmem]
    refine ⟨?_, hlive q⟩
    rintro ⟨h2, h3, h4⟩
    have hqt : q ≠ t := by rintro rfl; simp at h2
    simp only [hqt, if_false] at h2
    obtain ⟨s, z, hz, hm⟩ := I2.noleak q h2
    simp only [support, List.mem_cons, List.mem_map] at hm
    by_cases hs : s = t
    · subst hs
      rw [hwt] at hz; simp only [Option.some.injEq] at hz; subst hz
      rcases hm with e | h
      · exact absurd e hqt
      · exact h
    · have hs2 : IsForest W2 s := I2.isForest_iff.mpr ⟨_, hz⟩
      have hs3 := (f1 s).mpr ⟨hs, hs2⟩
      rcases hm with rfl | ⟨y, hy, e⟩
      · exact absurd hs3 h3
      · exact absurd e (h4 s z hs3 (by rw [f2 s hs hs2, I2.order hz]) y hy)

/-- C83 fails for the copy constructor: whenever a copy throws after the first one has succeeded, nodes are leaked - the constructor
delegates to no other constructor, so the destructor of the forest is not called. -/
theorem c83_copy_counterexample (hW : Reachable W) (hx : IsForest W x) (hox : order W x = some v)
    {ts : List (Tree T)} (hd : Denotes W.value v ts) (ht : W.heap t = none) {ps : List Ptr} (htp : t ∉ ps)
    (hps : Fresh W ps (countTrees ts)) {n : Nat} (h0 : 0 < n) (hn : n < countTrees ts) :
    ∃ W' q, copyCtorThrow W t x ps n = some (W', false) ∧ Leaked W' q ∧ ¬ Reachable W' := by
  obtain ⟨W', qs, h1, -, -, -, h2, -, -, h3⟩ := c83_copy_partial hW hx hox hd ht htp hps hn
  cases qs with
  | nil => simp at h2; omega
  | cons q qs => exact ⟨W', q, h1, (h3 q).mpr (by simp), fun h => not_leaked h q ((h3 q).mpr (by simp))⟩

/-- C83. If every copy succeeds the copy constructor does what C09 says. -/
theorem c83_copy_completes (hW : Reachable W) (hx : IsForest W x) (hox : order W x = some v)
    {ts : List (Tree T)} (hd : Denotes W.value v ts) (ht : W.heap t = none) {ps : List Ptr} (htp : t ∉ ps)
    (hps : Fresh W ps (countTrees ts)) {n : Nat} (hn : countTrees ts ≤ n) :
    copyCtorThrow W t x ps n = (copyCtor W t x ps).map fun W' => (W', true) := by
  obtain ⟨A, I⟩ := hW.inv
  have hv := I.words_of_order hx hox
  have htx : x ≠ t := by rintro rfl; rw [I.words_none ht] at hv; simp at hv
  rw [← hd.count] at hps
  obtain ⟨hnd, hfr, hlen⟩ := hps
  obtain ⟨W1, h1, I1, hF⟩ := newForest_refines I ht
  have hx1 : (A.setWord t []).words x = some ([] ++ (v ++ [])) := by
    rw [AState.words_setWord_ne htx]; simpa using hv
  have hb := (I1.rep x v (by simpa using hx1)).begin_posOf
  have hfr1 : ∀ p ∈ ps, W1.heap p = none := fun p hp' => by rw [hF p (fun e => htp (e ▸ hp'))]; exact hfr p hp'
  have hcd : Forest.content (A.setWord t []).val v = enc ts := I.content_denotes hd
  have hN : Nested 0 (enc ts) := by
    have := enc_nested ts 0 [] rfl
    simpa using this
  have hop : opens (enc ts) ≤ ps.length := by rw [enc_opens, ← hd.count]; exact hlen
  have e1 := insertRangeThrow_eq t x [] [] [] htx v [] ps n [] [] W1 _ I1 (by simp [AState.setWord]) hx1 (by simp)
    (by rw [hcd]; exact hN) hnd hfr1 (by rw [hcd]; exact hop)
  have e2 := insertRangeLoop_eq t x [] [] [] htx v [] ps [] [] W1 _ I1 (by simp [AState.setWord]) hx1 (by simp)
    (by rw [hcd]; exact hN) hnd hfr1 (by rw [hcd]; exact hop)
  rw [hcd, unflattenThrow_all t _ _ _ _ _ (by rw [enc_opens]; exact hn)] at e1
  rw [hcd] at e2
  rw [← e2] at e1
  simp only [List.append_nil, posOf_nil] at e1
  simp only [copyCtorThrow, copyCtor, h1, hb, Option.bind_eq_bind, Option.bind_some, e1]
  cases insertRangeLoop W1 t (end_ t) (posOf x v) (end_ x) ps <;> simp

/-- C83. Copy assignment when a copy throws: the target and all other forests keep their nodes and values; leaked is what the copy
constructor leaks, `n` nodes, so nothing only if the first copy throws. -/
theorem c83_copy_assign_partial (hW : Reachable W) (hx : IsForest W x) (htx : x ≠ t)
    (hox : order W x = some v) {ts : List (Tree T)} (hd : Denotes W.value v ts) {tmp tmp1 : Ptr} {ps : List Ptr}
    (h1 : W.heap tmp = none) (h3 : tmp ∉ ps) (hps : Fresh W ps (countTrees ts)) {n : Nat} (hn : n < countTrees ts) :
    ∃ (W' : World T) (qs : List Ptr), copyAssignThrow W t x tmp tmp1 ps n = some (W', false) ∧ SameForests [] W W' ∧ SameValues ps W W' ∧
      qs.length = n ∧ ∀ q, Leaked W' q ↔ q ∈ qs := by
  obtain ⟨W', qs, g1, g2, g3, -, g4, -, -, g5⟩ := c83_copy_partial hW hx hox hd h1 h3 hps hn
  exact ⟨W', qs, by simp [copyAssignThrow, htx.symm, g1], g2, g3, g4, g5⟩

-- the first two nodes of `1(2, 3), 4` are `1(2)`
example : firstNodes 2 demoTrees = [.node 10 [.node 20 []]] := by simp [firstNodes, countTrees]

-- the first two copies succeed, the third throws: two nodes are leaked
example : ∃ W : World Nat, Reachable W ∧ IsForest W 0 ∧ IsForest W 100 ∧ order W 0 = some ([] ++ (demoWord ++ [])) ∧
    order W 100 = some ([L 5] ++ [R 5]) ∧ Denotes W.value demoWord demoTrees ∧ W.heap 300 = none ∧ 300 ∉ [6, 7, 8, 9] ∧
    Fresh W [6, 7, 8, 9] (countTrees demoTrees) ∧ 0 < 2 ∧ 2 < countTrees demoTrees := by
  obtain ⟨W, h, I⟩ := demo
  exact ⟨W, h, I.isForest_iff.mpr ⟨_, rfl⟩, I.isForest_iff.mpr ⟨_, rfl⟩, I.order rfl, I.order rfl, demo_denotes I,
    demo_free I (by simp), by decide, demo_fresh I, by decide, by simp [countTrees]⟩

end Verif.Forest
