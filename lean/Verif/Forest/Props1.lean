import Verif.Forest.Demo

/-!
# Property theorems C01–C11: the forest container

`Reachable W`: `W` is any state a program can produce through the API (History.lean). `order W t` is the
full-order traversal of forest `t`, `W.value p` the value read at a node, `posOf t b` the position in front
of the part `b` of the traversal (`end()` if `b` is empty).
-/

namespace Verif.Forest

variable {T : Type} {W : World T} {t x n p : Ptr}

theorem Balanced.bracket {w a b c : List Iter} {n : Ptr} (hB : Balanced w) (hN : w.Nodup)
    (hw : w = a ++ (⟨n, .leading⟩ :: (b ++ ⟨n, .trailing⟩ :: c))) : Balanced b := by
  obtain ⟨u, s', v, he, hs'⟩ := hB.split (n := n) (e := .leading) (by rw [hw]; simp)
  rw [hw] at he hN
  obtain ⟨-, h2⟩ := append_cons_inj hN he
  obtain ⟨h3, -⟩ := append_cons_inj (List.nodup_append.mp hN).2.1.tail h2
  rw [h3]; exact hs'

/-! ## C01 -/

/-- C01. Traversal of every reachable forest terminates, is well nested, visits no position twice, is
mirrored exactly by the backward traversal, and `++` and `--` undo each other. -/
theorem c01_traversal (hW : Reachable W) (hf : IsForest W t) :
    ∃ w, order W t = some w ∧ Balanced w ∧ w.Nodup ∧ orderBack W t = some w.reverse ∧
      (∀ a y z c, w ++ [end_ t] = a ++ y :: z :: c → incr W.heap y = some z ∧ decr W.heap z = some y) ∧
      (∀ n, (⟨n, .leading⟩ : Iter) ∈ w ↔ (⟨n, .trailing⟩ : Iter) ∈ w) := by
  obtain ⟨A, I⟩ := hW.inv
  obtain ⟨w, hw⟩ := I.forest hf
  have R := I.rep t w hw
  refine ⟨w, I.order hw, R.balanced, R.nodup_word, ?_, ?_, R.balanced.mem_iff⟩
  · simp [orderBack, R.begin_posOf, full_walkBack R]
  · intro a y z c he
    exact ⟨R.incr_word he, R.decr_word he⟩

example : ∃ W : World Nat, Reachable W ∧ IsForest W 0 ∧ order W 0 = some demoWord := by
  obtain ⟨W, h, I⟩ := demo
  exact ⟨W, h, I.isForest_iff.mpr ⟨_, rfl⟩, I.order rfl⟩

/-! ## C02 -/

/-- C02. `insert(pos, v)`: the two edges of the new node appear, adjacent, immediately before `pos`. -/
theorem c02_insert (hW : Reachable W) (hf : IsForest W t) {a b : List Iter}
    (ho : order W t = some (a ++ b)) (hp : W.heap p = none) (v : T) :
    ∃ W', insert W t (posOf t b) v p = some (W', ⟨p, .leading⟩) ∧ IsForest W' t ∧
      order W' t = some (a ++ [⟨p, .leading⟩, ⟨p, .trailing⟩] ++ b) ∧
      W'.value p = some v ∧ SameValues [p] W W' ∧ SameForests [t] W W' ∧ Reachable W' := by
  obtain ⟨A, I⟩ := hW.inv
  have hw := I.words_of_order hf ho
  obtain ⟨W', h1, I'⟩ := insert_refines I hw hp v
  have hw' : ((A.setWord t (a ++ (([⟨p, .leading⟩, ⟨p, .trailing⟩] : List Iter) ++ b))).setVal p
        (some v)).words t = some (a ++ (([⟨p, .leading⟩, ⟨p, .trailing⟩] : List Iter) ++ b)) := by
    simp [AState.setVal, AState.setWord]
  refine ⟨W', h1, I'.isForest_iff.mpr ⟨_, hw'⟩, ?_, ?_, ?_, ?_, ?_⟩
  · rw [I'.order hw']; simp
  · rw [World.value, I'.val]; simp [AState.setVal]
  · exact sameValues_of_inv I I' (by
      intro q hq; simp only [List.mem_singleton] at hq; simp [AState.setVal, AState.setWord, hq])
  · exact sameForests_of_inv I I' (by
      intro q hq; simp only [List.mem_singleton] at hq; simp [AState.setVal, AState.setWord, hq])
  · exact .step (.insert t (posOf t b) v p) hW ⟨hp, a, b, I.rep t _ hw, rfl⟩ (by simp [exec, h1])

example : ∃ W : World Nat, Reachable W ∧ IsForest W 0 ∧
    order W 0 = some ([L 1, L 2, R 2] ++ [L 3, R 3, R 1, L 4, R 4]) ∧ W.heap 7 = none := by
  obtain ⟨W, h, I⟩ := demo
  refine ⟨W, h, I.isForest_iff.mpr ⟨_, rfl⟩, I.order rfl, I.none_iff.mpr ?_⟩
  intro t w hw
  simp only [demoState] at hw
  repeat' (split at hw)
  all_goals simp_all [support]
  all_goals (subst hw; simp)

/-! ## C03 -/

/-- C03. `erase(pos)` deletes the two edges of one node from the traversal; the node is destroyed, nothing
else changes; the result is the position that followed the erased edge. -/
theorem c03_erase (hW : Reachable W) (hf : IsForest W t) {a b c : List Iter}
    (ho : order W t = some (a ++ (⟨n, .leading⟩ :: (b ++ ⟨n, .trailing⟩ :: c)))) (e : Edge) :
    ∃ W', erase W t ⟨n, e⟩ = some (W', if e = .leading then posOf t (b ++ c) else posOf t c) ∧
      IsForest W' t ∧ order W' t = some (a ++ b ++ c) ∧
      W'.heap n = none ∧ SameValues [n] W W' ∧ SameForests [t] W W' ∧ Reachable W' := by
  obtain ⟨A, I⟩ := hW.inv
  have hw := I.words_of_order hf ho
  have Rp := I.rep t _ hw
  have hb := Rp.balanced.bracket Rp.nodup_word rfl
  obtain ⟨W', h1, I', hn⟩ := erase_refines (e := e) I hw hb
  have hw' : ((A.setWord t (a ++ (b ++ c))).setVal n none).words t = some (a ++ (b ++ c)) := by
    simp [AState.setVal, AState.setWord]
  refine ⟨W', h1, I'.isForest_iff.mpr ⟨_, hw'⟩, ?_, hn, ?_, ?_, ?_⟩
  · rw [I'.order hw']; simp
  · exact sameValues_of_inv I I' (by
      intro q hq; simp only [List.mem_singleton] at hq; simp [AState.setVal, AState.setWord, hq])
  · exact sameForests_of_inv I I' (by
      intro q hq; simp only [List.mem_singleton] at hq; simp [AState.setVal, AState.setWord, hq])
  · exact .step (.erase t ⟨n, e⟩) hW ⟨_, Rp, by cases e <;> simp⟩ (by simp [exec, h1])

example : ∃ W : World Nat, Reachable W ∧ IsForest W 0 ∧
    order W 0 = some ([] ++ (⟨1, .leading⟩ :: ([L 2, R 2, L 3, R 3] ++ ⟨1, .trailing⟩ :: [L 4, R 4]))) := by
  obtain ⟨W, h, I⟩ := demo
  exact ⟨W, h, I.isForest_iff.mpr ⟨_, rfl⟩, I.order rfl⟩

/-! ## C04 -/

/-- C04. `erase(first, last)` removes exactly the nodes with both edges in the range, and returns `last`. -/
theorem c04_erase_range (hW : Reachable W) (hf : IsForest W t) {a r c : List Iter}
    (ho : order W t = some (a ++ (r ++ c))) :
    ∃ W', eraseRange W t (posOf t (r ++ c)) (posOf t c) = some (W', posOf t c) ∧ IsForest W' t ∧
      order W' t = some (a ++ (r.filter (fun y => ¬ Within r y.node) ++ c)) ∧
      (∀ q, Within r q → W'.heap q = none) ∧ (∀ q, ¬ Within r q → W'.value q = W.value q) ∧
      SameForests [t] W W' ∧ Reachable W' := by
  obtain ⟨A, I⟩ := hW.inv
  have hw := I.words_of_order hf ho
  obtain ⟨W', h1, I', hn⟩ := eraseRange_refines I hw
  have hw' : ((A.setWord t (a ++ (prune r ++ c))).dropVals r).words t = some (a ++ (prune r ++ c)) := by
    simp [AState.dropVals, AState.setWord]
  refine ⟨W', h1, I'.isForest_iff.mpr ⟨_, hw'⟩, I'.order hw', hn, ?_, ?_, ?_⟩
  · intro q hq
    rw [World.value, World.value, I'.val, I.val]
    simp [AState.dropVals, AState.setWord, hq]
  · exact sameForests_of_inv I I' (by
      intro q hq; simp only [List.mem_singleton] at hq; simp [AState.dropVals, AState.setWord, hq])
  · exact .step (.eraseRange t _ _) hW ⟨a, r, c, I.rep t _ hw, rfl, rfl⟩ (by simp [exec, h1])

-- the range cuts through node 1 and contains nodes 3 and 4 wholly
example : ∃ W : World Nat, Reachable W ∧ IsForest W 0 ∧
    order W 0 = some ([L 1, L 2, R 2] ++ ([L 3, R 3, R 1, L 4, R 4] ++ [])) ∧
    ([L 3, R 3, R 1, L 4, R 4] : List Iter).filter (fun y => ¬ Within [L 3, R 3, R 1, L 4, R 4] y.node) =
      [R 1] := by
  obtain ⟨W, h, I⟩ := demo
  exact ⟨W, h, I.isForest_iff.mpr ⟨_, rfl⟩, I.order rfl, by decide⟩

/-- C04 (whole forest). `clear()` empties the forest and destroys all its nodes. -/
theorem c04_clear (hW : Reachable W) (hf : IsForest W t) {w : List Iter} (ho : order W t = some w) :
    ∃ W', clear W t = some W' ∧ IsForest W' t ∧ order W' t = some [] ∧
      (∀ y ∈ w, W'.heap y.node = none) ∧ SameValues (w.map (·.node)) W W' ∧ SameForests [t] W W' ∧
      Reachable W' := by
  obtain ⟨A, I⟩ := hW.inv
  have hw := I.words_of_order hf ho
  obtain ⟨W', h1, I', hn⟩ := clear_refines I hw
  have hw' : ((A.setWord t []).dropVals w).words t = some [] := by simp [AState.dropVals, AState.setWord]
  have hB := (I.rep t w hw).balanced
  refine ⟨W', h1, I'.isForest_iff.mpr ⟨_, hw'⟩, I'.order hw', ?_, ?_, ?_, ?_⟩
  · exact fun y hy => hn _ ⟨hB.mem_edge hy _, hB.mem_edge hy _⟩
  · refine sameValues_of_inv I I' ?_
    intro q hq
    have : ¬ Within w q := fun h => hq (List.mem_map.mpr ⟨_, h.1, rfl⟩)
    simp [AState.dropVals, AState.setWord, this]
  · exact sameForests_of_inv I I' (by
      intro q hq; simp only [List.mem_singleton] at hq; simp [AState.dropVals, AState.setWord, hq])
  · exact .step (.clear t) hW ⟨w, I.rep t _ hw⟩ h1

example : ∃ W : World Nat, Reachable W ∧ IsForest W 0 ∧ order W 0 = some demoWord := by
  obtain ⟨W, h, I⟩ := demo
  exact ⟨W, h, I.isForest_iff.mpr ⟨_, rfl⟩, I.order rfl⟩

/-! ## C05 -/

/-- C05. Splicing a child range `S` between two forests: the segment disappears from the source and appears,
identical, before `pos`; no value changes. `n` is the count a caller passes (0: unknown). -/
theorem c05_splice_between (hW : Reachable W) (ht : IsForest W t) (hx : IsForest W x) (htx : x ≠ t)
    {a c l S r : List Iter} (ho : order W t = some (a ++ c)) (hox : order W x = some (l ++ (S ++ r)))
    (hS : Balanced S) (hne : S ≠ []) {k : Nat} (hk : k = 0 ∨ k = (nodes S).length) :
    ∃ W', splice W t (posOf t c) x (posOf x (S ++ r)) (posOf x r) k = some (W', posOf x (S ++ r)) ∧
      IsForest W' t ∧ IsForest W' x ∧ order W' t = some (a ++ S ++ c) ∧ order W' x = some (l ++ r) ∧
      SameValues [] W W' ∧ SameForests [t, x] W W' ∧ Reachable W' := by
  obtain ⟨A, I⟩ := hW.inv
  have hw := I.words_of_order ht ho
  have hv := I.words_of_order hx hox
  obtain ⟨W', h1, I'⟩ := splice_two I htx hw hv hS hne hk
  have hwt : ((A.setWord t (a ++ (S ++ c))).setWord x (l ++ r)).words t = some (a ++ (S ++ c)) := by
    simp [AState.setWord, htx.symm]
  have hwx : ((A.setWord t (a ++ (S ++ c))).setWord x (l ++ r)).words x = some (l ++ r) := by
    simp [AState.setWord]
  refine ⟨W', h1, I'.isForest_iff.mpr ⟨_, hwt⟩, I'.isForest_iff.mpr ⟨_, hwx⟩, ?_, I'.order hwx, ?_, ?_, ?_⟩
  · rw [I'.order hwt]; simp
  · exact sameValues_of_inv I I' (fun q _ => rfl)
  · refine sameForests_of_inv I I' ?_
    intro q hq
    simp only [List.mem_cons, List.not_mem_nil, or_false, not_or] at hq
    simp [AState.setWord, hq.1, hq.2]
  · refine .step (.splice t (posOf t c) x (posOf x (S ++ r)) (posOf x r) k) hW ?_ (by simp [exec, h1])
    refine ⟨S, ⟨hS, l, r, I.rep x _ hv, rfl, rfl, ?_⟩, Or.inr hk⟩
    simp only [htx, if_false]
    exact ⟨a, c, I.rep t _ hw, rfl⟩

example : ∃ W : World Nat, Reachable W ∧ IsForest W 100 ∧ IsForest W 0 ∧
    order W 100 = some ([L 5] ++ [R 5]) ∧
    order W 0 = some ([L 1] ++ ([L 2, R 2, L 3, R 3] ++ [R 1, L 4, R 4])) ∧
    Balanced [L 2, R 2, L 3, R 3] := by
  obtain ⟨W, h, I⟩ := demo
  refine ⟨W, h, I.isForest_iff.mpr ⟨_, rfl⟩, I.isForest_iff.mpr ⟨_, rfl⟩, I.order rfl, I.order rfl, ?_⟩
  exact Balanced.cons 2 (b := []) .nil (Balanced.cons 3 (b := []) .nil .nil)

/-- C05. Splicing within one forest: the segment is cut out and put before `pos`, which lies outside it. -/
theorem c05_splice_within (hW : Reachable W) (ht : IsForest W t)
    {a c l S r : List Iter} (ho : order W t = some (l ++ (S ++ r))) (hac : l ++ r = a ++ c)
    (hS : Balanced S) (hne : S ≠ []) (k : Nat) :
    ∃ W', splice W t (posOf t c) t (posOf t (S ++ r)) (posOf t r) k = some (W', posOf t (S ++ r)) ∧
      IsForest W' t ∧ order W' t = some (a ++ S ++ c) ∧
      SameValues [] W W' ∧ SameForests [t] W W' ∧ Reachable W' := by
  obtain ⟨A, I⟩ := hW.inv
  have hw := I.words_of_order ht ho
  obtain ⟨W', h1, I'⟩ := splice_same I hw hac hS hne k
  have hwt : (A.setWord t (a ++ (S ++ c))).words t = some (a ++ (S ++ c)) := by simp [AState.setWord]
  refine ⟨W', h1, I'.isForest_iff.mpr ⟨_, hwt⟩, ?_, ?_, ?_, ?_⟩
  · rw [I'.order hwt]; simp
  · exact sameValues_of_inv I I' (fun q _ => rfl)
  · refine sameForests_of_inv I I' ?_
    intro q hq
    simp only [List.mem_singleton] at hq
    simp [AState.setWord, hq]
  · refine .step (.splice t (posOf t c) t (posOf t (S ++ r)) (posOf t r) k) hW ?_ (by simp [exec, h1])
    refine ⟨S, ⟨hS, l, r, I.rep t _ hw, rfl, rfl, ?_⟩, Or.inl rfl⟩
    simp only [if_true]
    exact Or.inr ⟨a, c, hac, rfl⟩

-- moving the children of node 1 behind node 4
example : ∃ W : World Nat, Reachable W ∧ IsForest W 0 ∧
    order W 0 = some ([L 1] ++ ([L 2, R 2, L 3, R 3] ++ [R 1, L 4, R 4])) ∧
    ([L 1] ++ [R 1, L 4, R 4] : List Iter) = [L 1, R 1, L 4, R 4] ++ [] ∧
    Balanced [L 2, R 2, L 3, R 3] := by
  obtain ⟨W, h, I⟩ := demo
  refine ⟨W, h, I.isForest_iff.mpr ⟨_, rfl⟩, I.order rfl, rfl, ?_⟩
  exact Balanced.cons 2 (b := []) .nil (Balanced.cons 3 (b := []) .nil .nil)

/-- C05. Splicing an empty range, or a range to its own start, changes nothing at all. -/
theorem c05_splice_nothing (W : World T) (t x : Ptr) (pos first last : Iter) (k : Nat)
    (h : first = last ∨ pos = first) : splice W t pos x first last k = some (W, pos) := by
  rcases h with rfl | rfl
  · exact splice_empty
  · exact splice_self

example : (L 2 : Iter) = L 2 ∨ (L 5 : Iter) = L 2 := Or.inl rfl

/-- C05. `splice(pos, x)` moves the whole content of another forest. -/
theorem c05_splice_all (hW : Reachable W) (ht : IsForest W t) (hx : IsForest W x) (htx : x ≠ t)
    {a c v : List Iter} (ho : order W t = some (a ++ c)) (hox : order W x = some v) :
    ∃ W', spliceAll W t (posOf t c) x = some (W', posOf t (v ++ c)) ∧
      IsForest W' t ∧ IsForest W' x ∧ order W' t = some (a ++ v ++ c) ∧ order W' x = some [] ∧
      SameValues [] W W' ∧ SameForests [t, x] W W' ∧ Reachable W' := by
  obtain ⟨A, I⟩ := hW.inv
  have hw := I.words_of_order ht ho
  have hv := I.words_of_order hx hox
  obtain ⟨W', h1, I'⟩ := spliceAll_two I htx hw hv
  have hwt : ((A.setWord t (a ++ (v ++ c))).setWord x []).words t = some (a ++ (v ++ c)) := by
    simp [AState.setWord, htx.symm]
  have hwx : ((A.setWord t (a ++ (v ++ c))).setWord x []).words x = some [] := by
    simp [AState.setWord]
  refine ⟨W', h1, I'.isForest_iff.mpr ⟨_, hwt⟩, I'.isForest_iff.mpr ⟨_, hwx⟩, ?_, I'.order hwx, ?_, ?_, ?_⟩
  · rw [I'.order hwt]; simp
  · exact sameValues_of_inv I I' (fun q _ => rfl)
  · refine sameForests_of_inv I I' ?_
    intro q hq
    simp only [List.mem_cons, List.not_mem_nil, or_false, not_or] at hq
    simp [AState.setWord, hq.1, hq.2]
  · exact .step (.spliceAll t (posOf t c) x) hW
      (Or.inl ⟨htx, ⟨v, I.rep x _ hv⟩, a, c, I.rep t _ hw, rfl⟩) (by simp [exec, h1])

example : ∃ W : World Nat, Reachable W ∧ IsForest W 100 ∧ IsForest W 0 ∧
    order W 100 = some ([L 5] ++ [R 5]) ∧ order W 0 = some demoWord := by
  obtain ⟨W, h, I⟩ := demo
  exact ⟨W, h, I.isForest_iff.mpr ⟨_, rfl⟩, I.isForest_iff.mpr ⟨_, rfl⟩, I.order rfl, I.order rfl⟩

/-- C05. `splice(pos, x, i)` moves one subtree from another forest. -/
theorem c05_splice_node_between (hW : Reachable W) (ht : IsForest W t) (hx : IsForest W x) (htx : x ≠ t)
    {a c l b r : List Iter} (ho : order W t = some (a ++ c))
    (hox : order W x = some (l ++ (⟨n, .leading⟩ :: (b ++ ⟨n, .trailing⟩ :: r)))) (e : Edge) :
    ∃ W', spliceNode W t (posOf t c) x ⟨n, e⟩ = some (W', ⟨n, .leading⟩) ∧
      IsForest W' t ∧ IsForest W' x ∧
      order W' t = some (a ++ (⟨n, .leading⟩ :: (b ++ ⟨n, .trailing⟩ :: c))) ∧
      order W' x = some (l ++ r) ∧
      SameValues [] W W' ∧ SameForests [t, x] W W' ∧ Reachable W' := by
  obtain ⟨A, I⟩ := hW.inv
  have hw := I.words_of_order ht ho
  have hv := I.words_of_order hx hox
  have Rx := I.rep x _ hv
  have hb := Rx.balanced.bracket Rx.nodup_word rfl
  have e1 : l ++ (⟨n, .leading⟩ :: (b ++ ⟨n, .trailing⟩ :: r)) =
      l ++ (⟨n, .leading⟩ :: (b ++ [⟨n, .trailing⟩]) ++ r) := by simp
  rw [e1] at hv
  obtain ⟨W', h1, I'⟩ := spliceNode_two (e := e) I htx hw hv hb
  have hwt : ((A.setWord t (a ++ (⟨n, .leading⟩ :: (b ++ [⟨n, .trailing⟩]) ++ c))).setWord x (l ++ r)).words t =
      some (a ++ (⟨n, .leading⟩ :: (b ++ [⟨n, .trailing⟩]) ++ c)) := by
    simp [AState.setWord, htx.symm]
  have hwx : ((A.setWord t (a ++ (⟨n, .leading⟩ :: (b ++ [⟨n, .trailing⟩]) ++ c))).setWord x (l ++ r)).words x =
      some (l ++ r) := by simp [AState.setWord]
  refine ⟨W', h1, I'.isForest_iff.mpr ⟨_, hwt⟩, I'.isForest_iff.mpr ⟨_, hwx⟩, ?_, I'.order hwx, ?_, ?_, ?_⟩
  · rw [I'.order hwt]; simp
  · exact sameValues_of_inv I I' (fun q _ => rfl)
  · refine sameForests_of_inv I I' ?_
    intro q hq
    simp only [List.mem_cons, List.not_mem_nil, or_false, not_or] at hq
    simp [AState.setWord, hq.1, hq.2]
  · refine .step (.spliceNode t (posOf t c) x ⟨n, e⟩) hW ?_ (by simp [exec, h1])
    refine ⟨n, l, b, r, e, rfl, hb, I.rep x _ hv, ?_⟩
    simp only [htx, if_false]
    exact ⟨a, c, I.rep t _ hw, rfl⟩

example : ∃ W : World Nat, Reachable W ∧ IsForest W 100 ∧ IsForest W 0 ∧
    order W 100 = some ([L 5] ++ [R 5]) ∧
    order W 0 = some ([] ++ (⟨1, .leading⟩ :: ([L 2, R 2, L 3, R 3] ++ ⟨1, .trailing⟩ :: [L 4, R 4]))) := by
  obtain ⟨W, h, I⟩ := demo
  exact ⟨W, h, I.isForest_iff.mpr ⟨_, rfl⟩, I.isForest_iff.mpr ⟨_, rfl⟩, I.order rfl, I.order rfl⟩

/-- C05. `splice(pos, *this, i)` moves one subtree inside the forest. -/
theorem c05_splice_node_within (hW : Reachable W) (ht : IsForest W t)
    {a c l b r : List Iter} 
    (ho : order W t = some (l ++ (⟨n, .leading⟩ :: (b ++ ⟨n, .trailing⟩ :: r)))) (hac : l ++ r = a ++ c)
    (e : Edge) :
    ∃ W', spliceNode W t (posOf t c) t ⟨n, e⟩ = some (W', ⟨n, .leading⟩) ∧
      IsForest W' t ∧ order W' t = some (a ++ (⟨n, .leading⟩ :: (b ++ ⟨n, .trailing⟩ :: c))) ∧
      SameValues [] W W' ∧ SameForests [t] W W' ∧ Reachable W' := by
  obtain ⟨A, I⟩ := hW.inv
  have hw := I.words_of_order ht ho
  have Rx := I.rep t _ hw
  have hb := Rx.balanced.bracket Rx.nodup_word rfl
  have e1 : l ++ (⟨n, .leading⟩ :: (b ++ ⟨n, .trailing⟩ :: r)) =
      l ++ (⟨n, .leading⟩ :: (b ++ [⟨n, .trailing⟩]) ++ r) := by simp
  rw [e1] at hw
  obtain ⟨W', h1, I'⟩ := spliceNode_same (e := e) I hw hac hb
  have hwt : (A.setWord t (a ++ (⟨n, .leading⟩ :: (b ++ [⟨n, .trailing⟩]) ++ c))).words t =
      some (a ++ (⟨n, .leading⟩ :: (b ++ [⟨n, .trailing⟩]) ++ c)) := by simp [AState.setWord]
  refine ⟨W', h1, I'.isForest_iff.mpr ⟨_, hwt⟩, ?_, ?_, ?_, ?_⟩
  · rw [I'.order hwt]; simp
  · exact sameValues_of_inv I I' (fun q _ => rfl)
  · refine sameForests_of_inv I I' ?_
    intro q hq
    simp only [List.mem_singleton] at hq
    simp [AState.setWord, hq]
  · refine .step (.spliceNode t (posOf t c) t ⟨n, e⟩) hW ?_ (by simp [exec, h1])
    refine ⟨n, l, b, r, e, rfl, hb, I.rep t _ hw, ?_⟩
    simp only [if_true]
    exact ⟨a, c, hac, rfl⟩

-- moving node 4 in front of node 3
example : ∃ W : World Nat, Reachable W ∧ IsForest W 0 ∧
    order W 0 = some ([L 1, L 2, R 2, L 3, R 3, R 1] ++ (⟨4, .leading⟩ :: ([] ++ ⟨4, .trailing⟩ :: []))) ∧
    ([L 1, L 2, R 2, L 3, R 3, R 1] ++ [] : List Iter) = [L 1, L 2, R 2] ++ [L 3, R 3, R 1] := by
  obtain ⟨W, h, I⟩ := demo
  exact ⟨W, h, I.isForest_iff.mpr ⟨_, rfl⟩, I.order rfl, rfl⟩

/-! ## C06 -/

/-- C06. After every history, `size()` returns the number of nodes of the traversal, without changing
anything observable; a cached size that `size_valid()` declares valid is right. -/
theorem c06_size (hW : Reachable W) (hf : IsForest W t) {w : List Iter} (ho : order W t = some w) :
    (∃ W', size W t = some (W', (w.filter (fun y => y.edge = .leading)).length) ∧
      SameValues [] W W' ∧ SameForests [] W W' ∧ Reachable W') ∧
    (sizeValid W t = some true → W.size t = (w.filter (fun y => y.edge = .leading)).length) := by
  obtain ⟨A, I⟩ := hW.inv
  have hw := I.words_of_order hf ho
  have e : (nodes w).length = (w.filter (fun y => y.edge = .leading)).length := by simp [nodes]
  constructor
  · obtain ⟨W', h1, I', -⟩ := size_refines I hw
    rw [e] at h1
    exact ⟨W', h1, sameValues_of_inv I I' (fun _ _ => rfl), sameForests_of_inv I I' (fun _ _ => rfl),
      .step (.size t) hW ⟨w, I.rep t w hw⟩ (by simp [exec, h1])⟩
  · intro hs
    rw [sizeValid_eq (I.rep t w hw)] at hs
    simp only [Option.some.injEq, decide_eq_true_eq] at hs
    rw [← e]
    have := I.size t w hw
    rcases hs with hs | rfl
    · rcases this with h | h
      · exact absurd h hs
      · exact h
    · simpa [nodes] using this

example : ∃ W : World Nat, Reachable W ∧ IsForest W 0 ∧ order W 0 = some demoWord ∧
    (demoWord.filter (fun y => y.edge = .leading)).length = 4 := by
  obtain ⟨W, h, I⟩ := demo
  exact ⟨W, h, I.isForest_iff.mpr ⟨_, rfl⟩, I.order rfl, by decide⟩

/-! ## C07 -/

/-- C07. `insert_parent(first, last, v)` puts one new node around the child range `S`. -/
theorem c07_insert_parent (hW : Reachable W) (hf : IsForest W t) {a S c : List Iter}
    (ho : order W t = some (a ++ (S ++ c))) (hS : Balanced S) (hp : W.heap p = none) (v : T) :
    ∃ W', insertParent W t (posOf t (S ++ c)) (posOf t c) v p = some (W', ⟨p, .leading⟩) ∧ IsForest W' t ∧
      order W' t = some (a ++ (⟨p, .leading⟩ :: (S ++ ⟨p, .trailing⟩ :: c))) ∧
      W'.value p = some v ∧ SameValues [p] W W' ∧ SameForests [t] W W' ∧ Reachable W' := by
  obtain ⟨A, I⟩ := hW.inv
  have hw := I.words_of_order hf ho
  obtain ⟨W', h1, I'⟩ := insertParent_refines I v hw hS hp
  have hw' : ((A.setWord t (a ++ (⟨p, .leading⟩ :: (S ++ [⟨p, .trailing⟩]) ++ c))).setVal p (some v)).words t =
      some (a ++ (⟨p, .leading⟩ :: (S ++ [⟨p, .trailing⟩]) ++ c)) := by
    simp [AState.setVal, AState.setWord]
  refine ⟨W', h1, I'.isForest_iff.mpr ⟨_, hw'⟩, ?_, ?_, ?_, ?_, ?_⟩
  · rw [I'.order hw']; simp
  · rw [World.value, I'.val]; simp [AState.setVal]
  · exact sameValues_of_inv I I' (by
      intro q hq; simp only [List.mem_singleton] at hq; simp [AState.setVal, AState.setWord, hq])
  · exact sameForests_of_inv I I' (by
      intro q hq; simp only [List.mem_singleton] at hq; simp [AState.setVal, AState.setWord, hq])
  · exact .step (.insertParent t (posOf t (S ++ c)) (posOf t c) v p) hW
      ⟨hp, a, S, c, I.rep t _ hw, hS, rfl, rfl⟩ (by simp [exec, h1])

example : ∃ W : World Nat, Reachable W ∧ IsForest W 0 ∧
    order W 0 = some ([L 1] ++ ([L 2, R 2, L 3, R 3] ++ [R 1, L 4, R 4])) ∧
    Balanced [L 2, R 2, L 3, R 3] ∧ W.heap 7 = none := by
  obtain ⟨W, h, I⟩ := demo
  refine ⟨W, h, I.isForest_iff.mpr ⟨_, rfl⟩, I.order rfl,
    Balanced.cons 2 (b := []) .nil (Balanced.cons 3 (b := []) .nil .nil), I.none_iff.mpr ?_⟩
  intro t w hw
  simp only [demoState] at hw
  repeat' (split at hw)
  all_goals simp_all [support]
  all_goals (subst hw; simp)

/-! ## C08 -/

/-- C08 is false of the code: reversing all top level nodes of any non-empty forest leaves the traversal
empty, while every node stays allocated (leaked). -/
theorem c08_reverse_counterexample (hW : Reachable W) (hf : IsForest W t) {w : List Iter}
    (ho : order W t = some w) (hne : w ≠ []) :
    ∃ W', reverse W (posOf t w) (end_ t) = some W' ∧ order W' t = some [] ∧
      ∀ y ∈ w, W'.heap y.node ≠ none := by
  obtain ⟨A, I⟩ := hW.inv
  have hw := I.words_of_order hf ho
  have Rp := I.rep t w hw
  obtain ⟨k, hk, -⟩ := Rp.tail_live
  refine ⟨_, reverse_eq Rp hne hk, order_tie, ?_⟩
  intro y hy
  obtain ⟨m, v, h1, -⟩ := Rp.live y hy
  simp only [tie]
  split
  · simp
  · rw [h1]; simp

example : ∃ W : World Nat, Reachable W ∧ IsForest W 0 ∧ order W 0 = some demoWord := by
  obtain ⟨W, h, I⟩ := demo
  exact ⟨W, h, I.isForest_iff.mpr ⟨_, rfl⟩, I.order rfl⟩

/-- C08, the part that holds: reversing an empty child range changes nothing.  Missing: every non-empty
range (see the counterexample). -/
theorem c08_reverse_partial (hW : Reachable W) (hf : IsForest W t) {a b : List Iter}
    (ho : order W t = some (a ++ b)) : reverse W (posOf t b) (posOf t b) = some W := by
  obtain ⟨A, I⟩ := hW.inv
  exact reverse_empty (I.rep t _ (I.words_of_order hf ho))

example : ∃ W : World Nat, Reachable W ∧ IsForest W 0 ∧ order W 0 = some ([L 1] ++ [L 2, R 2, L 3, R 3, R 1, L 4, R 4]) := by
  obtain ⟨W, h, I⟩ := demo
  exact ⟨W, h, I.isForest_iff.mpr ⟨_, rfl⟩, I.order rfl⟩

end Verif.Forest
