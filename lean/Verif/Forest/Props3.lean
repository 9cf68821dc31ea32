import Verif.Forest.Props2

/-!
# Property theorems C15–C19, C51, C52: iterator adaptors, child_adaptor, range insertion
-/

namespace Verif.Forest

variable {T : Type} {W : World T} {t x n p : Ptr} {i : Iter} {a b c w : List Iter}

/-- The traversal of forest `t` is `a ++ b ++ c`, where `b` is the part between the two edges of the node of
`i`; for `i` at the root (either edge of the sentinel), `b` is everything. -/
def ChildrenAt (W : World T) (t : Ptr) (i : Iter) (a b c : List Iter) : Prop :=
  IsForest W t ∧ order W t = some (a ++ (b ++ c)) ∧
    ((i.node = t ∧ a = [] ∧ c = []) ∨
     (∃ a' c', a = a' ++ [⟨i.node, .leading⟩] ∧ c = ⟨i.node, .trailing⟩ :: c'))

/-- Every position of a forest, and its root, has such a decomposition. -/
theorem childrenAt_exists (hW : Reachable W) (hf : IsForest W t) (ho : order W t = some w)
    (hi : i.node = t ∨ i ∈ w) : ∃ a b c, ChildrenAt W t i a b c := by
  rcases hi with rfl | hi
  · exact ⟨[], w, [], hf, by simpa using ho, Or.inl ⟨rfl, rfl, rfl⟩⟩
  · obtain ⟨A, I⟩ := hW.inv
    have Rp := I.rep t w (I.words_of_order hf ho)
    obtain ⟨m, e⟩ := i
    obtain ⟨a, b, c, rfl, hb⟩ := Rp.balanced.split hi
    exact ⟨a ++ [⟨m, .leading⟩], b, ⟨m, .trailing⟩ :: c, hf, by simpa using ho, Or.inr ⟨a, c, rfl, rfl⟩⟩

/-- Consequences of the decomposition used below. -/
theorem ChildrenAt.facts {A : AState T} (I : Inv W A) (hc : ChildrenAt W t i a b c) :
    A.words t = some (a ++ (b ++ c)) ∧ Balanced b ∧
    childBegin W.heap i = some (posOf t (b ++ c)) ∧ childEnd i = posOf t c ∧
    (posOf t c).edge = .trailing ∧ (posOf t c).node = i.node ∧ ∀ y ∈ b, y.node ≠ i.node := by
  obtain ⟨hf, ho, h⟩ := hc
  have hw := I.words_of_order hf ho
  have Rp := I.rep t _ hw
  obtain ⟨m, e⟩ := i
  rcases h with ⟨h, rfl, rfl⟩ | ⟨a', c', rfl, rfl⟩
  · simp only at h
    subst h
    refine ⟨hw, by simpa using Rp.balanced, ?_, rfl, rfl, rfl, ?_⟩
    · have := Rp.begin_posOf
      simpa [childBegin, begin_, Iter.leadingOf, root] using this
    · intro y hy he
      have h1 := Rp.nodup
      obtain ⟨k, ed⟩ := y
      simp only at he
      subst he
      have hy := Rp.balanced.mem_edge (by simpa using hy) .leading
      simp only [closed, List.nil_append, List.append_nil] at h1 hy
      simp_all [List.nodup_cons]
  · have hN := Rp.nodup_word
    have hb : Balanced b := Rp.balanced.bracket (a := a') (b := b) (c := c') (n := m) hN (by simp)
    refine ⟨hw, hb, ?_, rfl, rfl, rfl, ?_⟩
    · have := Rp.incr_split
      rw [priorOf_concat] at this
      simpa [childBegin, Iter.leadingOf] using this
    · intro y hy he
      obtain ⟨k, ed⟩ := y
      simp only at he
      subst he
      have hy := hb.mem_edge hy .leading
      simp_all [List.nodup_append]

/-! ## C15 -/

theorem Roots.split {b : List Iter} {ns : List Ptr} (hr : Roots b ns) {m : Ptr} (hm : m ∈ ns) :
    ∃ u s v, b = u ++ (⟨m, .leading⟩ :: (s ++ ⟨m, .trailing⟩ :: v)) ∧ Balanced u ∧ Balanced s ∧ Balanced v := by
  induction hr with
  | nil => simp at hm
  | @cons k s r ns hs hr ih =>
    simp only [List.mem_cons] at hm
    rcases hm with rfl | hm
    · exact ⟨[], s, r, rfl, .nil, hs, hr.balanced⟩
    · obtain ⟨u, s', v, rfl, hu, hs', hv⟩ := ih hm
      exact ⟨⟨k, .leading⟩ :: (s ++ ⟨k, .trailing⟩ :: u), s', v, by simp, .cons k hs hu, hs', hv⟩

/-- C15. Child iteration at any node (or the root) enumerates the leading edges of exactly its direct
children, forwards and backwards; `find_parent` of a child is that node; `has_children` is right. -/
theorem c15_children (hW : Reachable W) (hc : ChildrenAt W t i a b c) :
    ∃ ns f, Roots b ns ∧ childBegin W.heap i = some f ∧
      walk iterEq (childIncr W.heap) f (childEnd i) = some (ns.map (⟨·, .leading⟩)) ∧
      walkBack iterEq (childDecr W.heap) f (childEnd i) = some (ns.map (⟨·, .leading⟩)).reverse ∧
      (∀ m ∈ ns, ∀ e, findParent W.heap ⟨m, e⟩ = some ⟨i.node, .trailing⟩) ∧
      (hasChildren W.heap i = some true ↔ ns ≠ []) := by
  obtain ⟨A, I⟩ := hW.inv
  obtain ⟨hw, hb, h1, h2, h3, h4, h5⟩ := hc.facts I
  have Rp := I.rep t _ hw
  obtain ⟨ns, hns⟩ := hb.roots
  have hpc : posOf t c = ⟨i.node, .trailing⟩ := by
    rw [← h4, ← h3]
  refine ⟨ns, _, hns, h1, ?_, ?_, ?_, ?_⟩
  · rw [h2]; exact child_walk hns Rp
  · rw [h2]; exact child_walkBack hns Rp
  · intro m hm e
    obtain ⟨u, s, v, rfl, hu, hs, hv⟩ := hns.split hm
    rw [← hpc]
    refine findParent_eq hv (a := a ++ (u ++ (⟨m, .leading⟩ :: s))) ?_ h3
    simpa using Rp
  · have hh : hasChildren W.heap i = some (i.node != (posOf t (b ++ c)).node) := by
      simp only [childBegin] at h1
      simp [hasChildren, h1]
    rw [hh]
    cases hns with
    | nil => simp [h4]
    | cons k hs hr =>
      have := h5 ⟨k, .leading⟩ (by simp)
      simp only [ne_eq] at this
      simp [posOf]
      exact fun e => this e.symm

-- children of node 1, children of the root
example : ∃ W : World Nat, Reachable W ∧ ChildrenAt W 0 (L 1) [L 1] [L 2, R 2, L 3, R 3] [R 1, L 4, R 4] ∧
    ChildrenAt W 0 (root 0) [] demoWord [] := by
  obtain ⟨W, h, I⟩ := demo
  exact ⟨W, h, ⟨I.isForest_iff.mpr ⟨_, rfl⟩, I.order rfl, Or.inr ⟨[], [L 4, R 4], rfl, rfl⟩⟩,
    ⟨I.isForest_iff.mpr ⟨_, rfl⟩, I.order rfl, Or.inl ⟨rfl, rfl, rfl⟩⟩⟩

/-! ## C16 -/

/-- C16. The preorder range visits the leading edges, the postorder range the trailing edges, of the
traversal, each in order (backwards in opposite order); every node is visited exactly once by each; of a node
and a proper descendant, preorder visits the node first and postorder the descendant first. -/
theorem c16_pre_post_order (hW : Reachable W) (hf : IsForest W t) (ho : order W t = some w) (e : Edge) :
    ∃ f l xs, edgeRange W.heap e t = some (f, l) ∧ walk iterEq (edgeIncr W.heap e) f l = some xs ∧
      walkBack iterEq (edgeDecr W.heap e) f l = some xs.reverse ∧
      xs = w.filter (fun y => y.edge = e) ∧
      (∀ y ∈ w, (xs.map (·.node)).count y.node = 1) ∧
      (∀ m k, AncestorOrSelf w m k → m ≠ k →
        ∃ u v z, xs = u ++ (if e = .leading then ⟨m, e⟩ else ⟨k, e⟩) ::
          (v ++ (if e = .leading then ⟨k, e⟩ else ⟨m, e⟩) :: z)) := by
  obtain ⟨A, I⟩ := hW.inv
  have Rp := I.rep t w (I.words_of_order hf ho)
  refine ⟨_, _, edgesOf e w, edgeRange_eq Rp e, edge_walk Rp e, edge_walkBack Rp e, rfl, ?_, ?_⟩
  · intro y hy
    have hN : ((edgesOf e w).map (·.node)).Nodup := by
      refine (List.nodup_map_iff_inj_on (Rp.nodup_word.filter _)).mpr ?_
      intro u hu v hv huv
      simp only [List.mem_filter, decide_eq_true_eq] at hu hv
      obtain ⟨un, ue⟩ := u
      obtain ⟨vn, ve⟩ := v
      simp only at hu hv huv
      rw [huv, hu.2, hv.2]
    refine List.count_eq_one_of_mem hN ?_
    refine List.mem_map.mpr ⟨⟨y.node, e⟩, ?_, rfl⟩
    simp only [edgesOf, List.mem_filter, decide_eq_true_eq, and_true]
    exact Rp.balanced.mem_edge hy e
  · rintro m k ⟨u, s, z, hw, hk⟩ hmk
    have hk' : (⟨k, .leading⟩ : Iter) ∈ s := hk.resolve_left (fun h => hmk h.symm)
    have hs : Balanced s := Rp.balanced.bracket Rp.nodup_word hw
    have hk2 := hs.mem_edge hk' e
    obtain ⟨s1, s2, rfl⟩ := List.append_of_mem hk2
    cases e with
    | leading =>
      refine ⟨edgesOf .leading u, edgesOf .leading s1, edgesOf .leading (s2 ++ ⟨m, .trailing⟩ :: z), ?_⟩
      rw [hw]; simp [edgesOf]
    | trailing =>
      refine ⟨edgesOf .trailing (u ++ ⟨m, .leading⟩ :: s1), edgesOf .trailing s2, edgesOf .trailing z, ?_⟩
      rw [hw]; simp [edgesOf]

example : ∃ W : World Nat, Reachable W ∧ IsForest W 0 ∧ order W 0 = some demoWord ∧
    AncestorOrSelf demoWord 1 3 := by
  obtain ⟨W, h, I⟩ := demo
  exact ⟨W, h, I.isForest_iff.mpr ⟨_, rfl⟩, I.order rfl, [], [L 2, R 2, L 3, R 3], [L 4, R 4], rfl, by simp⟩

/-! ## C17 -/

theorem Filtered.balanced_right {ok : Ptr → Prop} {b b' : List Iter} (hf : Filtered ok b b') : Balanced b' := by
  induction hf with
  | nil => exact .nil
  | keep n _ _ _ ih1 ih2 => exact .cons n ih1 ih2
  | drop n _ _ _ ih => exact ih

theorem walkBack_eq' {σ : Type} {eq : σ → σ → Bool} {prev : σ → Option σ} {f g : σ} (hg : eq g f = true) :
    ∀ {l : List σ} {z : σ}, (∀ y ∈ (l ++ [z]).tail, eq y f = false) →
      List.IsChain (fun x y => prev y = some x) (l ++ [z]) → (l ++ [z]).head? = some g →
      walkBack eq prev f z = some l.reverse := by
  intro l
  induction l using List.reverseRecOn with
  | nil =>
    intro z _ _ hf
    simp only [List.nil_append, List.head?_cons, Option.some.injEq] at hf
    subst hf
    rw [walkBack]; simp [hg]
  | append_singleton l y ih =>
    intro z hne hch hf
    have hp : prev z = some y := by
      have : l ++ [y] ++ [z] = l ++ [y, z] := by simp
      rw [this] at hch
      have := (List.isChain_append.mp hch).2.1
      simpa [List.isChain_cons_cons] using this
    have hz : eq z f = false := by
      refine hne z ?_
      cases l <;> simp
    have hrec := ih (z := y)
      (fun w hw => hne w (by
        cases l with
        | nil => simp at hw
        | cons a l => simp at hw ⊢; tauto))
      (List.isChain_append.mp hch).1 (by
        cases l with
        | nil => simpa using hf
        | cons a l => simpa using hf)
    rw [walkBack]
    simp [hz, hp, hrec]

/-- The iterator that repeated `++` from `f` reaches when it arrives at `end()`. -/
def FIt.atEnd (f : FIt) (t : Ptr) : FIt := { f with x := end_ t }

/-- C17, the part that holds. Forward traversal of the filtered range shows exactly the nodes which satisfy
the predicate together with all ancestors; `--` from the iterator so reached retraces it. Missing: `--` from
the range's own `end()` (see the counterexample). -/
theorem c17_filter_partial (hW : Reachable W) (hf : IsForest W t) (ho : order W t = some w) (pr : T → Bool) :
    ∃ f l xs, filterRange W.heap pr t = some (f, l) ∧
      walk filterEq (filterIncr W.heap pr) f l = some xs ∧
      xs.map (·.x) = shown (fun m => ∃ v, W.value m = some v ∧ pr v = true) w ∧
      Balanced (xs.map (·.x)) ∧
      List.IsChain (fun y z => filterIncr W.heap pr y = some z) (xs ++ [f.atEnd t]) ∧
      filterEq (f.atEnd t) l = true ∧
      walkBack filterEq (filterDecr W.heap pr) f (f.atEnd t) = some xs.reverse := by
  obtain ⟨A, I⟩ := hW.inv
  have Rp := I.rep t w (I.words_of_order hf ho)
  obtain ⟨w', hw'⟩ := Rp.balanced.filtered (okNode W.heap pr)
  have hfs : FS (okNode W.heap pr) w w' := by simpa using hw'.fs (r := []) (r' := []) .nil
  refine ⟨_, _, w'.map (fun y => ⟨y, true, posOf t w, end_ t⟩), filterRange_eq Rp hfs,
    filter_walk Rp hw' rfl, ?_, ?_, ?_, ?_, ?_⟩
  · rw [List.map_map]
    have e1 : ((fun y : FIt => y.x) ∘ fun y : Iter => (⟨y, true, posOf t w, end_ t⟩ : FIt)) = id := rfl
    rw [e1, List.map_id, hw'.eq_shown Rp.nodup_word]
    rfl
  · rw [List.map_map]
    have e1 : ((fun y : FIt => y.x) ∘ fun y : Iter => (⟨y, true, posOf t w, end_ t⟩ : FIt)) = id := rfl
    rw [e1, List.map_id]
    exact hw'.balanced_right
  · have h1 := filterIncr_chain (f := posOf t w) hfs (a := []) Rp
    have e : w'.map (fun y => (⟨y, true, posOf t w, end_ t⟩ : FIt)) ++
        [FIt.atEnd ⟨posOf t w', true, posOf t w, end_ t⟩ t] =
        (w' ++ [end_ t]).map (fun y => ⟨y, true, posOf t w, end_ t⟩) := by
      simp [FIt.atEnd]
    rw [e, List.isChain_map]
    exact h1
  · simp [filterEq, FIt.atEnd]
  · exact filter_walkBack Rp hw'

example : ∃ W : World Nat, Reachable W ∧ IsForest W 0 ∧ order W 0 = some demoWord := by
  obtain ⟨W, h, I⟩ := demo
  exact ⟨W, h, I.isForest_iff.mpr ⟨_, rfl⟩, I.order rfl⟩

/-- C17 is false backwards: `--` from the range's `end()` does not filter at all. Whenever the first node
satisfies the predicate, the backward traversal visits every position. -/
theorem c17_end_unfiltered (hW : Reachable W) (hf : IsForest W t) (ho : order W t = some (⟨n, .leading⟩ :: w))
    (pr : T → Bool) {v : T} (hv : W.value n = some v) (hpv : pr v = true) :
    ∃ f l xs, filterRange W.heap pr t = some (f, l) ∧ walkBack filterEq (filterDecr W.heap pr) f l = some xs ∧
      xs.map (·.x) = (⟨n, .leading⟩ :: w).reverse := by
  obtain ⟨A, I⟩ := hW.inv
  have Rp := I.rep t _ (I.words_of_order hf ho)
  obtain ⟨w', hw'⟩ := Rp.balanced.filtered (okNode W.heap pr)
  have hfs : FS (okNode W.heap pr) (⟨n, .leading⟩ :: w) w' := by simpa using hw'.fs (r := []) (r' := []) .nil
  have hhead : ∃ r', w' = ⟨n, .leading⟩ :: r' := by
    cases hw' with
    | keep m _ h1 h2 => exact ⟨_, rfl⟩
    | drop m h1 h2 h3 => exact absurd ⟨v, hv, hpv⟩ h1
  obtain ⟨r', rfl⟩ := hhead
  refine ⟨_, _, ((⟨n, .leading⟩ :: w).map (fun y => (⟨y, false, end_ t, end_ t⟩ : FIt))).reverse,
    filterRange_eq Rp hfs, ?_, ?_⟩
  · refine walkBack_eq' (g := ⟨⟨n, .leading⟩, false, end_ t, end_ t⟩) (by simp [filterEq, posOf]) ?_ ?_ (by simp)
    · intro y hy
      simp only [List.map_cons, List.cons_append, List.tail_cons, List.mem_append, List.mem_map,
        List.mem_singleton] at hy
      have hN := Rp.nodup_end
      rcases hy with ⟨z, hz, rfl⟩ | rfl
      · simp only [filterEq, posOf, List.head?_cons, Option.getD_some]
        refine decide_eq_false ?_
        rintro rfl
        simp_all
      · simp only [filterEq, posOf, List.head?_cons, Option.getD_some]
        refine decide_eq_false ?_
        intro e
        rw [e] at hN
        simp at hN
    · have hch := Rp.chain_decr
      rw [isChain_concat] at hch ⊢
      have hinn : ∀ y ∈ ((⟨n, .leading⟩ :: w) : List Iter), y ≠ end_ t := fun y hy => Rp.ne_end hy
      constructor
      · rw [List.isChain_map]
        have h0 := hch.1
        rw [List.isChain_iff_forall_rel_of_append_cons_cons] at h0 ⊢
        intro y z l1 l2 he
        have hd := h0 he
        have h1 := hinn z (by rw [he]; simp)
        have h2 := hinn y (by rw [he]; simp)
        simp [filterDecr, h1, h2, hd]
      · intro y hy
        rw [List.getLast?_map, Option.mem_def, Option.map_eq_some_iff] at hy
        obtain ⟨z, hz, rfl⟩ := hy
        have hd := hch.2 z hz
        have h2 := hinn z (List.mem_of_getLast? hz)
        simp [filterDecr, h2, hd]
  · rw [List.map_reverse, List.map_map]
    have e1 : ((fun y : FIt => y.x) ∘ fun y : Iter => (⟨y, false, end_ t, end_ t⟩ : FIt)) = id := rfl
    rw [e1, List.map_id]

/-- C17, concrete failure: a reachable forest and predicate for which the backward traversal of the filtered
range shows a node failing the predicate. -/
theorem c17_filter_counterexample :
    ∃ (W : World Nat) (t : Ptr) (pr : Nat → Bool) (f l : FIt) (xs : List FIt) (y : FIt) (v : Nat),
      Reachable W ∧ IsForest W t ∧ filterRange W.heap pr t = some (f, l) ∧
      walkBack filterEq (filterDecr W.heap pr) f l = some xs ∧ y ∈ xs ∧ W.heap.deref y.x = some v ∧ pr v = false := by
  obtain ⟨W, h, I⟩ := demo
  obtain ⟨f, l, xs, h1, h2, h3⟩ := c17_end_unfiltered (t := 0) (n := 1) (w := [L 2, R 2, L 3, R 3, R 1, L 4, R 4])
    h (I.isForest_iff.mpr ⟨_, rfl⟩) (I.order rfl) (fun m => m != 30) (v := 10)
    (by rw [World.value, I.val]; rfl) (by decide)
  have : R 3 ∈ xs.map (·.x) := by rw [h3]; simp
  obtain ⟨y, hy, he⟩ := List.mem_map.mp this
  have hv := I.val 3
  refine ⟨W, 0, _, f, l, xs, y, 30, h, I.isForest_iff.mpr ⟨_, rfl⟩, h1, h2, hy, ?_, by decide⟩
  rw [he]
  exact hv

/-! ## C18 -/

/-- The traversal reads the mirrored forest: opposite order, edges exchanged. -/
def mirror (w : List Iter) : List Iter := w.reverse.map Iter.pivot

theorem Balanced.mirror {w : List Iter} (hb : Balanced w) : Balanced (mirror w) := by
  induction hb with
  | nil => exact .nil
  | @cons n b c _ _ ih1 ih2 =>
    have e : Forest.mirror (⟨n, .leading⟩ :: (b ++ ⟨n, .trailing⟩ :: c)) =
        Forest.mirror c ++ (⟨n, .leading⟩ :: (Forest.mirror b ++ ⟨n, .trailing⟩ :: [])) := by
      simp [Forest.mirror, Iter.pivot, Edge.pivot]
    rw [e]
    exact ih2.append (.cons n ih1 .nil)

/-- What a reverse iterator shows: its node and its edge. -/
def RIt.shows (i : RIt) : Iter := ⟨i.base.node, i.edge⟩

/-- C18, the part that holds. The reverse range shows the mirror image, which is well nested, and its
backward traversal retraces it; `++` after an edge change continues from the other edge of the node.
Missing: an iterator made by an edge change does not compare equal to the one traversal reaches (see the
counterexample). -/
theorem c18_reverse_partial (hW : Reachable W) (hf : IsForest W t) (ho : order W t = some w) :
    ∃ f l xs, revRange W.heap t = some (f, l) ∧ walk revEq (revIncr W.heap) f l = some xs ∧
      xs.map RIt.shows = mirror w ∧ Balanced (mirror w) ∧
      walkBack revEq (revDecr W.heap) f l = some xs.reverse ∧
      (∀ y ∈ xs, ∀ z ∈ xs, ∀ e, (revSetEdge y e).shows = z.shows →
        revIncr W.heap (revSetEdge y e) = revIncr W.heap z ∧
        revDecr W.heap (revSetEdge y e) = revDecr W.heap z) := by
  obtain ⟨A, I⟩ := hW.inv
  have Rp := I.rep t w (I.words_of_order hf ho)
  refine ⟨_, _, _, revRange_eq Rp, rev_walk Rp, ?_, Rp.balanced.mirror, ?_, ?_⟩
  · simp [mirror, RIt.shows, rit, Iter.pivot, Function.comp_def]
  · rw [rev_walkBack Rp]; simp
  · intro y _ z _ e he
    simp only [RIt.shows, revSetEdge, Iter.mk.injEq] at he
    simp [revIncr, revDecr, revSetEdge, he.1, he.2]

example : ∃ W : World Nat, Reachable W ∧ IsForest W 0 ∧ order W 0 = some demoWord ∧
    mirror demoWord = [L 4, R 4, L 1, L 3, R 3, L 2, R 2, R 1] := by
  obtain ⟨W, h, I⟩ := demo
  exact ⟨W, h, I.isForest_iff.mpr ⟨_, rfl⟩, I.order rfl, by decide⟩

/-- C18 is false of edge changes: of any iterator in a reverse traversal, `trailing_of`/`leading_of` to the
other edge shows what another iterator of the traversal shows, yet equals none of them. -/
theorem c18_edge_counterexample (hW : Reachable W) (hf : IsForest W t) (ho : order W t = some w) {xs : List RIt}
    {f l : RIt} (hr : revRange W.heap t = some (f, l)) (hx : walk revEq (revIncr W.heap) f l = some xs)
    {y : RIt} (hy : y ∈ xs) :
    (∃ z ∈ xs, z.shows = (revSetEdge y y.edge.pivot).shows) ∧
    ∀ z ∈ xs, revEq (revSetEdge y y.edge.pivot) z = false := by
  obtain ⟨A, I⟩ := hW.inv
  have Rp := I.rep t w (I.words_of_order hf ho)
  rw [revRange_eq Rp] at hr
  simp only [Option.some.injEq, Prod.mk.injEq] at hr
  obtain ⟨rfl, rfl⟩ := hr
  rw [rev_walk Rp] at hx
  simp only [Option.some.injEq] at hx
  subst hx
  obtain ⟨u, hu, rfl⟩ := List.mem_map.mp hy
  constructor
  · refine ⟨rit ⟨u.node, u.edge.pivot⟩, List.mem_map.mpr ⟨_, ?_, rfl⟩, by simp [RIt.shows, rit, revSetEdge]⟩
    simp only [List.mem_reverse] at hu ⊢
    exact Rp.balanced.mem_edge hu _
  · intro z hz
    obtain ⟨v, hv, rfl⟩ := List.mem_map.mp hz
    simp only [revEq, rit, revSetEdge]
    by_cases huv : u = v
    · subst huv
      have : u.edge.pivot.pivot ≠ u.edge.pivot := by
        obtain ⟨k, e⟩ := u
        cases e <;> simp [Edge.pivot]
      simp [this]
    · simp [huv]

example : ∃ (W : World Nat) (f l : RIt) (xs : List RIt), Reachable W ∧ IsForest W 0 ∧ order W 0 = some demoWord ∧
    revRange W.heap 0 = some (f, l) ∧ walk revEq (revIncr W.heap) f l = some xs ∧ xs.length = 8 := by
  obtain ⟨W, h, I⟩ := demo
  obtain ⟨f, l, xs, h1, h2, h3, -⟩ := c18_reverse_partial (t := 0) h (I.isForest_iff.mpr ⟨_, rfl⟩) (I.order rfl)
  refine ⟨W, f, l, xs, h, I.isForest_iff.mpr ⟨_, rfl⟩, I.order rfl, h1, h2, ?_⟩
  have := congrArg List.length h3
  simpa [mirror] using this

/-! ## C19 -/

/-- The depth iterators a program reaches from `f` by `++` (not at `end()`) and `--` (not at `begin()`), in
any mixture. -/
inductive DReach (h : Heap T) (first last : Iter) (f : DIt) : DIt → Prop
  | start : DReach h first last f f
  | next {d e : DIt} : DReach h first last f d → d.x ≠ last → depthIncr h d = some e → DReach h first last f e
  | prev {d e : DIt} : DReach h first last f d → d.x ≠ first → depthDecr h d = some e → DReach h first last f e

/-- C19, the part that holds. Every iterator reached from the range's `begin()` by any mixture of `++` and
`--` reports the number of proper ancestors of its node; in particular throughout the forward traversal.
Missing: iterators obtained from the range's `end()` (see the counterexample). -/
theorem c19_depth_partial (hW : Reachable W) (hf : IsForest W t) (ho : order W t = some w) :
    ∃ f l xs, depthRange W.heap t = some (f, l) ∧ walk depthEq (depthIncr W.heap) f l = some xs ∧
      xs.map (·.x) = w ∧ (∀ d ∈ xs, DReach W.heap f.x l.x f d) ∧
      ∀ d, DReach W.heap f.x l.x f d → ∀ a s c,
        w = a ++ (⟨d.x.node, .leading⟩ :: (s ++ ⟨d.x.node, .trailing⟩ :: c)) →
        d.depth = (enclosing a c).length := by
  obtain ⟨A, I⟩ := hW.inv
  have Rp := I.rep t w (I.words_of_order hf ho)
  refine ⟨⟨posOf t w, 0⟩, ⟨end_ t, 0⟩, withDepth [] w, by simp [depthRange, Rp.begin_posOf],
    depth_walk Rp rfl, withDepth_map w [], ?_, ?_⟩
  · -- the forward traversal consists of reached iterators
    have hch := depth_chain (a := []) (b := w) (by simpa using Rp)
    have key : ∀ (l : List DIt) (z : DIt), List.IsChain (fun x y => depthIncr W.heap x = some y ∧
        depthDecr W.heap y = some x) (l ++ [z]) → (∀ d ∈ l, d.x ≠ end_ t) → ∀ f0,
        (∀ y ∈ (l ++ [z]).head?, DReach W.heap (posOf t w) (end_ t) f0 y) →
        ∀ d ∈ l, DReach W.heap (posOf t w) (end_ t) f0 d := by
      intro l z
      induction l with
      | nil => intro _ _ _ _ d hd; simp at hd
      | cons y l ih =>
        intro hch hne f0 hh d hd
        have hy : DReach W.heap (posOf t w) (end_ t) f0 y := hh y (by simp)
        rw [List.cons_append, List.isChain_cons] at hch
        simp only [List.mem_cons] at hd
        rcases hd with rfl | hd
        · exact hy
        · refine ih hch.2 (fun d hd => hne d (by simp [hd])) f0 ?_ d hd
          intro u hu
          exact .next hy (hne y (by simp)) (hch.1 u hu).1
    by_cases hww : w = []
    · subst hww; intro d hd; simp [withDepth] at hd
    refine key _ _ hch ?_ ⟨posOf t w, 0⟩ ?_
    · intro d hd
      refine Rp.ne_end ?_
      have : d.x ∈ (withDepth [] w).map (·.x) := List.mem_map.mpr ⟨d, hd, rfl⟩
      rwa [withDepth_map] at this
    · intro y hy
      obtain ⟨u, r, rfl⟩ := List.exists_cons_of_ne_nil hww
      have hu : u.edge = .leading := by
        cases Rp.balanced; rfl
      simp only [withDepth, List.cons_append, List.head?_cons, Option.mem_def, Option.some.injEq] at hy
      subst hy
      have : (⟨u, depthAt [] u⟩ : DIt) = ⟨posOf t (u :: r), 0⟩ := by
        simp [posOf, depthAt, hu, level, shape]
      rw [this]
      exact .start
  · have inv : ∀ d, DReach W.heap (posOf t w) (end_ t) ⟨posOf t w, 0⟩ d → w ≠ [] →
        ∃ a b, w = a ++ b ∧ d.x = posOf t b ∧ d.depth = depthAt a d.x := by
      intro d hd hne
      induction hd with
      | start =>
        refine ⟨[], w, rfl, rfl, ?_⟩
        obtain ⟨u, r, rfl⟩ := List.exists_cons_of_ne_nil hne
        have hu : u.edge = .leading := by
          cases Rp.balanced; rfl
        simp [posOf, depthAt, hu, level, shape]
      | @next d e _ h1 h2 ih =>
        obtain ⟨a, b, rfl, hx, hd⟩ := ih
        cases b with
        | nil => exact absurd hx h1
        | cons u r =>
          have R' : Rep W.heap t ((a ++ [u]) ++ r) := by simpa using Rp
          have hi := R'.incr_split
          rw [priorOf_concat] at hi
          obtain ⟨dx, dd⟩ := d
          simp only [posOf_cons] at hx hd
          subst hx hd
          rw [depthIncr_eq hi] at h2
          simp only [Option.some.injEq] at h2
          subst h2
          exact ⟨a ++ [dx], r, by simp, rfl, rfl⟩
      | @prev d e _ h1 h2 ih =>
        obtain ⟨a, b, rfl, hx, hd⟩ := ih
        rcases List.eq_nil_or_concat a with rfl | ⟨a', u, rfl⟩
        · exact absurd hx h1
        · have hdec := Rp.decr_split
          obtain ⟨dx, dd⟩ := d
          simp only at hx hd
          subst hd
          rw [List.concat_eq_append, priorOf_concat, ← hx] at hdec
          rw [List.concat_eq_append, depthDecr_eq hdec] at h2
          simp only [Option.some.injEq] at h2
          subst h2
          exact ⟨a', u :: b, by simp, rfl, rfl⟩
    intro d hd a s c hw
    have hne : w ≠ [] := by rw [hw]; simp
    obtain ⟨a1, b1, h1, h2, h3⟩ := inv d hd hne
    have hxw : d.x ∈ w := by
      have : ∀ y : Iter, y ∈ a ++ (⟨y.node, .leading⟩ :: (s ++ ⟨y.node, .trailing⟩ :: c)) := by
        rintro ⟨k, e⟩; cases e <;> simp
      rw [hw]; exact this d.x
    cases b1 with
    | nil => exact absurd h2 (Rp.ne_end hxw)
    | cons u r =>
      rw [posOf_cons] at h2
      rw [h3]
      exact depthAt_enclosing Rp.balanced Rp.nodup_word (x := d.x) (by rw [h1, h2]) hw

theorem Balanced.last {w : List Iter} (hb : Balanced w) (hne : w ≠ []) :
    ∃ u n s, w = u ++ (⟨n, .leading⟩ :: (s ++ ⟨n, .trailing⟩ :: [])) := by
  induction hb with
  | nil => exact absurd rfl hne
  | @cons n b c _ _ _ ih =>
    by_cases hc : c = []
    · subst hc; exact ⟨[], n, b, rfl⟩
    · obtain ⟨u, m, s, rfl⟩ := ih hc
      exact ⟨⟨n, .leading⟩ :: (b ++ ⟨n, .trailing⟩ :: u), m, s, by simp⟩

/-- C19 is false from `end()`: one step back from the `end()` of the depth range of any non-empty forest
is at a top level node, yet reports depth 1. -/
theorem c19_end_counterexample (hW : Reachable W) (hf : IsForest W t) (ho : order W t = some w) (hne : w ≠ []) :
    ∃ f l d a s, depthRange W.heap t = some (f, l) ∧ depthDecr W.heap l = some d ∧ d.depth = 1 ∧
      w = a ++ (⟨d.x.node, .leading⟩ :: (s ++ ⟨d.x.node, .trailing⟩ :: [])) ∧ (enclosing a []).length = 0 := by
  obtain ⟨A, I⟩ := hW.inv
  have Rp := I.rep t w (I.words_of_order hf ho)
  obtain ⟨u, n, s, rfl⟩ := Rp.balanced.last hne
  have hd : decr W.heap (end_ t) = some ⟨n, .trailing⟩ := by
    refine Rp.decr_word (a := u ++ (⟨n, .leading⟩ :: s)) (b := []) ?_
    simp
  refine ⟨⟨_, 0⟩, ⟨end_ t, 0⟩, ⟨⟨n, .trailing⟩, 1⟩, u, s, by simp [depthRange, Rp.begin_posOf]; rfl, ?_, rfl, rfl, by simp [enclosing]⟩
  simp only [depthDecr, hd]
  simp [end_, edgeSign]

-- for C19
example : ∃ W : World Nat, Reachable W ∧ IsForest W 0 ∧ order W 0 = some demoWord ∧
    enclosing [L 1, L 2, R 2] [R 1, L 4, R 4] = [1] := by
  obtain ⟨W, h, I⟩ := demo
  exact ⟨W, h, I.isForest_iff.mpr ⟨_, rfl⟩, I.order rfl, by decide⟩

/-! ## C51 -/

/-- C51. `push_back` makes the new node the last child. -/
theorem c51_push_back (hW : Reachable W) (hc : ChildrenAt W t i a b c) (hp : W.heap p = none) (v : T) :
    ∃ W', pushBack W t i v p = some W' ∧ ChildrenAt W' t i a (b ++ [⟨p, .leading⟩, ⟨p, .trailing⟩]) c ∧
      W'.value p = some v ∧ SameValues [p] W W' ∧ SameForests [t] W W' ∧ Reachable W' := by
  obtain ⟨A, I⟩ := hW.inv
  obtain ⟨hw, -, h1, h2, -, -, -⟩ := hc.facts I
  obtain ⟨W', e1, e2, e3, e4, e5, e6, e7⟩ := c02_insert hW hc.1 (a := a ++ b) (b := c)
    (by rw [hc.2.1]; simp) hp v
  refine ⟨W', by rw [pushBack, h2, e1]; rfl, ⟨e2, ?_, hc.2.2⟩, e4, e5, e6, e7⟩
  rw [e3]; simp

/-- C51. `push_front` makes the new node the first child. -/
theorem c51_push_front (hW : Reachable W) (hc : ChildrenAt W t i a b c) (hp : W.heap p = none) (v : T) :
    ∃ W', pushFront W t i v p = some W' ∧ ChildrenAt W' t i a ([⟨p, .leading⟩, ⟨p, .trailing⟩] ++ b) c ∧
      W'.value p = some v ∧ SameValues [p] W W' ∧ SameForests [t] W W' ∧ Reachable W' := by
  obtain ⟨A, I⟩ := hW.inv
  obtain ⟨hw, -, h1, h2, -, -, -⟩ := hc.facts I
  obtain ⟨W', e1, e2, e3, e4, e5, e6, e7⟩ := c02_insert hW hc.1 (a := a) (b := b ++ c) hc.2.1 hp v
  refine ⟨W', by simp [pushFront, h1, e1], ⟨e2, ?_, hc.2.2⟩, e4, e5, e6, e7⟩
  rw [e3]; simp

/-- C51. `front()` reads the first child; `pop_front` erases it and puts its children in its place. -/
theorem c51_pop_front (hW : Reachable W) {s r : List Iter}
    (hc : ChildrenAt W t i a (⟨n, .leading⟩ :: (s ++ ⟨n, .trailing⟩ :: r)) c) :
    childFront W.heap i = W.value n ∧
    ∃ W', popFront W t i = some W' ∧ ChildrenAt W' t i a (s ++ r) c ∧
      W'.heap n = none ∧ SameValues [n] W W' ∧ SameForests [t] W W' ∧ Reachable W' := by
  obtain ⟨A, I⟩ := hW.inv
  obtain ⟨hw, hb, h1, h2, -, -, -⟩ := hc.facts I
  have hp : posOf t (⟨n, .leading⟩ :: (s ++ ⟨n, .trailing⟩ :: r) ++ c) = ⟨n, .leading⟩ := by simp [posOf]
  rw [hp] at h1
  obtain ⟨W', e1, e2, e3, e4, e5, e6, e7⟩ := c03_erase hW hc.1 (a := a) (n := n) (b := s) (c := r ++ c)
    (by rw [hc.2.1]; simp) .leading
  refine ⟨by simp [childFront, h1, Heap.deref, valueAt], W', by simp [popFront, h1, e1],
    ⟨e2, by rw [e3]; simp, hc.2.2⟩, e4, e5, e6, e7⟩

/-- C51. `back()` reads the last child; `pop_back` erases it and puts its children in its place. -/
theorem c51_pop_back (hW : Reachable W) {s r : List Iter}
    (hc : ChildrenAt W t i a (r ++ ⟨n, .leading⟩ :: (s ++ [⟨n, .trailing⟩])) c) :
    childBack W.heap i = W.value n ∧
    ∃ W', popBack W t i = some W' ∧ ChildrenAt W' t i a (r ++ s) c ∧
      W'.heap n = none ∧ SameValues [n] W W' ∧ SameForests [t] W W' ∧ Reachable W' := by
  obtain ⟨A, I⟩ := hW.inv
  obtain ⟨hw, hb, h1, h2, -, -, -⟩ := hc.facts I
  have Rp := I.rep t _ hw
  have hd : decr W.heap (childEnd i) = some ⟨n, .trailing⟩ := by
    have R' : Rep W.heap t ((a ++ (r ++ ⟨n, .leading⟩ :: s) ++ [⟨n, .trailing⟩]) ++ c) := by simpa using Rp
    have := R'.decr_split
    rw [priorOf_concat] at this
    rw [h2]; exact this
  obtain ⟨W', e1, e2, e3, e4, e5, e6, e7⟩ := c03_erase hW hc.1 (a := a ++ r) (n := n) (b := s) (c := c)
    (by rw [hc.2.1]; simp) .trailing
  refine ⟨by simp [childBack, childDecr, hd, Heap.deref, valueAt, Iter.pivot], W', by simp [popBack, hd, e1],
    ⟨e2, by rw [e3]; simp, hc.2.2⟩, e4, e5, e6, e7⟩

-- for C51, at node 1 of the demo forest
example : ∃ W : World Nat, Reachable W ∧ W.heap 7 = none ∧
    ChildrenAt W 0 (L 1) [L 1] (⟨2, .leading⟩ :: ([] ++ ⟨2, .trailing⟩ :: [L 3, R 3])) [R 1, L 4, R 4] ∧
    ChildrenAt W 0 (L 1) [L 1] ([L 2, R 2] ++ ⟨3, .leading⟩ :: ([] ++ [⟨3, .trailing⟩])) [R 1, L 4, R 4] := by
  obtain ⟨W, h, I⟩ := demo
  exact ⟨W, h, demo_free I (by simp),
    ⟨I.isForest_iff.mpr ⟨_, rfl⟩, I.order rfl, Or.inr ⟨[], [L 4, R 4], rfl, rfl⟩⟩,
    ⟨I.isForest_iff.mpr ⟨_, rfl⟩, I.order rfl, Or.inr ⟨[], [L 4, R 4], rfl, rfl⟩⟩⟩

/-! ## C52 -/

/-- C52. `insert(pos, first, last)` inserts copies of the trees of a child range of another forest. -/
theorem c52_insert_range (hW : Reachable W) (ht : IsForest W t) (hx : IsForest W x) (htx : x ≠ t)
    {l S r : List Iter} (hot : order W t = some (a ++ c)) (hox : order W x = some (l ++ (S ++ r)))
    {ts : List (Tree T)} (hd : Denotes W.value S ts) {ps : List Ptr} (hps : Fresh W ps (countTrees ts)) :
    ∃ W' E, insertRangeLoop W t (posOf t c) (posOf x (S ++ r)) (posOf x r) ps = some (W', posOf t c) ∧
      IsForest W' t ∧ order W' t = some (a ++ E ++ c) ∧ Denotes W'.value E ts ∧
      SameForests [t] W W' ∧ SameValues ps W W' ∧ Reachable W' := by
  obtain ⟨A, I⟩ := hW.inv
  have hw := I.words_of_order ht hot
  have hv := I.words_of_order hx hox
  rw [← hd.count] at hps
  obtain ⟨hnd, hfr, hlen⟩ := hps
  obtain ⟨W', A', E, h1, I', hwords, hc, hval⟩ := insertRange_refines I htx hw hv hd.balanced hnd hfr hlen
  have hwt : A'.words t = some (a ++ (E ++ c)) := by rw [hwords]; simp [AState.setWord]
  have hc' : Forest.content A'.val E = enc ts := by rw [hc, I.content_denotes hd]
  have hN : Nested 0 (enc ts) := by
    have := enc_nested ts 0 [] rfl
    simpa using this
  refine ⟨W', E, h1, I'.isForest_iff.mpr ⟨_, hwt⟩, by rw [I'.order hwt]; simp, ?_, ?_, ?_, ?_⟩
  · refine I'.denotes_of_content hwt ?_ hc'
    refine Balanced.infix (val := A'.val) (I'.rep t _ hwt).balanced ?_ (by rw [hc']; exact hN)
    intro y hy
    obtain ⟨u, hu, -⟩ := I'.val_some hwt (x := y) (by simp [hy])
    exact ⟨u, hu⟩
  · refine sameForests_of_inv I I' ?_
    intro q hq; simp only [List.mem_singleton] at hq; simp [hwords, AState.setWord, hq]
  · exact sameValues_of_inv I I' hval
  · exact .step (.insertRange t (posOf t c) x (posOf x (S ++ r)) (posOf x r) ps) hW
      ⟨S, hd.balanced, ⟨hnd, hfr, hlen⟩, Or.inl ⟨htx, a, c, l, r, I.rep t _ hw, rfl, I.rep x _ hv, rfl, rfl⟩⟩
      (by simp [exec, h1])

-- copying the children of node 1 below node 5 of another forest
example : ∃ W : World Nat, Reachable W ∧ IsForest W 100 ∧ IsForest W 0 ∧
    order W 100 = some ([L 5] ++ [R 5]) ∧ order W 0 = some ([L 1] ++ ([L 2, R 2, L 3, R 3] ++ [R 1, L 4, R 4])) ∧
    Denotes W.value [L 2, R 2, L 3, R 3] [.node 20 [], .node 30 []] ∧ Fresh W [6, 7] 2 := by
  obtain ⟨W, h, I⟩ := demo
  refine ⟨W, h, I.isForest_iff.mpr ⟨_, rfl⟩, I.isForest_iff.mpr ⟨_, rfl⟩, I.order rfl, I.order rfl, ?_, ?_⟩
  · have hv : ∀ q, W.value q = demoState.val q := fun q => I.val q
    exact Denotes.cons 2 (b := []) (c := [L 3, R 3]) (by rw [hv]; rfl) .nil
      (Denotes.cons 3 (b := []) (c := []) (by rw [hv]; rfl) .nil .nil)
  · refine ⟨by decide, ?_, by decide⟩
    intro p hp
    simp only [List.mem_cons, List.not_mem_nil, or_false] at hp
    rcases hp with rfl | rfl <;> exact demo_free I (by simp)

/-- What is to be shown of copying a range of the same forest. -/
theorem insertRange_own (hW : Reachable W) (ht : IsForest W t) {S : List Iter} {last : Iter}
    (hot : order W t = some (a ++ c)) (hx : Apart t a c S last)
    {ts : List (Tree T)} (hd : Denotes W.value S ts) {ps : List Ptr} (hps : Fresh W ps (countTrees ts)) :
    ∃ W' E, insertRangeLoop W t (posOf t c) (firstOr S last) last ps = some (W', posOf t c) ∧
      IsForest W' t ∧ order W' t = some (a ++ E ++ c) ∧ Denotes W'.value E ts ∧
      SameForests [t] W W' ∧ SameValues ps W W' := by
  obtain ⟨A, I⟩ := hW.inv
  have hw := I.words_of_order ht hot
  rw [← hd.count] at hps
  obtain ⟨hnd, hfr, hlen⟩ := hps
  obtain ⟨W', A', E, h1, I', hwords, hc, hval⟩ := insertRange_own_refines I hw hx hd.balanced hnd hfr hlen
  have hwt : A'.words t = some (a ++ (E ++ c)) := by rw [hwords]; simp [AState.setWord]
  have hc' : Forest.content A'.val E = enc ts := by rw [hc, I.content_denotes hd]
  have hN : Nested 0 (enc ts) := by
    have := enc_nested ts 0 [] rfl
    simpa using this
  refine ⟨W', E, h1, I'.isForest_iff.mpr ⟨_, hwt⟩, by rw [I'.order hwt]; simp, ?_, ?_, ?_⟩
  · refine I'.denotes_of_content hwt ?_ hc'
    refine Balanced.infix (val := A'.val) (I'.rep t _ hwt).balanced ?_ (by rw [hc']; exact hN)
    intro y hy
    obtain ⟨u, hu, -⟩ := I'.val_some hwt (x := y) (by simp [hy])
    exact ⟨u, hu⟩
  · refine sameForests_of_inv I I' ?_
    intro q hq; simp only [List.mem_singleton] at hq; simp [hwords, AState.setWord, hq]
  · exact sameValues_of_inv I I' hval

/-- C52. The range may be one of the same forest, if `pos` is not after its first position. -/
theorem c52_own_before (hW : Reachable W) (ht : IsForest W t) {m S r : List Iter}
    (hot : order W t = some (a ++ (m ++ (S ++ r)))) {ts : List (Tree T)} (hd : Denotes W.value S ts) {ps : List Ptr}
    (hps : Fresh W ps (countTrees ts)) :
    ∃ W' E, insertRangeLoop W t (posOf t (m ++ (S ++ r))) (posOf t (S ++ r)) (posOf t r) ps = some (W', posOf t (m ++ (S ++ r))) ∧
      IsForest W' t ∧ order W' t = some (a ++ E ++ (m ++ (S ++ r))) ∧ Denotes W'.value E ts ∧
      SameForests [t] W W' ∧ SameValues ps W W' ∧ Reachable W' := by
  obtain ⟨W', E, h1, h2, h3, h4, h5, h6⟩ := insertRange_own hW ht hot (apart_before t a m S r) hd hps
  rw [← posOf_firstOr] at h1
  refine ⟨W', E, h1, h2, h3, h4, h5, h6, ?_⟩
  obtain ⟨A, I⟩ := hW.inv
  rw [← hd.count] at hps
  exact .step (.insertRange t (posOf t (m ++ (S ++ r))) t (posOf t (S ++ r)) (posOf t r) ps) hW
    ⟨S, hd.balanced, hps, Or.inr ⟨rfl, Or.inl ⟨a, m, r, I.rep t _ (I.words_of_order ht hot), rfl, rfl, rfl⟩⟩⟩
    (by simp [exec, h1])

/-- C52. The range may be one of the same forest, if `pos` is after the position that follows the range. -/
theorem c52_own_after (hW : Reachable W) (ht : IsForest W t) {l S m : List Iter} {z : Iter}
    (hot : order W t = some (l ++ (S ++ z :: (m ++ c)))) {ts : List (Tree T)} (hd : Denotes W.value S ts) {ps : List Ptr}
    (hps : Fresh W ps (countTrees ts)) :
    ∃ W' E, insertRangeLoop W t (posOf t c) (posOf t (S ++ z :: (m ++ c))) z ps = some (W', posOf t c) ∧
      IsForest W' t ∧ order W' t = some (l ++ (S ++ z :: (m ++ (E ++ c)))) ∧ Denotes W'.value E ts ∧
      SameForests [t] W W' ∧ SameValues ps W W' ∧ Reachable W' := by
  obtain ⟨W', E, h1, h2, h3, h4, h5, h6⟩ := insertRange_own hW ht (a := l ++ (S ++ z :: m)) (c := c) (by simpa using hot)
    (apart_after t l S m c z) hd hps
  have e : firstOr S z = posOf t (S ++ z :: (m ++ c)) := by rw [posOf_firstOr, posOf_cons]
  rw [e] at h1
  refine ⟨W', E, h1, h2, by simpa using h3, h4, h5, h6, ?_⟩
  obtain ⟨A, I⟩ := hW.inv
  rw [← hd.count] at hps
  exact .step (.insertRange t (posOf t c) t (posOf t (S ++ z :: (m ++ c))) z ps) hW
    ⟨S, hd.balanced, hps, Or.inr ⟨rfl, Or.inr ⟨l, z, m, c, I.rep t _ (I.words_of_order ht hot), rfl, rfl, rfl⟩⟩⟩
    (by simp [exec, h1])

/-- C52. Appending a range of a forest to itself never ends: the loop copies what it has inserted, until no memory is left. -/
theorem c52_own_end (hW : Reachable W) (ht : IsForest W t) {l S r : List Iter} (hot : order W t = some (l ++ (S ++ r)))
    (hS : Balanced S) (hne : S ≠ []) (ps : List Ptr) (hnd : ps.Nodup) (hfr : ∀ p ∈ ps, W.heap p = none) :
    insertRangeLoop W t (posOf t r) (posOf t (S ++ r)) (posOf t r) ps = none := by
  obtain ⟨A, I⟩ := hW.inv
  have hw := I.words_of_order ht hot
  have := insertRangeLoop_own_end t r _ ps [] l S W A rfl I (by simpa using hw) hne (by simp)
    (by simpa using depthAfter_balanced hS 0) hnd hfr
  simpa using this

-- copying the children of node 1 to the front of the forest, in front of themselves, behind node 1
example : ∃ W : World Nat, Reachable W ∧ IsForest W 0 ∧
    order W 0 = some ([] ++ ([L 1] ++ ([L 2, R 2, L 3, R 3] ++ [R 1, L 4, R 4]))) ∧
    order W 0 = some ([L 1] ++ ([] ++ ([L 2, R 2, L 3, R 3] ++ [R 1, L 4, R 4]))) ∧
    order W 0 = some ([L 1] ++ ([L 2, R 2, L 3, R 3] ++ R 1 :: ([] ++ [L 4, R 4]))) ∧
    Denotes W.value [L 2, R 2, L 3, R 3] [.node 20 [], .node 30 []] ∧ Fresh W [6, 7] 2 := by
  obtain ⟨W, h, I⟩ := demo
  refine ⟨W, h, I.isForest_iff.mpr ⟨_, rfl⟩, I.order rfl, I.order rfl, I.order rfl, ?_, ?_⟩
  · have hv : ∀ q, W.value q = demoState.val q := fun q => I.val q
    exact Denotes.cons 2 (b := []) (c := [L 3, R 3]) (by rw [hv]; rfl) .nil
      (Denotes.cons 3 (b := []) (c := []) (by rw [hv]; rfl) .nil .nil)
  · refine ⟨by decide, ?_, by decide⟩
    intro p hp
    simp only [List.mem_cons, List.not_mem_nil, or_false] at hp
    rcases hp with rfl | rfl <;> exact demo_free I (by simp)

end Verif.Forest
