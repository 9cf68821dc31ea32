import Verif.Forest.FilterLemmas

/-! # Complete traversals with the iterator adaptors -/

namespace Verif.Forest

variable {T : Type} {h : Heap T} {t : Ptr} {w : List Iter}

theorem walk_eq' {σ : Type} {eq : σ → σ → Bool} {next : σ → Option σ} {z e : σ} (hz : eq z e = true) :
    ∀ {l : List σ}, (∀ x ∈ l, eq x e = false) → List.IsChain (fun x y => next x = some y) (l ++ [z]) →
      ∀ {f : σ}, (l ++ [z]).head? = some f → walk eq next f e = some l := by
  intro l
  induction l with
  | nil =>
    intro _ _ f hf
    simp only [List.nil_append, List.head?_cons, Option.some.injEq] at hf
    subst hf
    rw [walk]; simp [hz]
  | cons x l ih =>
    intro hne hch f hf
    simp only [List.cons_append, List.head?_cons, Option.some.injEq] at hf
    subst hf
    obtain ⟨y, hy⟩ : ∃ y, (l ++ [z]).head? = some y := by cases l <;> simp
    have h1 : next x = some y := by
      rw [List.cons_append, List.isChain_cons] at hch
      exact hch.1 y (by simpa using hy)
    have h2 := ih (fun w hw => hne w (by simp [hw])) (by
      rw [List.cons_append, List.isChain_cons] at hch; exact hch.2) hy
    rw [walk]
    simp [hne x (by simp), h1, h2]

theorem end_head {l : List Iter} : (l ++ [end_ t]).head? = some (posOf t l) := by
  cases l <;> simp [posOf]

/-- Full order, forwards and backwards. -/
theorem full_walk (R : Rep h t w) : walk iterEq (incr h) (posOf t w) (end_ t) = some w := by
  refine walk_eq (iterEq_self _) ?_ R.chain_incr end_head
  intro x hx
  simp [iterEq, R.ne_end hx]

theorem head_notin_tail {l : List Iter} {x z : Iter} (hN : (l ++ [z]).Nodup) (hx : x ∈ (l ++ [z]).tail)
    {f : Iter} (hf : (l ++ [z]).head? = some f) : iterEq x f = false := by
  cases l with
  | nil => simp at hx
  | cons y l =>
    simp only [List.cons_append, List.head?_cons, Option.some.injEq] at hf
    subst hf
    simp only [List.cons_append, List.tail_cons] at hx
    simp only [List.cons_append, List.nodup_cons] at hN
    simp only [iterEq, decide_eq_false_iff_not]
    rintro rfl
    exact hN.1 hx

theorem Rep.nodup_end (R : Rep h t w) : (w ++ [end_ t]).Nodup := by
  have := R.nodup
  simp only [closed, List.nodup_cons] at this
  exact this.2

theorem full_walkBack (R : Rep h t w) :
    walkBack iterEq (decr h) (posOf t w) (end_ t) = some w.reverse := by
  refine walkBack_eq ?_ (iterEq_self _) R.chain_decr end_head
  intro y hy
  exact head_notin_tail R.nodup_end hy end_head

/-! ## Preorder and postorder -/

theorem edgeRange_eq (R : Rep h t w) (e : Edge) :
    edgeRange h e t = some (nextEdge e t w, ⟨t, e⟩) := by
  have R0 : Rep h t ([] ++ w) := by simpa using R
  have R1 : Rep h t (w ++ []) := by simpa using R
  have h1 := findEdge_eq (e := e) R0
  have h2 := findEdge_eq (e := e) R1
  rw [posOf_nil] at h2
  simp only [edgeRange, R.begin_posOf, edgeMk, h1, h2, Option.bind_eq_bind, Option.bind_some, nextEdge,
    List.find?_nil, Option.getD_none]
  rfl

theorem edge_walk (R : Rep h t w) (e : Edge) :
    walk iterEq (edgeIncr h e) (nextEdge e t w) ⟨t, e⟩ = some (edgesOf e w) := by
  refine walk_eq (iterEq_self _) ?_ (edge_chain (a := []) (by simpa using R)) nextEdge_head
  intro x hx
  simp only [edgesOf, List.mem_filter] at hx
  simp only [iterEq, decide_eq_false_iff_not]
  rintro rfl
  exact R.end_notin e hx.1

theorem edgeDecr_last (R : Rep h t w) {e : Edge} {a b : List Iter} {x : Iter}
    (hw : w = a ++ x :: b) (hx : x.edge = e) (hb : ∀ y ∈ b, y.edge ≠ e) :
    edgeDecr h e ⟨t, e⟩ = some x := by
  have key := edgeDecr_end R hw hx hb
  cases e with
  | trailing => exact key
  | leading =>
    have hr := R.decr_root
    simp only [root] at hr
    simp only [edgeDecr, hr, Option.bind_eq_bind, Option.bind_some]
    rw [findEdgeReverse]
    simpa [end_, edgeDecr] using key

theorem edge_walkBack (R : Rep h t w) (e : Edge) :
    walkBack iterEq (edgeDecr h e) (nextEdge e t w) ⟨t, e⟩ = some (edgesOf e w).reverse := by
  have hN : (edgesOf e w ++ [(⟨t, e⟩ : Iter)]).Nodup := by
    rw [List.nodup_append]
    refine ⟨R.nodup_word.filter _, by simp, ?_⟩
    intro x hx y hy
    simp only [edgesOf, List.mem_filter] at hx
    simp only [List.mem_singleton] at hy
    subst hy
    rintro rfl
    exact R.end_notin e hx.1
  refine walkBack_eq ?_ (iterEq_self _) ?_ nextEdge_head
  · intro y hy
    exact head_notin_tail hN hy nextEdge_head
  · rw [isChain_concat]
    refine ⟨edge_chain_back R, ?_⟩
    intro x hx
    have he : ∃ l, edgesOf e w = l ++ [x] := by
      rcases List.eq_nil_or_concat (edgesOf e w) with h1 | ⟨l, z, h1⟩
      · rw [h1] at hx; simp at hx
      · rw [h1, List.concat_eq_append] at hx
        simp at hx
        exact ⟨l, by rw [h1, List.concat_eq_append, hx]⟩
    obtain ⟨l, hl⟩ := he
    obtain ⟨w1, w', hw, h1, h2⟩ := List.filter_eq_append_iff.mp hl
    obtain ⟨u1, u2, hw2, hu1, hu2, hu3⟩ := List.filter_eq_cons_iff.mp h2
    refine edgeDecr_last R (a := w1 ++ u1) (b := u2) (by rw [hw, hw2]; simp) (by simpa using hu2) ?_
    intro y hy
    have := List.filter_eq_nil_iff.mp hu3 y hy
    simpa using this

/-! ## Filter -/

theorem filterRange_eq {p : T → Bool} (R : Rep h t w) {w' : List Iter} (hf : FS (okNode h p) w w') :
    filterRange h p t = some (⟨posOf t w', true, posOf t w, end_ t⟩, ⟨end_ t, true, end_ t, end_ t⟩) := by
  have hs := skipForward_eq (a := []) hf (by simpa using R)
  have he : skipForward h p (end_ t) (end_ t) = some (end_ t) := by rw [skipForward]; simp [end_]
  simp only [filterRange, R.begin_posOf, filterMk, hs, he, Option.bind_eq_bind, Option.bind_some]
  rfl

theorem filter_walk {p : T → Bool} (R : Rep h t w) {w' : List Iter} (hf : Filtered (okNode h p) w w')
    {e : FIt} (he : e.x = end_ t) :
    walk filterEq (filterIncr h p) ⟨posOf t w', true, posOf t w, end_ t⟩ e =
      some (w'.map (fun x => ⟨x, true, posOf t w, end_ t⟩)) := by
  have hfs : FS (okNode h p) w w' := by simpa using hf.fs FS.nil
  have hch := filterIncr_chain (f := posOf t w) (a := []) hfs (by simpa using R)
  refine walk_eq' (z := (⟨end_ t, true, posOf t w, end_ t⟩ : FIt)) (by simp [filterEq, he]) ?_ ?_ ?_
  · intro x hx
    obtain ⟨y, hy, rfl⟩ := List.mem_map.mp hx
    simp [filterEq, he, R.ne_end (hf.subset y hy)]
  · have := (List.isChain_map (R := fun x y : FIt => filterIncr h p x = some y)
      (fun x : Iter => (⟨x, true, posOf t w, end_ t⟩ : FIt))).mpr hch
    simpa using this
  · cases w' <;> simp [posOf]

theorem filter_walkBack {p : T → Bool} (R : Rep h t w) {w' : List Iter} (hf : Filtered (okNode h p) w w') :
    walkBack filterEq (filterDecr h p) ⟨posOf t w', true, posOf t w, end_ t⟩
        ⟨end_ t, true, posOf t w, end_ t⟩ =
      some (w'.map (fun x => ⟨x, true, posOf t w, end_ t⟩)).reverse := by
  have hps : PS (okNode h p) w w' := by simpa using hf.ps PS.nil
  have hch := filterDecr_chain_end hps R
  have hN : (w' ++ [end_ t]).Nodup := by
    rw [List.nodup_append]
    refine ⟨hf.sublist.nodup R.nodup_word, by simp, ?_⟩
    intro x hx y hy
    simp only [List.mem_singleton] at hy
    subst hy
    exact R.ne_end (hf.subset x hx)
  refine walkBack_eq ?_ (by simp [filterEq]) ?_ ?_
  · intro y hy
    have : ∃ z, z ∈ (w' ++ [end_ t]).tail ∧ y = ⟨z, true, posOf t w, end_ t⟩ := by
      have e : w'.map (fun x => (⟨x, true, posOf t w, end_ t⟩ : FIt)) ++ [⟨end_ t, true, posOf t w, end_ t⟩] =
        (w' ++ [end_ t]).map (fun x => ⟨x, true, posOf t w, end_ t⟩) := by simp
      rw [e, ← List.map_tail] at hy
      obtain ⟨z, hz, rfl⟩ := List.mem_map.mp hy
      exact ⟨z, hz, rfl⟩
    obtain ⟨z, hz, rfl⟩ := this
    exact head_notin_tail hN hz end_head
  · have := (List.isChain_map (R := fun x y : FIt => filterDecr h p y = some x)
      (fun x : Iter => (⟨x, true, posOf t w, end_ t⟩ : FIt))).mpr hch
    simpa using this
  · cases w' <;> simp [posOf]

/-! ## Reverse -/

/-- The reverse iterator whose base is `x`. -/
def rit (x : Iter) : RIt := ⟨x, x.edge.pivot⟩

theorem pivot_pivot' (e : Edge) : e.pivot.pivot = e := by cases e <;> rfl

theorem revIncr_rit {x y : Iter} (hd : decr h x = some y) : revIncr h (rit x) = some (rit y) := by
  simp [revIncr, rit, pivot_pivot', hd]

theorem revDecr_rit {x y : Iter} (hi : incr h x = some y) : revDecr h (rit x) = some (rit y) := by
  simp [revDecr, rit, pivot_pivot', hi]

theorem revRange_eq (R : Rep h t w) : revRange h t = some (rit (priorOf t w), rit (root t)) := by
  have R0 : Rep h t ([] ++ w) := by simpa using R
  have R1 : Rep h t (w ++ []) := by simpa using R
  have h0 := R0.decr_split
  have h1 := R1.decr_split
  rw [posOf_nil] at h1
  have e : priorOf t [] = root t := rfl
  rw [e] at h0
  simp only [revRange, revMk, h0, h1, R.begin_posOf, Option.bind_eq_bind, Option.bind_some]
  rfl

theorem root_head {l : List Iter} : (l.reverse ++ [root t]).head? = some (priorOf t l) := by
  rcases List.eq_nil_or_concat l with rfl | ⟨l, x, rfl⟩
  · simp [priorOf]
  · rw [List.concat_eq_append, priorOf_concat]; simp

theorem Rep.chain_rev (R : Rep h t w) :
    List.IsChain (fun x y => decr h x = some y ∧ incr h y = some x) (w.reverse ++ [root t]) := by
  have key : List.IsChain (fun y x => decr h x = some y ∧ incr h y = some x) (root t :: w) := by
    rw [List.isChain_iff_forall_rel_of_append_cons_cons]
    intro a b l1 l2 he
    have hc : closed t w = l1 ++ a :: b :: (l2 ++ [end_ t]) := by
      have : closed t w = (root t :: w) ++ [end_ t] := rfl
      rw [this, he]; simp
    exact ⟨R.decr_adj hc, R.incr_adj hc⟩
  have := List.isChain_reverse.mpr key
  simpa using this

theorem rev_walk (R : Rep h t w) :
    walk revEq (revIncr h) (rit (priorOf t w)) (rit (root t)) = some (w.reverse.map rit) := by
  refine walk_eq' (z := rit (root t)) (by simp [revEq]) ?_ ?_ ?_
  · intro x hx
    obtain ⟨y, hy, rfl⟩ := List.mem_map.mp hx
    have : y ≠ root t := by rintro rfl; exact R.end_notin .leading (by simpa [root] using hy)
    simp [revEq, rit, this]
  · have := (List.isChain_map (R := fun x y : RIt => revIncr h x = some y) rit).mpr
      (R.chain_rev.imp fun _ _ h => revIncr_rit h.1)
    simpa using this
  · have := root_head (t := t) (l := w)
    have e : w.reverse.map rit ++ [rit (root t)] = (w.reverse ++ [root t]).map rit := by simp
    rw [e, List.head?_map, this]; rfl

theorem rev_walkBack (R : Rep h t w) :
    walkBack revEq (revDecr h) (rit (priorOf t w)) (rit (root t)) = some (w.map rit) := by
  have hN : (w.reverse ++ [root t]).Nodup := by
    have := R.nodup
    have e : closed t w = (root t :: w) ++ [end_ t] := rfl
    rw [e] at this
    have := List.nodup_reverse.mpr this.of_append_left
    simpa using this
  have : w.map rit = (w.reverse.map rit).reverse := by simp
  rw [this]
  refine walkBack_eq ?_ (by simp [revEq]) ?_ ?_
  · intro y hy
    have e : w.reverse.map rit ++ [rit (root t)] = (w.reverse ++ [root t]).map rit := by simp
    rw [e, ← List.map_tail] at hy
    obtain ⟨z, hz, rfl⟩ := List.mem_map.mp hy
    have := head_notin_tail hN hz (root_head (t := t) (l := w))
    simp only [iterEq, decide_eq_false_iff_not] at this
    simp [revEq, rit, this]
  · have := (List.isChain_map (R := fun x y : RIt => revDecr h y = some x) rit).mpr
      (R.chain_rev.imp fun _ _ h => revDecr_rit h.2)
    simpa using this
  · have := root_head (t := t) (l := w)
    have e : w.reverse.map rit ++ [rit (root t)] = (w.reverse ++ [root t]).map rit := by simp
    rw [e, List.head?_map, this]; rfl

/-! ## Depth -/

theorem level_append (a b : List Iter) : level (a ++ b) = level a + level b := by
  simp only [level, shape, List.map_append, List.count_append]
  push_cast
  omega

theorem Balanced.level {b : List Iter} (hb : Balanced b) : level b = 0 := by
  induction hb with
  | nil => simp [Forest.level, shape]
  | @cons n b c hb hc ihb ihc =>
    have e : (⟨n, .leading⟩ :: (b ++ ⟨n, .trailing⟩ :: c) : List Iter) =
      [⟨n, .leading⟩] ++ (b ++ ([⟨n, .trailing⟩] ++ c)) := by simp
    have h1 : Forest.level [⟨n, .leading⟩] = 1 := by simp [Forest.level, shape]
    have h2 : Forest.level [⟨n, .trailing⟩] = -1 := by simp [Forest.level, shape]
    rw [e, level_append, level_append, level_append, ihb, ihc, h1, h2]
    rfl

/-- The depth the iterator shows is the number of enclosing nodes. -/
theorem depthAt_enclosing (hB : Balanced w) (hN : w.Nodup) {x : Iter} {a b : List Iter}
    (hx : w = a ++ x :: b) {a' s c : List Iter}
    (hw : w = a' ++ (⟨x.node, .leading⟩ :: (s ++ ⟨x.node, .trailing⟩ :: c))) :
    depthAt a x = (enclosing a' c).length := by
  obtain ⟨n, e⟩ := x
  simp only at hw
  have hs : Balanced s := by
    obtain ⟨u, s', v, he, hs'⟩ := hB.split (n := n) (e := .leading) (by rw [hw]; simp)
    rw [hw] at he hN
    obtain ⟨-, h2⟩ := append_cons_inj hN he
    have h4 := (List.nodup_append.mp hN).2.1.tail
    obtain ⟨h3, -⟩ := append_cons_inj h4 h2
    rw [h3]; exact hs'
  have key : level a' = (enclosing a' c).length := by
    rw [hw] at hB hN
    exact level_enclosing hB hN hs
  rw [← key]
  cases e with
  | leading =>
    rw [hx] at hN hw
    obtain ⟨h1, -⟩ := append_cons_inj hN hw
    simp [depthAt, h1]
  | trailing =>
    have hw' : w = (a' ++ ⟨n, .leading⟩ :: s) ++ ⟨n, .trailing⟩ :: c := by rw [hw]; simp
    rw [hx] at hN hw'
    obtain ⟨h1, -⟩ := append_cons_inj hN hw'
    have e1 : a' ++ ⟨n, .leading⟩ :: s = a' ++ ([⟨n, .leading⟩] ++ s) := by simp
    have h2 : level [(⟨n, .leading⟩ : Iter)] = 1 := by simp [level, shape]
    simp only [depthAt, h1, e1, level_append, hs.level, h2, reduceCtorEq, if_false]
    omega

/-- The depth iterators in order, after a prefix. -/
def withDepth (a : List Iter) : List Iter → List DIt
  | [] => []
  | x :: b => ⟨x, depthAt a x⟩ :: withDepth (a ++ [x]) b

theorem withDepth_map (b : List Iter) : ∀ a, (withDepth a b).map (·.x) = b := by
  induction b with
  | nil => intro a; rfl
  | cons x b ih => intro a; simp [withDepth, ih]

theorem withDepth_mem {d : DIt} {b : List Iter} : ∀ {a}, d ∈ withDepth a b →
    ∃ b1 b2, b = b1 ++ d.x :: b2 ∧ d.depth = depthAt (a ++ b1) d.x := by
  induction b with
  | nil => intro a hd; simp [withDepth] at hd
  | cons x b ih =>
    intro a hd
    simp only [withDepth, List.mem_cons] at hd
    rcases hd with rfl | hd
    · exact ⟨[], b, rfl, by simp⟩
    · obtain ⟨b1, b2, h1, h2⟩ := ih hd
      exact ⟨x :: b1, b2, by rw [List.cons_append, ← h1], by rw [h2]; simp⟩

theorem depth_chain {b : List Iter} : ∀ {a}, Rep h t (a ++ b) →
    List.IsChain (fun x y => depthIncr h x = some y ∧ depthDecr h y = some x)
      (withDepth a b ++ [⟨end_ t, depthAt (a ++ b) (end_ t)⟩]) := by
  induction b with
  | nil => intro a R; simp [withDepth]
  | cons x b ih =>
    intro a R
    have R' : Rep h t ((a ++ [x]) ++ b) := by simpa using R
    have hi := R'.incr_split
    have hd := R'.decr_split
    rw [priorOf_concat] at hi hd
    have := ih R'
    rw [List.append_assoc, List.singleton_append] at this
    rw [withDepth, List.cons_append, List.isChain_cons]
    refine ⟨?_, this⟩
    intro y hy
    cases b with
    | nil =>
      simp only [withDepth, List.nil_append, List.head?_cons, Option.mem_some] at hy
      subst hy
      rw [posOf_nil] at hi hd
      exact ⟨depthIncr_eq hi, depthDecr_eq hd⟩
    | cons z b =>
      simp only [withDepth, List.cons_append, List.head?_cons, Option.mem_some] at hy
      subst hy
      rw [posOf_cons] at hi hd
      exact ⟨depthIncr_eq hi, depthDecr_eq hd⟩

theorem depth_walk (R : Rep h t w) {e : DIt} (he : e.x = end_ t) :
    walk depthEq (depthIncr h) ⟨posOf t w, 0⟩ e = some (withDepth [] w) := by
  have hch := depth_chain (a := []) (b := w) (by simpa using R)
  cases w with
  | nil => rw [walk]; simp [depthEq, posOf, he, withDepth]
  | cons x w =>
    have h0 : depthAt [] x = 0 := by
      have hB := R.balanced
      cases hB
      simp [depthAt, level, shape]
    refine walk_eq' (z := ⟨end_ t, depthAt ([] ++ x :: w) (end_ t)⟩) (by simp [depthEq, he]) ?_
      (hch.imp fun _ _ h => h.1) ?_
    · intro d hd
      have : d.x ∈ (withDepth [] (x :: w)).map (·.x) := List.mem_map_of_mem hd
      rw [withDepth_map] at this
      simp [depthEq, he, R.ne_end this]
    · simp [withDepth, posOf, h0]

end Verif.Forest
