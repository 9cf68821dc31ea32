import Verif.Forest.Splice
import Verif.Forest.Adaptors

/-! # Traversal lemmas -/

namespace Verif.Forest

variable {T : Type}

/-- `c ++ [z]` with consecutive elements related by `next`: the loop visits `c`. -/
theorem walk_eq {σ : Type} {eq : σ → σ → Bool} {next : σ → Option σ} {z : σ} (hz : eq z z = true) :
    ∀ {l : List σ}, (∀ x ∈ l, eq x z = false) → List.IsChain (fun x y => next x = some y) (l ++ [z]) →
      ∀ {f : σ}, (l ++ [z]).head? = some f → walk eq next f z = some l := by
  intro l
  induction l with
  | nil =>
    intro _ _ f hf
    simp only [List.nil_append, List.head?_cons, Option.some.injEq] at hf
    subst hf
    rw [walk]; simp [hz]
  | cons x l ih =>
    intro hne hch f hf
    simp only [List.cons_append, List.head?_cons, Option.some.injEq] at hf
    subst hf
    obtain ⟨y, hy⟩ : ∃ y, (l ++ [z]).head? = some y := by cases l <;> simp
    have h1 : next x = some y := by
      rw [List.cons_append, List.isChain_cons] at hch
      exact hch.1 y (by simpa using hy)
    have h2 := ih (fun w hw => hne w (by simp [hw])) (by
      rw [List.cons_append, List.isChain_cons] at hch; exact hch.2) hy
    rw [walk]
    simp [hne x (by simp), h1, h2]

theorem walkBack_eq {σ : Type} {eq : σ → σ → Bool} {prev : σ → Option σ} {f : σ} :
    ∀ {l : List σ} {z : σ}, (∀ y ∈ (l ++ [z]).tail, eq y f = false) → eq f f = true →
      List.IsChain (fun x y => prev y = some x) (l ++ [z]) → (l ++ [z]).head? = some f →
      walkBack eq prev f z = some l.reverse := by
  intro l
  induction l using List.reverseRecOn with
  | nil =>
    intro z _ hff _ hf
    simp only [List.nil_append, List.head?_cons, Option.some.injEq] at hf
    subst hf
    rw [walkBack]; simp [hff]
  | append_singleton l y ih =>
    intro z hne hff hch hf
    have hp : prev z = some y := by
      have : l ++ [y] ++ [z] = l ++ [y, z] := by simp
      rw [this] at hch
      have := (List.isChain_append.mp hch).2.1
      simpa [List.isChain_cons_cons] using this
    have hz : eq z f = false := by
      refine hne z ?_
      cases l <;> simp
    have hrec := ih (z := y)
      (fun w hw => hne w (by
        cases l with
        | nil => simp at hw
        | cons a l => simp at hw ⊢; tauto))
      hff (List.isChain_append.mp hch).1 (by
        cases l with
        | nil => simpa using hf
        | cons a l => simpa using hf)
    rw [walkBack]
    simp [hz, hp, hrec]

variable {h : Heap T} {t : Ptr} {w : List Iter}

theorem Rep.chain_incr (R : Rep h t w) :
    List.IsChain (fun x y => incr h x = some y) (w ++ [end_ t]) := by
  rw [List.isChain_iff_forall_rel_of_append_cons_cons]
  intro a b l1 l2 he
  exact R.incr_word he

theorem Rep.chain_decr (R : Rep h t w) :
    List.IsChain (fun x y => decr h y = some x) (w ++ [end_ t]) := by
  rw [List.isChain_iff_forall_rel_of_append_cons_cons]
  intro a b l1 l2 he
  exact R.decr_word he

theorem Rep.ne_end (R : Rep h t w) {x : Iter} (hx : x ∈ w) : x ≠ end_ t := by
  rintro rfl; exact R.end_notin .trailing hx

theorem Rep.begin_posOf (R : Rep h t w) : begin_ h t = some (posOf t w) := by
  rw [R.begin_eq, posOf_head]

/-! ## Edge iterators -/

/-- The first edge of kind `e` at or after a position, wrapping at the end of the forest. -/
def nextEdge (e : Edge) (t : Ptr) (b : List Iter) : Iter :=
  (b.find? (fun x => x.edge = e)).getD ⟨t, e⟩

theorem findEdge_eq {e : Edge} : ∀ {b a : List Iter}, Rep h t (a ++ b) →
    findEdge h (posOf t b) e = some (nextEdge e t b) := by
  intro b
  induction b with
  | nil =>
    intro a R
    rw [posOf_nil, findEdge]
    cases e with
    | trailing => simp [end_, nextEdge]
    | leading =>
      have := R.incr_end
      simp only [end_, reduceCtorEq, if_false] at this ⊢
      rw [this]
      simp only [Option.bind_eq_bind, Option.bind_some]
      rw [findEdge]
      simp [root, nextEdge]
  | cons x b ih =>
    intro a R
    rw [posOf_cons, findEdge]
    by_cases hx : x.edge = e
    · simp [hx, nextEdge]
    · have R' : Rep h t ((a ++ [x]) ++ b) := by simpa using R
      have hi := R'.incr_split
      rw [priorOf_concat] at hi
      simp [hx, hi, ih R', nextEdge]

theorem edgeIncr_eq {e : Edge} {a b : List Iter} {x : Iter} (R : Rep h t (a ++ x :: b)) :
    edgeIncr h e x = some (nextEdge e t b) := by
  have R' : Rep h t ((a ++ [x]) ++ b) := by simpa using R
  have hi := R'.incr_split
  rw [priorOf_concat] at hi
  simp [edgeIncr, hi, findEdge_eq R']

/-- The last edge of kind `e` in `a` (before a position). -/
theorem findEdgeReverse_eq {e : Edge} {x : Iter} : ∀ {a b : List Iter}, Rep h t (a ++ b) → ∀ {a1 a2},
    a = a1 ++ x :: a2 → x.edge = e → (∀ y ∈ a2, y.edge ≠ e) →
    findEdgeReverse h (priorOf t a) e = some x := by
  intro a
  induction a using List.reverseRecOn with
  | nil => intro b R a1 a2 h1; simp at h1
  | append_singleton a y ih =>
    intro b R a1 a2 h1 h2 h3
    rw [priorOf_concat, findEdgeReverse]
    rcases List.eq_nil_or_concat a2 with rfl | ⟨a3, z, rfl⟩
    · have : y = x := by
        have := List.append_inj' h1 rfl
        simpa using this.2
      subst this
      simp [h2]
    · rw [List.concat_eq_append] at h1 h3
      have h4 : a ++ [y] = (a1 ++ x :: a3) ++ [z] := by rw [h1]; simp
      obtain ⟨h5, h6⟩ := List.append_inj' h4 rfl
      simp only [List.cons.injEq, and_true] at h6
      subst h6
      have hy : y.edge ≠ e := h3 y (by simp)
      have R' : Rep h t (a ++ (y :: b)) := by simpa using R
      have hd := R'.decr_split
      rw [posOf_cons] at hd
      simp only [hy, if_false, hd, Option.bind_eq_bind, Option.bind_some]
      exact ih R' h5 h2 (fun q hq => h3 q (by simp [hq]))

/-- The edges of one kind, in order. -/
def edgesOf (e : Edge) (w : List Iter) : List Iter := w.filter (fun x => x.edge = e)

theorem nextEdge_head {e : Edge} {t : Ptr} {b : List Iter} :
    (edgesOf e b ++ [(⟨t, e⟩ : Iter)]).head? = some (nextEdge e t b) := by
  induction b with
  | nil => simp [edgesOf, nextEdge]
  | cons x b ih =>
    by_cases hx : x.edge = e
    · simp [edgesOf, nextEdge, hx]
    · simp only [edgesOf, hx, decide_false, Bool.false_eq_true, not_false_eq_true,
        List.filter_cons_of_neg, nextEdge, List.find?_cons_of_neg] at ih ⊢
      exact ih

theorem edge_chain {e : Edge} : ∀ {b a : List Iter}, Rep h t (a ++ b) →
    List.IsChain (fun x y => edgeIncr h e x = some y) (edgesOf e b ++ [⟨t, e⟩]) := by
  intro b
  induction b with
  | nil => intro a R; simp [edgesOf]
  | cons x b ih =>
    intro a R
    have R' : Rep h t ((a ++ [x]) ++ b) := by simpa using R
    by_cases hx : x.edge = e
    · have e1 : edgesOf e (x :: b) = x :: edgesOf e b := by simp [edgesOf, hx]
      rw [e1, List.cons_append, List.isChain_cons]
      refine ⟨?_, ih R'⟩
      intro y hy
      rw [nextEdge_head] at hy
      simp only [Option.mem_some] at hy
      subst hy
      exact edgeIncr_eq R
    · have e1 : edgesOf e (x :: b) = edgesOf e b := by simp [edgesOf, hx]
      rw [e1]; exact ih R'

theorem edge_chain_back {e : Edge} (R : Rep h t w) :
    List.IsChain (fun x y => edgeDecr h e y = some x) (edgesOf e w) := by
  rw [List.isChain_iff_forall_rel_of_append_cons_cons]
  intro x y l1 l2 he
  obtain ⟨w1, w', hw, h1, h2⟩ := List.filter_eq_append_iff.mp he
  obtain ⟨u1, u2, hw2, hu1, hu2, hu3⟩ := List.filter_eq_cons_iff.mp h2
  obtain ⟨v1, v2, hw3, hv1, hv2, hv3⟩ := List.filter_eq_cons_iff.mp hu3
  subst hw hw2 hw3
  have R' : Rep h t ((w1 ++ (u1 ++ x :: v1)) ++ (y :: v2)) := by simpa using R
  have hd := R'.decr_split
  rw [posOf_cons] at hd
  simp only [edgeDecr, hd, Option.bind_eq_bind, Option.bind_some]
  refine findEdgeReverse_eq R' (a1 := w1 ++ u1) (a2 := v1) (by simp) (by simpa using hu2) ?_
  intro z hz
  simpa using hv1 z hz

/-- Stepping back from the end of an edge range. -/
theorem edgeDecr_end {e : Edge} (R : Rep h t w) {a b : List Iter} {x : Iter}
    (hw : w = a ++ x :: b) (hx : x.edge = e) (hb : ∀ y ∈ b, y.edge ≠ e) :
    edgeDecr h e (end_ t) = some x := by
  have R' : Rep h t (w ++ []) := by simpa using R
  have hd := R'.decr_split
  rw [posOf_nil] at hd
  simp only [edgeDecr, hd, Option.bind_eq_bind, Option.bind_some]
  exact findEdgeReverse_eq R' hw hx hb

theorem edgeDistance_eq : ∀ {b a : List Iter}, Rep h t (a ++ b) →
    edgeDistance h .leading (nextEdge .leading t b) (root t) = some (nodes b).length := by
  intro b
  induction b with
  | nil => intro a R; rw [edgeDistance]; simp [nextEdge, root, nodes]
  | cons x b ih =>
    intro a R
    have R' : Rep h t ((a ++ [x]) ++ b) := by simpa using R
    obtain ⟨n, e⟩ := x
    cases e with
    | leading =>
      have hne : (⟨n, .leading⟩ : Iter) ≠ root t := by
        intro he
        simp only [root, Iter.mk.injEq, and_true] at he
        subst he
        exact R.end_notin .leading (by simp)
      have e1 : nextEdge .leading t (⟨n, .leading⟩ :: b) = ⟨n, .leading⟩ := by simp [nextEdge]
      rw [e1, edgeDistance]
      simp [hne, edgeIncr_eq R, ih R', nodes_cons_leading]
    | trailing =>
      have e1 : nextEdge .leading t (⟨n, .trailing⟩ :: b) = nextEdge .leading t b := by simp [nextEdge]
      rw [e1, nodes_cons_trailing]
      exact ih R'

/-- `size()` returns the number of nodes and leaves everything as it was (it may fill the cache). -/
theorem size_refines {W : World T} {A : AState T} (I : Inv W A) (hw : A.words t = some w) :
    ∃ W', size W t = some (W', (nodes w).length) ∧ Inv W' A ∧ W'.heap = W.heap ∧
      W'.size t = (nodes w).length ∧ ∀ q, q ≠ t → W'.size q = W.size q := by
  have R := I.rep t w hw
  have hs := I.size t w hw
  by_cases hv : W.size t ≠ 0 ∨ w = []
  · refine ⟨W, ?_, I, rfl, ?_, fun _ _ => rfl⟩
    · simp only [size, sizeValid_eq R, hv, decide_true, Option.bind_eq_bind, Option.bind_some, if_true]
      have : W.size t = (nodes w).length := by
        rcases hv with hv | rfl
        · omega
        · simp [nodes] at hs ⊢; exact hs
      rw [this]; rfl
    · rcases hv with hv | rfl
      · omega
      · simp [nodes] at hs ⊢; exact hs
  · have R0 : Rep W.heap t ([] ++ w) := by simpa using R
    have Re : Rep W.heap t (w ++ []) := by simpa using R
    have hl : findEdge W.heap (end_ t) .leading = some (root t) := by
      have := findEdge_eq (e := .leading) Re
      rw [posOf_nil] at this
      simpa [nextEdge, root] using this
    refine ⟨W.setSize t (nodes w).length, ?_, ?_, rfl, by simp [World.setSize], ?_⟩
    · simp only [size, sizeValid_eq R, hv, decide_false, Option.bind_eq_bind, Option.bind_some,
        R.begin_posOf, findEdge_eq R0, hl, edgeDistance_eq R0]
      rfl
    · refine ⟨I.rep, ?_, I.disj, I.noleak, I.val⟩
      intro q v hq
      by_cases hqt : q = t
      · subst hqt
        rw [hw] at hq; simp only [Option.some.injEq] at hq; subst hq
        right; simp [World.setSize]
      · have := I.size q v hq
        simpa [World.setSize, hqt] using this
    · intro q hq; simp [World.setSize, hq]

end Verif.Forest
