import Verif.Forest.Word

/-! # Navigation: `++` and `--` follow the word -/

namespace Verif.Forest

variable {T : Type} {h : Heap T} {t : Ptr} {w : List Iter}

theorem Iter.eta (x : Iter) : (⟨x.node, x.edge⟩ : Iter) = x := rfl

theorem Rep.linked (R : Rep h t w) {a b : List Iter} {x y : Iter}
    (hc : closed t w = a ++ x :: y :: b) : Linked h x y := by
  have := R.chain
  rw [hc] at this
  rw [List.isChain_append] at this
  have h2 := this.2.1
  rw [List.isChain_cons_cons] at h2
  exact h2.1

theorem disjoint_of_nodup {α : Type*} {a b : List α} (h : (a ++ b).Nodup) {z : α} (h1 : z ∈ a)
    (h2 : z ∈ b) : False :=
  (List.disjoint_of_nodup_append h) h1 h2

theorem mem_of_node_eq {c : List Iter} {n : Ptr} (h1 : (⟨n, .leading⟩ : Iter) ∈ c)
    (h2 : (⟨n, .trailing⟩ : Iter) ∈ c) {z : Iter} (hz : z.node = n) : z ∈ c := by
  obtain ⟨m, e⟩ := z
  simp only at hz
  subst hz
  cases e <;> assumption

theorem Rep.incr_adj (R : Rep h t w) {a b : List Iter} {x y : Iter}
    (hc : closed t w = a ++ x :: y :: b) : incr h x = some y := by
  have hl := R.linked hc
  have hB : Balanced (closed t w) := R.balanced.closed
  have hN := R.nodup
  obtain ⟨hl1, hl2⟩ := hl
  obtain ⟨n, e⟩ := x
  obtain ⟨m, f⟩ := y
  simp only at hl1 hl2
  cases e with
  | leading =>
    simp only [incr, hl1, Option.bind_eq_bind, Option.bind_some, if_true]
    cases f with
    | leading =>
      have : m ≠ n := by
        rintro rfl
        rw [hc] at hN; simpa using hN.of_append_right
      simp [Edge.ofBool, this]
    | trailing =>
      rw [hc] at hB
      have := hB.adj_leaf
      simp [Edge.ofBool, this]
  | trailing =>
    simp only [incr, hl1, Option.bind_eq_bind, Option.bind_some]
    cases f with
    | leading =>
      simp [hl2, Edge.ofBool]
    | trailing =>
      rw [hc] at hB hN
      obtain ⟨a1, c, h1, h2, h3⟩ := hB.adj_trailing hN
      have hc' : closed t w = a1 ++ ⟨m, .leading⟩ :: (c ++ ⟨m, .trailing⟩ :: b) := by
        rw [hc]
        have : a ++ ({ node := n, edge := .trailing } : Iter) :: ⟨m, .trailing⟩ :: b =
          (a ++ [⟨n, .trailing⟩]) ++ ⟨m, .trailing⟩ :: b := by simp
        rw [this, h1]; simp
      have hN' : (a1 ++ ⟨m, .leading⟩ :: (c ++ ⟨m, .trailing⟩ :: b)).Nodup := by
        rw [← hc']; exact R.nodup
      rcases List.eq_nil_or_concat a1 with rfl | ⟨a1', z, rfl⟩
      · have hm : m = t := by
          simp only [closed, List.nil_append, List.cons.injEq, Iter.mk.injEq] at hc'
          exact hc'.1.1.symm
        subst hm
        have hw := R.wrap.2
        simp only at hw
        have hnt : m ≠ n := by
          rintro rfl
          simp only [List.nil_append, List.nodup_cons, List.mem_append] at hN'
          exact hN'.1 (Or.inl h2)
        simp [hw, Edge.ofBool, hnt]
      · have hz := R.linked (a := a1') (x := z) (y := ⟨m, .leading⟩)
          (b := c ++ ⟨m, .trailing⟩ :: b) (by rw [hc']; simp)
        have hzn : z.node ≠ n := by
          intro hzn
          have hzc := mem_of_node_eq h2 h3 hzn
          exact disjoint_of_nodup hN' (z := z) (by simp) (by simp [hzc])
        have := hz.2
        simp only at this
        simp [this, Edge.ofBool, hzn]

theorem Rep.decr_adj (R : Rep h t w) {a b : List Iter} {x y : Iter}
    (hc : closed t w = a ++ x :: y :: b) : decr h y = some x := by
  have hl := R.linked hc
  have hB : Balanced (closed t w) := R.balanced.closed
  have hN := R.nodup
  obtain ⟨hl1, hl2⟩ := hl
  obtain ⟨n, e⟩ := x
  obtain ⟨m, f⟩ := y
  simp only at hl1 hl2
  cases f with
  | trailing =>
    simp only [decr, hl2, Option.bind_eq_bind, Option.bind_some]
    cases e with
    | leading =>
      rw [hc] at hB
      have := hB.adj_leaf
      simp [Edge.ofBool, this]
    | trailing =>
      have : n ≠ m := by
        rintro rfl
        rw [hc] at hN; simpa using hN.of_append_right
      simp [Edge.ofBool, this]
  | leading =>
    simp only [decr, hl2, Option.bind_eq_bind, Option.bind_some]
    cases e with
    | trailing => simp [hl1, Edge.ofBool]
    | leading =>
      rw [hc] at hB hN
      obtain ⟨c, b1, h1, h2, h3⟩ := hB.adj_leading hN
      have hc' : closed t w = a ++ ⟨n, .leading⟩ :: (c ++ ⟨n, .trailing⟩ :: b1) := by
        rw [hc, h1]
      have hN' : (a ++ ⟨n, .leading⟩ :: (c ++ ⟨n, .trailing⟩ :: b1)).Nodup := by
        rw [← hc']; exact R.nodup
      cases b1 with
      | nil =>
        have hn : n = t := by
          have he : ⟨t, .leading⟩ :: w ++ [⟨t, .trailing⟩] =
              (a ++ ⟨n, .leading⟩ :: c) ++ [(⟨n, .trailing⟩ : Iter)] := by
            have := hc'
            simp only [closed] at this
            simpa using this
          have := (List.append_inj' he rfl).2
          simp only [List.cons.injEq, Iter.mk.injEq, and_true] at this
          exact this.symm
        subst hn
        have hw := R.wrap.1
        simp only at hw
        have hnm : n ≠ m := by
          rintro rfl
          exact disjoint_of_nodup (a := a ++ [⟨n, .leading⟩]) (b := c ++ [⟨n, .trailing⟩])
            (by simpa using hN') (z := ⟨n, .leading⟩) (by simp) (by simp [h2])
        simp [hw, Edge.ofBool, hnm]
      | cons z b1 =>
        have hz := R.linked (a := a ++ ⟨n, .leading⟩ :: c) (x := ⟨n, .trailing⟩) (y := z)
          (b := b1) (by rw [hc']; simp)
        have hzn : z.node ≠ m := by
          intro hzn
          have hzc := mem_of_node_eq h2 h3 hzn
          exact disjoint_of_nodup (a := a ++ ⟨n, .leading⟩ :: c) (b := ⟨n, .trailing⟩ :: z :: b1)
            (by simpa using hN') (z := z) (by simp [hzc]) (by simp)
        have := hz.1
        simp only at this
        simp [this, Edge.ofBool, hzn]

/-- `++end()` is `root()`. -/
theorem Rep.incr_end (R : Rep h t w) : incr h (end_ t) = some (root t) := by
  obtain ⟨h1, h2⟩ := R.wrap
  simp only at h1 h2
  simp [incr, end_, root, h1, h2, Edge.ofBool]

/-- `--root()` is `end()`. -/
theorem Rep.decr_root (R : Rep h t w) : decr h (root t) = some (end_ t) := by
  obtain ⟨h1, h2⟩ := R.wrap
  simp only at h1 h2
  simp [decr, end_, root, h1, h2, Edge.ofBool]

/-- Successor within the word, `end()` included. -/
theorem Rep.incr_word (R : Rep h t w) {a b : List Iter} {x y : Iter}
    (hc : w ++ [end_ t] = a ++ x :: y :: b) : incr h x = some y :=
  R.incr_adj (a := ⟨t, .leading⟩ :: a) (b := b) (by simp only [closed]; rw [show (⟨t, .trailing⟩ : Iter) = end_ t from rfl, hc]; simp)

theorem Rep.decr_word (R : Rep h t w) {a b : List Iter} {x y : Iter}
    (hc : w ++ [end_ t] = a ++ x :: y :: b) : decr h y = some x :=
  R.decr_adj (a := ⟨t, .leading⟩ :: a) (b := b) (by simp only [closed]; rw [show (⟨t, .trailing⟩ : Iter) = end_ t from rfl, hc]; simp)

/-- `begin()` is the first position, or `end()`. -/
theorem Rep.begin_eq (R : Rep h t w) : begin_ h t = (w ++ [end_ t]).head? := by
  cases w with
  | nil =>
    simp only [List.nil_append, List.head?_cons]
    exact R.incr_adj (a := []) (b := []) rfl
  | cons x w =>
    simp only [List.cons_append, List.head?_cons]
    exact R.incr_adj (a := []) (b := w ++ [end_ t]) rfl

theorem Rep.end_notin (R : Rep h t w) (e : Edge) : (⟨t, e⟩ : Iter) ∉ w := by
  intro hm
  have := R.balanced.mem_edge hm .leading
  have hN := R.nodup
  simp only [closed, List.nodup_cons, List.mem_append] at hN
  exact hN.1 (Or.inl this)

theorem Rep.nodup_word (R : Rep h t w) : w.Nodup := by
  have hN := R.nodup
  simp only [closed, List.nodup_cons] at hN
  exact hN.2.of_append_left

theorem Rep.isEmpty_eq (R : Rep h t w) : isEmpty h t = some w.isEmpty := by
  simp only [isEmpty, R.begin_eq]
  cases w with
  | nil => simp
  | cons x w =>
    have := R.end_notin .trailing
    simp only [List.mem_cons, not_or] at this
    simp [end_]
    exact fun hx => this.1 hx.symm

end Verif.Forest
