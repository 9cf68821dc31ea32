import Verif.Forest.Props1

/-! # What `forest::reverse` does to any range of siblings -/

namespace Verif.Forest

variable {T : Type} {h h1 h2 : Heap T} {t : Ptr}

/-- The position reached after `n` increments. -/
def advance (h : Heap T) : Nat → Iter → Option Iter
  | 0, x => some x
  | n + 1, x => (incr h x).bind (advance h n)

/-- A full order traversal of forest `t` that goes on for ever comes to `y`. -/
def Visits (W : World T) (t : Ptr) (y : Iter) : Prop := ∃ n, advance W.heap n (root t) = some y

theorem advance_closed {G : Iter → Prop} (hG : ∀ x, G x → ∀ y, incr h x = some y → G y) {n : Nat} {x y : Iter} (hx : G x)
    (hy : advance h n x = some y) : G y := by
  induction n generalizing x with
  | zero => simp only [advance, Option.some.injEq] at hy; exact hy ▸ hx
  | succ n ih =>
    simp only [advance, Option.bind_eq_some_iff] at hy
    obtain ⟨z, hz, hy⟩ := hy
    exact ih (hG x hx z hz) hy

theorem walk_visits {e : Iter} {l : List Iter} {x : Iter} (hw : walk iterEq (incr h) x e = some l) {y : Iter} (hy : y ∈ l) :
    ∃ n, advance h n x = some y := by
  induction l generalizing x with
  | nil => simp at hy
  | cons z l ih =>
    rw [walk] at hw
    split at hw
    · simp at hw
    · simp only [Option.bind_eq_bind, Option.bind_eq_some_iff, Option.pure_def, Option.some.injEq, List.cons.injEq] at hw
      obtain ⟨n, hn, r, hr, rfl, rfl⟩ := hw
      simp only [List.mem_cons] at hy
      rcases hy with rfl | hy
      · exact ⟨0, rfl⟩
      · obtain ⟨k, hk⟩ := ih hr hy
        exact ⟨k + 1, by simp [advance, hn, hk]⟩

theorem order_visits {W : World T} {w : List Iter} (ho : order W t = some w) {y : Iter} (hy : y ∈ w) : Visits W t y := by
  simp only [order, Option.bind_eq_bind, Option.bind_eq_some_iff] at ho
  obtain ⟨b, hb, hw⟩ := ho
  obtain ⟨n, hn⟩ := walk_visits hw hy
  have hb : incr W.heap (root t) = some b := hb
  exact ⟨n + 1, by simp [advance, hb, hn]⟩

/-- `incr` only reads the next link of the position and the prior link of a leading edge. -/
theorem incr_congr {x : Iter} (hn : h1.link x.node x.edge .next = h.link x.node x.edge .next)
    (hp : ∀ p, h.link x.node x.edge .next = some p → x.edge = .trailing → h1.link p .leading .prior = h.link p .leading .prior) :
    incr h1 x = incr h x := by
  simp only [incr, hn]
  cases e : h.link x.node x.edge .next with
  | none => rfl
  | some p =>
    simp only [Option.bind_eq_bind, Option.bind_some]
    split
    · rfl
    · rename_i hx
      rw [hp p e (by cases he : x.edge with | leading => exact absurd he hx | trailing => rfl)]

theorem pivot_ne (q : Iter) : q.pivot ≠ q := by
  obtain ⟨n, e⟩ := q
  cases e <;> simp [Iter.pivot, Edge.pivot]

theorem Rep.not_in {a S c : List Iter} (R : Rep h t (a ++ (S ++ c))) (hS : Balanced S) {x y : Iter} (hx : x ∈ S)
    (hy : y ∈ closed t (a ++ c)) : x.node ≠ y.node := fun he =>
  seg_notin R hS x hx (mem_support_closed.mpr ⟨y, hy, he.symm⟩)

/-- The heap with the first node after the range, or the parent, tied to itself. -/
theorem Rep.tieAt {a S c : List Iter} (R : Rep h t (a ++ (S ++ c))) :
    ∃ h1, setNext h (posOf t c).pivot (posOf t c) = some h1 ∧ NextEff h h1 (posOf t c).pivot (posOf t c) ∧
      setNext h1 (posOf t c).pivot (posOf t c) = some h1 := by
  have hym : posOf t c ∈ closed t (a ++ (S ++ c)) := by
    rw [← List.append_assoc]; exact posOf_mem _ c
  obtain ⟨h1, hs, E⟩ := setNext_spec (x := (posOf t c).pivot) (y := posOf t c)
    (R.isSome hym :) (R.isSome hym)
  exact ⟨h1, hs, E, setNext_linked E.linked⟩

theorem NextEff.isSome {x y : Iter} (E : NextEff h h1 x y) {p : Ptr} (hp : (h p).isSome) : (h1 p).isSome := by
  obtain ⟨n, hn⟩ := Option.isSome_iff_exists.mp hp
  exact isSome_of_data (v := n.data) (by rw [E.data]; simp [dataOf, hn])

/-- After the two kinds of `set_next`, nothing in the range is visited. -/
theorem Rep.lost {a S c : List Iter} (R : Rep h t (a ++ (S ++ c))) (hS : Balanced S)
    (E : NextEff h h1 (posOf t c).pivot (posOf t c)) (hs : setNext h1 (priorOf t a) (posOf t c) = some h2) (W : World T) :
    ∀ y ∈ S, ¬ Visits { W with heap := h2 } t y := by
  obtain ⟨h', -, E', R', -⟩ := R.cut hS
  have hx : (h1 (priorOf t a).node).isSome := E.isSome (R.isSome (priorOf_mem a (S ++ c)))
  have hy : (h1 (posOf t c).node).isSome := by
    have hym : posOf t c ∈ closed t (a ++ (S ++ c)) := by rw [← List.append_assoc]; exact posOf_mem _ c
    exact E.isSome (R.isSome hym)
  obtain ⟨h2', hs', E2⟩ := setNext_spec hx hy
  rw [hs] at hs'; cases hs'
  have hpr : ∀ r : Iter, h2.link r.node r.edge .prior = h'.link r.node r.edge .prior := by
    intro r
    by_cases hr : r = posOf t c
    · subst hr; rw [E2.prior_y, E'.prior_y]
    · rw [E2.prior_other r hr, E'.prior_other r hr, E.prior_other r hr]
  have hnx : ∀ r : Iter, r ≠ (posOf t c).pivot → h2.link r.node r.edge .next = h'.link r.node r.edge .next := by
    intro r hq
    by_cases hr : r = priorOf t a
    · subst hr; rw [E2.next_x, E'.next_x]
    · rw [E2.next_other r hr, E'.next_other r hr, E.next_other r hq]
  have hnq : h2.link (posOf t c).node (posOf t c).edge.pivot .next = some (posOf t c).node := by
    by_cases hr : (posOf t c).pivot = priorOf t a
    · have := E2.next_x; rw [← hr] at this; exact this
    · have := E2.next_other _ hr; rw [E.next_x] at this; exact this
  have hB : Balanced (closed t (a ++ c)) := R'.balanced.closed
  have hG : ∀ x, x ∈ closed t (a ++ c) → ∀ y, incr h2 x = some y → y ∈ closed t (a ++ c) := by
    intro x hx y hy
    by_cases hq : x = (posOf t c).pivot
    · have : y.node = (posOf t c).node := by
        subst hq
        have e : h2.link (posOf t c).pivot.node (posOf t c).pivot.edge .next = some (posOf t c).node := hnq
        simp only [incr, e, Option.bind_eq_bind, Option.bind_some] at hy
        split at hy
        · simp only [Option.pure_def, Option.some.injEq] at hy; subst hy; rfl
        · simp only [Option.bind_eq_some_iff, Option.pure_def, Option.some.injEq] at hy
          obtain ⟨_, -, rfl⟩ := hy; rfl
      have hm := hB.mem_edge (posOf_mem a c) y.edge
      rw [← this] at hm; exact hm
    · have he : incr h2 x = incr h' x := incr_congr (hnx x hq) fun p _ _ => hpr ⟨p, .leading⟩
      rw [he] at hy
      rcases List.append_of_mem hx with ⟨A, B, hAB⟩
      cases B with
      | nil =>
        have : x = end_ t := by
          have e : closed t (a ++ c) = (root t :: (a ++ c)) ++ [end_ t] := by simp [closed, root, end_]
          rw [e] at hAB
          have := (List.append_inj' hAB rfl).2
          simpa using this.symm
        subst this
        rw [R'.incr_end] at hy; cases hy
        simp [closed, root]
      | cons z B =>
        rw [R'.incr_adj hAB] at hy; cases hy
        rw [hAB]; simp
  rintro y hy ⟨n, hn⟩
  exact R.not_in hS hy (advance_closed (G := (· ∈ closed t (a ++ c))) hG (by simp [closed, root]) hn) rfl

/-- The loop, once the first node has been passed, for a range that ends with the last sibling. -/
theorem reverseAppend_last {a S c : List Iter} {ns : List Ptr} (hr : Roots S ns) (R : Rep h t (a ++ (S ++ c)))
    (E : NextEff h h1 (posOf t c).pivot (posOf t c)) (hq : (posOf t c).edge = .trailing)
    (hi : setNext h1 (posOf t c).pivot (posOf t c) = some h1) :
    reverseAppend h1 (posOf t (S ++ c)) (posOf t c) (posOf t c) = some (h1, posOf t c) := by
  induction hr generalizing a with
  | nil => rw [reverseAppend]; simp
  | @cons m b d ns hb hr ih =>
    have R1 : Rep h t ((a ++ (⟨m, .leading⟩ :: (b ++ [⟨m, .trailing⟩]))) ++ (d ++ c)) := by simpa using R
    have hS : Balanced (⟨m, .leading⟩ :: (b ++ [⟨m, .trailing⟩])) := Balanced.cons m hb .nil
    have R2 : Rep h t (a ++ ((⟨m, .leading⟩ :: (b ++ [⟨m, .trailing⟩])) ++ (d ++ c))) := by simpa using R
    have hin := R1.incr_split
    rw [show a ++ (⟨m, .leading⟩ :: (b ++ [⟨m, .trailing⟩])) = (a ++ (⟨m, .leading⟩ :: b)) ++ [⟨m, .trailing⟩] by simp, priorOf_concat] at hin
    have hm : m ≠ (posOf t c).node := by
      refine R2.not_in hS (x := ⟨m, .leading⟩) (by simp) ?_
      rw [← List.append_assoc]; exact posOf_mem _ c
    have hci : childIncr h1 ⟨m, .leading⟩ = some (posOf t (d ++ c)) := by
      rw [← hin]
      refine incr_congr (x := ⟨m, .trailing⟩) (E.next_other ⟨m, .trailing⟩ ?_) fun p _ _ => E.prior_other ⟨p, .leading⟩ ?_
      · intro he; exact hm (congrArg Iter.node he)
      · intro he; rw [← he] at hq; cases hq
    have hne : (⟨m, .leading⟩ : Iter) ≠ posOf t c := fun he => hm (congrArg Iter.node he)
    have hs : childSetNext h1 (posOf t c) (posOf t c) = some h1 := hi
    simp only [List.cons_append, List.append_assoc, posOf_cons]
    rw [reverseAppend]
    simp only [hne, if_false, hci, hs, Option.bind_eq_bind, Option.bind_some]
    exact ih (a := a ++ (⟨m, .leading⟩ :: (b ++ [⟨m, .trailing⟩]))) (by simpa using R)

theorem closes_at {w : List Iter} (hB : Balanced w) (hN : w.Nodup) {A C : List Iter} {m : Ptr} (hw : w = A ++ ⟨m, .leading⟩ :: C) :
    ∃ b c, C = b ++ ⟨m, .trailing⟩ :: c ∧ Balanced b := by
  obtain ⟨a1, b, c, he, hb⟩ := hB.split (n := m) (e := .leading) (by rw [hw]; simp)
  rw [hw] at he hN
  obtain ⟨-, h2⟩ := append_cons_inj hN he
  exact ⟨b, c, h2, hb⟩

/-- The iterators the loop goes through when the range does not end with the last sibling: once the node `m` after the range has
been tied to itself, going on from the last node of the range leads to the trailing edge of `m`, and from there to its children. -/
inductive Stuck (w : List Iter) (m : Ptr) : Iter → Prop where
  | trailing : Stuck w m ⟨m, .trailing⟩
  | node {a b d c : List Iter} {k : Ptr} {e : Edge} {ns : List Ptr} (hb : Balanced b) (hd : Roots d ns)
      (hw : w = a ++ (⟨k, .leading⟩ :: (b ++ ⟨k, .trailing⟩ :: (d ++ ⟨m, e⟩ :: c)))) : Stuck w m ⟨k, .leading⟩

theorem Stuck.roots {w a d c : List Iter} {m : Ptr} {e : Edge} {ns : List Ptr} (hd : Roots d ns) (hw : w = a ++ (d ++ ⟨m, e⟩ :: c)) :
    d = [] ∨ Stuck w m (posOf t (d ++ ⟨m, e⟩ :: c)) := by
  cases hd with
  | nil => exact .inl rfl
  | @cons k b d ns hb hd =>
    right
    simp only [List.cons_append, List.append_assoc, posOf_cons]
    exact .node hb hd (by simpa using hw)

theorem Stuck.next {w a c : List Iter} {m : Ptr} (R : Rep h t w) (hw : w = a ++ (⟨m, .leading⟩ :: c))
    (E : NextEff h h1 ⟨m, .trailing⟩ ⟨m, .leading⟩) {x : Iter} (hx : Stuck w m x) :
    x ≠ ⟨m, .leading⟩ ∧ ∃ y, childIncr h1 x = some y ∧ Stuck w m y := by
  obtain ⟨b0, c0, rfl, hb0⟩ := closes_at R.balanced R.nodup_word hw
  cases hx with
  | trailing =>
    refine ⟨by simp, ?_⟩
    have e : childIncr h1 ⟨m, .trailing⟩ = some (posOf t (b0 ++ ⟨m, .trailing⟩ :: c0)) := by
      have R1 : Rep h t ((a ++ [⟨m, .leading⟩]) ++ (b0 ++ ⟨m, .trailing⟩ :: c0)) := by rw [hw] at R; simpa using R
      have hi := R1.incr_split
      rw [priorOf_concat] at hi
      rw [← hi]
      exact incr_congr (x := ⟨m, .leading⟩) (E.next_other ⟨m, .leading⟩ (by simp)) (fun _ _ he => by cases he)
    refine ⟨_, e, ?_⟩
    obtain ⟨ns, hr⟩ := hb0.roots
    rcases Stuck.roots (t := t) (a := a ++ [⟨m, .leading⟩]) (e := .trailing) (m := m) (c := c0) (w := w) hr (by simp [hw]) with rfl | h
    · exact .trailing
    · exact h
  | @node a' b d c' k e ns hb hd hw' =>
    have hkm : k ≠ m := by
      rintro rfl
      have hN := R.nodup_word
      rw [hw'] at hN
      cases e <;> simp [List.nodup_append] at hN
    refine ⟨by simp [hkm], ?_⟩
    have R1 : Rep h t ((a' ++ (⟨k, .leading⟩ :: b) ++ [⟨k, .trailing⟩]) ++ (d ++ ⟨m, e⟩ :: c')) := by rw [hw'] at R; simpa using R
    have hi := R1.incr_split
    rw [priorOf_concat] at hi
    have hnx : h1.link k .trailing .next = h.link k .trailing .next := E.next_other ⟨k, .trailing⟩ (by simp [hkm])
    cases hd with
    | nil =>
      refine ⟨⟨m, .trailing⟩, ?_, .trailing⟩
      simp only [List.nil_append, posOf_cons] at hi
      have hl : h.link k .trailing .next = some m := by
        simp only [incr, Option.bind_eq_bind, Option.bind_eq_some_iff, reduceCtorEq, if_false] at hi
        obtain ⟨p, hp, q, hq, he⟩ := hi
        rw [hp, show p = m from congrArg Iter.node (Option.some.inj he)]
      have hpm : h1.link m .leading .prior = some m := E.prior_y
      simp [childIncr, Iter.pivot, Edge.pivot, incr, hnx, hl, hpm, Edge.ofBool, Ne.symm hkm]
    | @cons k' b' d' ns hb' hd' =>
      have hkm' : k' ≠ m := by
        rintro rfl
        have hN := R.nodup_word
        rw [hw'] at hN
        cases e <;> simp [List.nodup_append] at hN
      simp only [List.cons_append, List.append_assoc, posOf_cons] at hi
      refine ⟨⟨k', .leading⟩, ?_, .node (a := a' ++ (⟨k, .leading⟩ :: (b ++ [⟨k, .trailing⟩]))) (e := e) (c := c') hb' hd'
        (by rw [hw']; simp)⟩
      show incr h1 ⟨k, .trailing⟩ = _
      rw [← hi]
      refine incr_congr (x := ⟨k, .trailing⟩) hnx fun p hp _ => E.prior_other ⟨p, .leading⟩ ?_
      intro he
      have hpm : p = m := congrArg Iter.node he
      subst hpm
      simp only [incr, Option.bind_eq_bind, Option.bind_eq_some_iff, reduceCtorEq, if_false] at hi
      obtain ⟨p', hp', q, hq, he⟩ := hi
      rw [hp] at hp'; cases hp'
      exact hkm' (congrArg Iter.node (Option.some.inj he)).symm

/-- The loop never ends. -/
theorem reverseAppend_stuck {w a c : List Iter} {m : Ptr} (R : Rep h t w) (hw : w = a ++ (⟨m, .leading⟩ :: c))
    (E : NextEff h h1 ⟨m, .trailing⟩ ⟨m, .leading⟩) {x : Iter} (hx : Stuck w m x) :
    reverseAppend h1 x ⟨m, .leading⟩ ⟨m, .leading⟩ = none := by
  have hi : setNext h1 ⟨m, .trailing⟩ ⟨m, .leading⟩ = some h1 := setNext_linked E.linked
  cases he : reverseAppend h1 x ⟨m, .leading⟩ ⟨m, .leading⟩ with
  | none => rfl
  | some r =>
    exfalso
    refine reverseAppend.partial_correctness (T := T) ⟨m, .leading⟩ ⟨m, .leading⟩ (fun g x _ => g = h1 → Stuck w m x → False)
      ?_ _ _ _ he rfl hx
    intro f ih g x r hr hg hs
    subst hg
    obtain ⟨hne, y, hy, hs'⟩ := hs.next R hw E
    have hc : childSetNext g ⟨m, .leading⟩ ⟨m, .leading⟩ = some g := hi
    simp only [hne, if_false, hy, hc, Option.bind_eq_bind, Option.bind_some] at hr
    exact ih _ _ _ hr rfl hs'

/-- One round of the loop. -/
theorem reverse_first {W : World T} {a b d c : List Iter} {n : Ptr} (R : Rep W.heap t (a ++ (⟨n, .leading⟩ :: (b ++ ⟨n, .trailing⟩ :: (d ++ c)))))
    (hb : Balanced b) (hd : Balanced d) :
    ∃ h1, NextEff W.heap h1 (posOf t c).pivot (posOf t c) ∧ setNext h1 (posOf t c).pivot (posOf t c) = some h1 ∧
      reverse W ⟨n, .leading⟩ (posOf t c) =
        (reverseAppend h1 (posOf t (d ++ c)) (posOf t c) (posOf t c)).bind fun r =>
          (setNext r.1 (priorOf t a) r.2).map fun h => { W with heap := h } := by
  have hS : Balanced (⟨n, .leading⟩ :: (b ++ ⟨n, .trailing⟩ :: d)) := Balanced.cons n hb hd
  have R0 : Rep W.heap t (a ++ ((⟨n, .leading⟩ :: (b ++ ⟨n, .trailing⟩ :: d)) ++ c)) := by simpa using R
  obtain ⟨h1, hs, E, hi⟩ := R0.tieAt
  refine ⟨h1, E, hi, ?_⟩
  have hdc := R.decr_split
  rw [posOf_cons] at hdc
  have R1 : Rep W.heap t ((a ++ (⟨n, .leading⟩ :: b) ++ [⟨n, .trailing⟩]) ++ (d ++ c)) := by simpa using R
  have hci := R1.incr_split
  rw [priorOf_concat] at hci
  have hci : childIncr W.heap ⟨n, .leading⟩ = some (posOf t (d ++ c)) := hci
  have hcs : childSetNext W.heap (posOf t c) (posOf t c) = some h1 := hs
  have hne : (⟨n, .leading⟩ : Iter) ≠ posOf t c := by
    intro he
    exact R0.not_in hS (x := ⟨n, .leading⟩) (y := posOf t c) (by simp) (posOf_mem _ _) (congrArg Iter.node he)
  simp only [reverse, hdc, Option.bind_eq_bind, Option.bind_some]
  rw [reverseAppend]
  simp only [hne, if_false, hci, hcs, Option.bind_eq_bind, Option.bind_some]
  congr 1
  funext r
  cases setNext r.1 (priorOf t a) r.2 <;> rfl

/-- The loop, if it ends: nothing but the first `set_next` has been done. -/
theorem reverseAppend_end {a d c : List Iter} {ns : List Ptr} (hd : Roots d ns) (R : Rep h t (a ++ (d ++ c)))
    (E : NextEff h h1 (posOf t c).pivot (posOf t c)) (hi : setNext h1 (posOf t c).pivot (posOf t c) = some h1) {r : Heap T × Iter}
    (hr : reverseAppend h1 (posOf t (d ++ c)) (posOf t c) (posOf t c) = some r) : r = (h1, posOf t c) := by
  by_cases hq : (posOf t c).edge = .trailing
  · rw [reverseAppend_last hd R E hq hi] at hr; cases hr; rfl
  · cases hd with
    | nil => rw [reverseAppend] at hr; simp at hr; exact hr.symm
    | @cons k b d ns hb hd =>
      cases c with
      | nil => exact absurd rfl hq
      | cons q c =>
        obtain ⟨m, e⟩ := q
        simp only [posOf_cons] at hq
        cases e with
        | trailing => exact absurd rfl hq
        | leading =>
          have := reverseAppend_stuck (w := _) (m := m) (c := c) R (a := a ++ (⟨k, .leading⟩ :: (b ++ ⟨k, .trailing⟩ :: d))) (by simp) E
            (x := ⟨k, .leading⟩) (.node (a := a) (e := .leading) (c := c) hb hd (by simp))
          simp only [List.cons_append, posOf_cons] at hr
          rw [this] at hr; cases hr

/-- C08, every non-empty range of siblings: if `reverse` returns, none of the nodes of the range is visited by traversal any more,
though they stay allocated. -/
theorem c08_lost_counterexample {W : World T} (hW : Reachable W) (hf : IsForest W t) {a S c : List Iter}
    (ho : order W t = some (a ++ (S ++ c))) (hS : Balanced S) (hne : S ≠ []) {W' : World T}
    (hr : reverse W (posOf t (S ++ c)) (posOf t c) = some W') :
    (∀ y ∈ S, ¬ Visits W' t y ∧ W'.heap y.node ≠ none) ∧ ∀ w', order W' t = some w' → ∀ y ∈ S, y ∉ w' := by
  obtain ⟨A, I⟩ := hW.inv
  have R := I.rep t _ (I.words_of_order hf ho)
  obtain ⟨ns, hroots⟩ := hS.roots
  cases hroots with
  | nil => exact absurd rfl hne
  | @cons n b d ns hb hd =>
    have hdB : Balanced d := hd.balanced
    obtain ⟨h1, E, hi, he⟩ := reverse_first (W := W) (t := t) (a := a) (b := b) (d := d) (c := c) (n := n) (by simpa using R) hb hdB
    simp only [List.cons_append, posOf_cons] at hr
    rw [he] at hr
    simp only [Option.bind_eq_some_iff, Option.map_eq_some_iff] at hr
    obtain ⟨r, hr, h2, hs, rfl⟩ := hr
    have R1 : Rep W.heap t ((a ++ (⟨n, .leading⟩ :: (b ++ [⟨n, .trailing⟩]))) ++ (d ++ c)) := by simpa using R
    have := reverseAppend_end hd R1 E hi hr
    subst this
    have hl := R.lost hS E hs W
    refine ⟨fun y hy => ⟨hl y hy, ?_⟩, fun w' hw' y hy hm => hl y hy (order_visits hw' hm)⟩
    have h0 := R.isSome (x := y) (by simp only [closed, List.mem_cons, List.mem_append] at hy ⊢; tauto)
    have hx : (h1 (priorOf t a).node).isSome := E.isSome (R.isSome (priorOf_mem a _))
    have hq : (h1 (posOf t c).node).isSome := E.isSome (R.isSome (by rw [← List.append_assoc]; exact posOf_mem _ c))
    obtain ⟨h2', hs', E2⟩ := setNext_spec hx hq
    rw [hs] at hs'; cases hs'
    have := E2.isSome (E.isSome h0)
    intro hn
    simp only at hn
    rw [hn] at this; cases this

/-- C08: `reverse` of two or more siblings that are not the last ones never returns. -/
theorem c08_hangs_counterexample {W : World T} (hW : Reachable W) (hf : IsForest W t) {a S c : List Iter} {n k m : Ptr} {ns : List Ptr}
    (ho : order W t = some (a ++ (S ++ ⟨m, .leading⟩ :: c))) (hS : Roots S (n :: k :: ns)) :
    reverse W ⟨n, .leading⟩ ⟨m, .leading⟩ = none := by
  obtain ⟨A, I⟩ := hW.inv
  have R := I.rep t _ (I.words_of_order hf ho)
  cases hS with
  | @cons _ b d _ hb hd =>
    obtain ⟨h1, E, hi, he⟩ := reverse_first (W := W) (t := t) (a := a) (b := b) (d := d) (c := ⟨m, .leading⟩ :: c) (n := n) (by simpa using R)
      hb hd.balanced
    simp only [posOf_cons] at he E
    rw [he]
    cases hd with
    | @cons _ b' d' _ hb' hd' =>
      have := reverseAppend_stuck (w := _) (m := m) (c := c) R (a := a ++ (⟨n, .leading⟩ :: (b ++ ⟨n, .trailing⟩ :: ⟨k, .leading⟩ :: (b' ++ ⟨k, .trailing⟩ :: d'))))
        (by simp) E (x := ⟨k, .leading⟩) (.node (a := a ++ (⟨n, .leading⟩ :: (b ++ [⟨n, .trailing⟩]))) (e := .leading) (c := c) hb' hd' (by simp))
      simp only [List.cons_append, posOf_cons, this, Option.bind_none]

/-- C08: `reverse` of one node, or of siblings up to the last, returns. -/
theorem c08_returns_counterexample {W : World T} (hW : Reachable W) (hf : IsForest W t) {a S c : List Iter} {n : Ptr} {ns : List Ptr}
    (ho : order W t = some (a ++ (S ++ c))) (hS : Roots S (n :: ns)) (hc : (posOf t c).edge = .trailing ∨ ns = []) :
    ∃ W', reverse W ⟨n, .leading⟩ (posOf t c) = some W' ∧ ∀ y ∈ S, ¬ Visits W' t y := by
  obtain ⟨A, I⟩ := hW.inv
  have R := I.rep t _ (I.words_of_order hf ho)
  have hSB := hS.balanced
  cases hS with
  | @cons _ b d _ hb hd =>
    obtain ⟨h1, E, hi, he⟩ := reverse_first (W := W) (t := t) (a := a) (b := b) (d := d) (c := c) (n := n) (by simpa using R)
      hb hd.balanced
    have R1 : Rep W.heap t ((a ++ (⟨n, .leading⟩ :: (b ++ [⟨n, .trailing⟩]))) ++ (d ++ c)) := by simpa using R
    have hra : reverseAppend h1 (posOf t (d ++ c)) (posOf t c) (posOf t c) = some (h1, posOf t c) := by
      rcases hc with hc | rfl
      · exact reverseAppend_last hd R1 E hc hi
      · cases hd; rw [reverseAppend]; simp
    have hx : (h1 (priorOf t a).node).isSome := E.isSome (R.isSome (priorOf_mem a _))
    have hq : (h1 (posOf t c).node).isSome := E.isSome (R.isSome (by rw [← List.append_assoc]; exact posOf_mem _ c))
    obtain ⟨h2, hs, E2⟩ := setNext_spec hx hq
    refine ⟨{ W with heap := h2 }, ?_, R.lost hSB E hs W⟩
    rw [he, hra]
    simp [hs]

/-- Before, all positions are visited. -/
example {W : World T} {w : List Iter} (ho : order W t = some w) {y : Iter} (hy : y ∈ w) : Visits W t y := order_visits ho hy

example : ∃ W : World Nat, Reachable W ∧ IsForest W 0 ∧ order W 0 = some ([L 1, L 2, R 2] ++ ([L 3, R 3] ++ [R 1, L 4, R 4])) ∧
    Roots [L 3, R 3] [3] ∧ (posOf 0 [R 1, L 4, R 4]).edge = .trailing := by
  obtain ⟨W, h, I⟩ := demo
  exact ⟨W, h, I.isForest_iff.mpr ⟨_, rfl⟩, I.order rfl, Roots.cons 3 (b := []) .nil .nil, rfl⟩

/-- Three trees; reversing the first two never returns. -/
example : ∃ W : World Nat, Reachable W ∧ IsForest W 0 ∧
    order W 0 = some ([] ++ ([L 1, L 2, R 2, L 3, R 3, R 1, L 4, R 4] ++ L 7 :: [R 7])) ∧
    Roots [L 1, L 2, R 2, L 3, R 3, R 1, L 4, R 4] [1, 4] ∧ reverse W (L 1) (L 7) = none := by
  obtain ⟨W, h, I⟩ := demo
  have hp : W.heap 7 = none := by
    refine I.none_iff.mpr ?_
    intro t w hw
    simp only [demoState] at hw
    repeat' (split at hw)
    all_goals simp_all [support]
    all_goals (subst hw; simp)
  obtain ⟨W', -, hf, ho, -, -, -, hr⟩ := c02_insert (p := 7) (a := demoWord) (b := []) h
    (I.isForest_iff.mpr ⟨demoWord, rfl⟩) (by simpa using I.order (t := 0) (w := demoWord) rfl) hp 70
  have hR : Roots [L 1, L 2, R 2, L 3, R 3, R 1, L 4, R 4] [1, 4] :=
    .cons 1 (b := [L 2, R 2, L 3, R 3]) (Balanced.cons 2 (b := []) .nil (Balanced.cons 3 (b := []) .nil .nil))
      (.cons 4 (b := []) .nil .nil)
  exact ⟨W', hr, hf, by simpa using ho, hR, c08_hangs_counterexample (a := []) (c := [R 7]) hr hf (by simpa using ho) hR⟩

end Verif.Forest
