import Verif.Forest.Tree

/-! # What `forest::reverse` really does -/

namespace Verif.Forest

variable {T : Type}

theorem setLink_eq {h : Heap T} {p : Ptr} {n : Node T} (hp : h p = some n) (e : Edge) (d : Dir) (q : Ptr) :
    h.setLink p e d q = some (fun r => if r = p then
        some { n with link := fun e' d' => if e' = e ∧ d' = d then q else n.link e' d' } else h r) := by
  simp [Heap.setLink, hp]

/-- The sentinel with both ends of the top level tied together. -/
def tied (t : Ptr) (n : Node T) : Node T :=
  { n with link := fun e d => if (e = .leading ∧ d = .next) ∨ (e = .trailing ∧ d = .prior) then t
      else n.link e d }

/-- The heap after tying. -/
def tie (h : Heap T) (t : Ptr) (n : Node T) : Heap T := fun q => if q = t then some (tied t n) else h q

theorem setNext_tie {h : Heap T} {t : Ptr} {n : Node T} (hn : h t = some n) :
    setNext h (root t) (end_ t) = some (tie h t n) := by
  have h1 := setLink_eq hn .leading .next t
  simp only [setNext, root, end_, h1, Option.bind_eq_bind, Option.bind_some]
  simp only [Heap.setLink, if_true, Option.map_some, Option.some.injEq]
  funext r
  by_cases hr : r = t
  · subst hr
    simp only [if_true, tie, tied, Option.some.injEq, Node.mk.injEq, and_true]
    funext e d
    cases e <;> cases d <;> simp
  · simp [hr, tie]

theorem tied_tied {t : Ptr} {n : Node T} : tied t (tied t n) = tied t n := by
  simp only [tied]
  congr 1
  funext e d
  split <;> simp_all

theorem setNext_tie_tie {h : Heap T} {t : Ptr} {n : Node T} :
    setNext (tie h t n) (root t) (end_ t) = some (tie h t n) := by
  rw [setNext_tie (n := tied t n) (by simp [tie])]
  congr 1
  funext q
  simp only [tie, tied_tied]
  split <;> rfl

theorem childIncr_tie {h : Heap T} {t k : Ptr} {n : Node T} (hn : h t = some n) (hk : k ≠ t) :
    childIncr (tie h t n) ⟨k, .leading⟩ = childIncr h ⟨k, .leading⟩ := by
  have hl : ∀ p, (tie h t n).link p .leading .prior = h.link p .leading .prior := by
    intro p
    simp only [Heap.link, tie, tied]
    split
    · rename_i hp; subst hp; simp [hn]
    · rfl
  have hk' : (tie h t n).link k .trailing .next = h.link k .trailing .next := by
    simp [Heap.link, tie, hk]
  simp only [childIncr, Iter.pivot, Edge.pivot, incr, hk', hl]
  rfl

theorem reverseAppend_tie {h : Heap T} {t : Ptr} {n : Node T} {b : List Iter} {ns : List Ptr} (hr : Roots b ns) :
    ∀ {a : List Iter}, Rep h t (a ++ b) → h t = some n →
      reverseAppend (tie h t n) (posOf t b) (end_ t) (end_ t) = some (tie h t n, end_ t) := by
  induction hr with
  | nil => intro a R hn; rw [posOf_nil, reverseAppend]; simp
  | @cons m b c ns hb hr ih =>
    intro a R hn
    have R1 : Rep h t ((a ++ (⟨m, .leading⟩ :: b) ++ [⟨m, .trailing⟩]) ++ c) := by simpa using R
    have hi := R1.incr_split
    rw [priorOf_concat] at hi
    have hm : m ≠ t := by rintro rfl; exact R.end_notin .leading (by simp)
    have hne : (⟨m, .leading⟩ : Iter) ≠ end_ t := by simp [end_]
    have hci : childIncr (tie h t n) ⟨m, .leading⟩ = some (posOf t c) := by
      rw [childIncr_tie hn hm]; exact hi
    have hs : childSetNext (tie h t n) (end_ t) (end_ t) = some (tie h t n) := setNext_tie_tie
    rw [posOf_cons, reverseAppend]
    simp only [hne, if_false, hci, hs, Option.bind_eq_bind, Option.bind_some]
    exact ih R1 hn

/-- Reversing all top level nodes of a non-empty forest unlinks them all. -/
theorem reverse_eq {W : World T} {t : Ptr} {w : List Iter} {n : Node T} (R : Rep W.heap t w) (hw : w ≠ [])
    (hn : W.heap t = some n) :
    reverse W (posOf t w) (end_ t) = some { W with heap := tie W.heap t n } := by
  obtain ⟨ns, hr⟩ := R.balanced.roots
  cases hr with
  | nil => simp at hw
  | @cons m b c ns hb hr =>
    have R1 : Rep W.heap t (((⟨m, .leading⟩ :: b) ++ [⟨m, .trailing⟩]) ++ c) := by simpa using R
    have R0 : Rep W.heap t ([] ++ (⟨m, .leading⟩ :: (b ++ ⟨m, .trailing⟩ :: c))) := by simpa using R
    have hd := R0.decr_split
    have e : priorOf t [] = root t := rfl
    rw [e, posOf_cons] at hd
    have hi := R1.incr_split
    rw [priorOf_concat] at hi
    have hci : childIncr W.heap ⟨m, .leading⟩ = some (posOf t c) := hi
    have hs : childSetNext W.heap (end_ t) (end_ t) = some (tie W.heap t n) := setNext_tie hn
    have hne : (⟨m, .leading⟩ : Iter) ≠ end_ t := by simp [end_]
    have hra : reverseAppend W.heap ⟨m, .leading⟩ (end_ t) (end_ t) = some (tie W.heap t n, end_ t) := by
      rw [reverseAppend]
      simp only [hne, if_false, hci, hs, Option.bind_eq_bind, Option.bind_some]
      exact reverseAppend_tie hr R1 hn
    simp only [reverse, posOf_cons, hd, hra, Option.bind_eq_bind, Option.bind_some, setNext_tie_tie]
    rfl

theorem order_tie {W : World T} {t : Ptr} {n : Node T} :
    order { W with heap := tie W.heap t n } t = some [] := by
  have hb : begin_ (tie W.heap t n) t = some (end_ t) := by
    have h1 : (tie W.heap t n).link t .leading .next = some t := by simp [Heap.link, tie, tied]
    simp [begin_, incr, root, h1, end_, Edge.ofBool]
  simp only [order, hb, Option.bind_eq_bind, Option.bind_some]
  rw [walk]; simp [iterEq]

theorem setNext_linked {h : Heap T} {x y : Iter} (hl : Linked h x y) : setNext h x y = some h := by
  have key : ∀ {p q : Ptr} {e : Edge} {d : Dir}, h.link p e d = some q → h.setLink p e d q = some h := by
    intro p q e d hq
    simp only [Heap.link] at hq
    cases hp : h p with
    | none => simp [hp] at hq
    | some n =>
      simp only [hp, Option.map_some, Option.some.injEq] at hq
      simp only [Heap.setLink, hp, Option.map_some, Option.some.injEq]
      funext r
      by_cases hr : r = p
      · subst hr
        rw [if_pos rfl, hp]
        congr 1
        cases n with
        | mk link data =>
          simp only [Node.mk.injEq, and_true]
          funext e' d'
          split
          · rename_i he; rw [he.1, he.2]; exact hq.symm
          · rfl
      · simp [hr]
  simp [setNext, key hl.1, key hl.2]

/-- Reversing an empty range changes nothing. -/
theorem reverse_empty {W : World T} {t : Ptr} {a b : List Iter} (R : Rep W.heap t (a ++ b)) :
    reverse W (posOf t b) (posOf t b) = some W := by
  obtain ⟨A, B, hc, -, -⟩ := closed_split (t := t) a b
  have hl := R.linked hc
  have hd := R.decr_split
  have hr : reverseAppend W.heap (posOf t b) (posOf t b) (posOf t b) = some (W.heap, posOf t b) := by
    rw [reverseAppend]; simp
  simp [reverse, hd, hr, setNext_linked hl]

end Verif.Forest
