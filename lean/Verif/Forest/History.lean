import Verif.Forest.Walks
import Verif.Forest.OwnRange

/-!
# Histories of operations on forests

`exec` runs one operation of the model; `Allowed` is the precondition of the operation as the
documentation of the C++ class (or common sense) states it: iterators are valid and designate what the
operation requires, and storage addresses the allocator returns are unused.
-/

namespace Verif.Forest

variable {T : Type}

/-- One call of the public API. Addresses `p`, `ps`, `tmp…` are what the allocator (or the compiler, for
local objects) provides. -/
inductive Op (T : Type) where
  | new (t : Ptr)
  | insert (t : Ptr) (pos : Iter) (x : T) (p : Ptr)
  | write (i : Iter) (x : T)
  | erase (t : Ptr) (pos : Iter)
  | eraseRange (t : Ptr) (first last : Iter)
  | clear (t : Ptr)
  | splice (t : Ptr) (pos : Iter) (x : Ptr) (first last : Iter) (count : Nat)
  | spliceRange (t : Ptr) (pos : Iter) (x : Ptr) (first last : Iter)
  | spliceAll (t : Ptr) (pos : Iter) (x : Ptr)
  | spliceNode (t : Ptr) (pos : Iter) (x : Ptr) (i : Iter)
  | insertParent (t : Ptr) (first last : Iter) (x : T) (p : Ptr)
  | insertRange (t : Ptr) (pos : Iter) (x : Ptr) (first last : Iter) (ps : List Ptr)
  | size (t : Ptr)
  | equalShape (x y : Ptr)
  | copyNew (t x : Ptr) (ps : List Ptr)
  | copyAssign (t x tmp tmp1 : Ptr) (ps : List Ptr)
  | moveNew (t x : Ptr)
  | moveAssign (t x tmp : Ptr)
  | swap (t x tmp tmp1 tmp2 : Ptr)
  | transcribe (proj : T → T) (x t : Ptr) (ps : List Ptr)
  | unflatten (t : Ptr) (s : List (Option T)) (ps : List Ptr)
  | destroy (t : Ptr)

/-- Assignment through a dereferenced iterator (`*i = x`, forest.hpp:608). -/
def write (W : World T) (i : Iter) (x : T) : Option (World T) :=
  match W.heap i.node with
  | some ⟨l, some _⟩ =>
    some { W with heap := fun q => if q = i.node then some ⟨l, some x⟩ else W.heap q }
  | _ => none

/-- The effect of one call. `none`: undefined behaviour or a call that does not return. -/
def exec (W : World T) : Op T → Option (World T)
  | .new t => newForest W t
  | .insert t pos x p => (insert W t pos x p).map (·.1)
  | .write i x => write W i x
  | .erase t pos => (erase W t pos).map (·.1)
  | .eraseRange t f l => (eraseRange W t f l).map (·.1)
  | .clear t => clear W t
  | .splice t pos x f l n => (splice W t pos x f l n).map (·.1)
  | .spliceRange t pos x f l => (spliceRange W t pos x f l).map (·.1)
  | .spliceAll t pos x => (spliceAll W t pos x).map (·.1)
  | .spliceNode t pos x i => (spliceNode W t pos x i).map (·.1)
  | .insertParent t f l x p => (insertParent W t f l x p).map (·.1)
  | .insertRange t pos _ f l ps => (insertRangeLoop W t pos f l ps).map (·.1)
  | .size t => (size W t).map (·.1)
  | .equalShape x y => (equalShape W x y).map (·.1)
  | .copyNew t x ps => copyCtor W t x ps
  | .copyAssign t x tmp tmp1 ps => copyAssign W t x tmp tmp1 ps
  | .moveNew t x => moveCtor W t x
  | .moveAssign t x tmp => moveAssign W t x tmp
  | .swap t x tmp tmp1 tmp2 => swap W t x tmp tmp1 tmp2
  | .transcribe proj x t ps => (transcribe proj W x t ps).map (·.1)
  | .unflatten t s ps => (unflatten W t s ps).map (·.1)
  | .destroy t => destroy W t

/-- `ps` are enough distinct unused addresses for `n` allocations. -/
def Fresh (W : World T) (ps : List Ptr) (n : Nat) : Prop :=
  ps.Nodup ∧ (∀ p ∈ ps, W.heap p = none) ∧ n ≤ ps.length

/-- Preconditions of the splice forms: `[first,last)` is a child range `S` of the forest `x`; `pos` is a
position of the forest `t`, not inside `S` (it may be `first` or `last`). -/
def SpliceOk (W : World T) (t : Ptr) (pos : Iter) (x : Ptr) (S : List Iter) (first last : Iter) : Prop :=
  Balanced S ∧ ∃ l r, Rep W.heap x (l ++ (S ++ r)) ∧ first = posOf x (S ++ r) ∧ last = posOf x r ∧
    if x = t then pos = first ∨ ∃ a c, l ++ r = a ++ c ∧ pos = posOf t c
    else ∃ a c, Rep W.heap t (a ++ c) ∧ pos = posOf t c

/-- The precondition of each operation. -/
def Allowed (W : World T) : Op T → Prop
  | .new t => W.heap t = none
  | .insert t pos _ p => W.heap p = none ∧ ∃ a b, Rep W.heap t (a ++ b) ∧ pos = posOf t b
  | .write i _ => ∃ t w, Rep W.heap t w ∧ i ∈ w
  | .erase t pos => ∃ w, Rep W.heap t w ∧ pos ∈ w
  | .eraseRange t f l =>
    ∃ a r c, Rep W.heap t (a ++ (r ++ c)) ∧ f = posOf t (r ++ c) ∧ l = posOf t c
  | .clear t => ∃ w, Rep W.heap t w
  | .splice t pos x f l n =>
    ∃ S, SpliceOk W t pos x S f l ∧ (x = t ∨ n = 0 ∨ n = (nodes S).length)
  | .spliceRange t pos x f l => ∃ S, SpliceOk W t pos x S f l
  | .spliceAll t pos x =>
    (x ≠ t ∧ (∃ v, Rep W.heap x v) ∧ ∃ a c, Rep W.heap t (a ++ c) ∧ pos = posOf t c) ∨
    (x = t ∧ pos = end_ t ∧ ∃ w, Rep W.heap t w)
  | .spliceNode t pos x i =>
    ∃ n l b r e, i = ⟨n, e⟩ ∧ Balanced b ∧
      Rep W.heap x (l ++ (⟨n, .leading⟩ :: (b ++ [⟨n, .trailing⟩]) ++ r)) ∧
      if x = t then ∃ a c, l ++ r = a ++ c ∧ pos = posOf t c
      else ∃ a c, Rep W.heap t (a ++ c) ∧ pos = posOf t c
  | .insertParent t f l _ p => W.heap p = none ∧
    ∃ a S c, Rep W.heap t (a ++ (S ++ c)) ∧ Balanced S ∧ f = posOf t (S ++ c) ∧ l = posOf t c
  | .insertRange t pos x f l ps => ∃ S, Balanced S ∧ Fresh W ps (nodes S).length ∧
    ((x ≠ t ∧ ∃ a c u r, Rep W.heap t (a ++ c) ∧ pos = posOf t c ∧ Rep W.heap x (u ++ (S ++ r)) ∧
      f = posOf x (S ++ r) ∧ l = posOf x r) ∨
    -- of the same forest: the position is not in the range, and not its end
    (x = t ∧ ((∃ a m r, Rep W.heap t (a ++ (m ++ (S ++ r))) ∧ pos = posOf t (m ++ (S ++ r)) ∧ f = posOf t (S ++ r) ∧
        l = posOf t r) ∨
      ∃ u z m c, Rep W.heap t (u ++ (S ++ z :: (m ++ c))) ∧ pos = posOf t c ∧ f = posOf t (S ++ z :: (m ++ c)) ∧ l = z)))
  | .size t => ∃ w, Rep W.heap t w
  | .equalShape x y => (∃ v, Rep W.heap x v) ∧ ∃ w, Rep W.heap y w
  | .copyNew t x ps =>
    W.heap t = none ∧ t ∉ ps ∧ ∃ v, Rep W.heap x v ∧ Fresh W ps (nodes v).length
  | .copyAssign t x tmp tmp1 ps => x ≠ t ∧ W.heap tmp = none ∧ W.heap tmp1 = none ∧ tmp1 ≠ tmp ∧
    tmp ∉ ps ∧ tmp1 ∉ ps ∧ (∃ w, Rep W.heap t w) ∧ ∃ v, Rep W.heap x v ∧ Fresh W ps (nodes v).length
  | .moveNew t x => W.heap t = none ∧ ∃ v, Rep W.heap x v
  | .moveAssign t x tmp => W.heap tmp = none ∧ (∃ w, Rep W.heap t w) ∧ ∃ v, Rep W.heap x v
  | .swap t x tmp tmp1 tmp2 => W.heap tmp = none ∧ W.heap tmp1 = none ∧ W.heap tmp2 = none ∧
    tmp1 ≠ tmp ∧ tmp2 ≠ tmp ∧ (∃ w, Rep W.heap t w) ∧ ∃ v, Rep W.heap x v
  | .transcribe _ x t ps => x ≠ t ∧ (∃ w, Rep W.heap t w) ∧
    ∃ v, Rep W.heap x v ∧ Fresh W ps (nodes v).length
  | .unflatten t s ps => (∃ w, Rep W.heap t w) ∧ Nested 0 s ∧ Fresh W ps (opens s)
  | .destroy t => ∃ w, Rep W.heap t w

/-- Everything a program can reach from no forest at all by allowed calls. -/
inductive Reachable : World T → Prop
  | start : Reachable ⟨fun _ => none, fun _ => 0⟩
  | step {W W' : World T} (o : Op T) : Reachable W → Allowed W o → exec W o = some W' → Reachable W'

/-! ## The invariant holds in every reachable world -/

theorem Rep.unique {h : Heap T} {t : Ptr} {w v : List Iter} (R : Rep h t w) (S : Rep h t v) : w = v := by
  have h1 := R.begin_posOf
  rw [S.begin_posOf] at h1
  simp only [Option.some.injEq] at h1
  have h2 := full_walk R
  have h3 := full_walk S
  rw [h1, h2] at h3
  simpa using h3

theorem Inv.word_of_rep {W : World T} {A : AState T} (I : Inv W A) {t : Ptr} {w : List Iter}
    (R : Rep W.heap t w) : A.words t = some w := by
  obtain ⟨n, hn, hd⟩ := R.tail_live
  obtain ⟨t', w', hw', hm⟩ := I.noleak t (by rw [hn]; simp)
  have R' := I.rep t' w' hw'
  have htt : t = t' := by
    simp only [support, List.mem_cons, List.mem_map] at hm
    rcases hm with hm | ⟨x, hx, hxt⟩
    · exact hm
    · obtain ⟨m, v, h1, h2⟩ := R'.live x hx
      rw [hxt, hn] at h1
      simp only [Option.some.injEq] at h1
      subst h1
      rw [hd] at h2; simp at h2
  subst htt
  rw [hw', R.unique R']

theorem write_refines {W : World T} {A : AState T} (I : Inv W A) {t : Ptr} {w : List Iter} {i : Iter}
    (hw : A.words t = some w) (hi : i ∈ w) (x : T) :
    ∃ W', write W i x = some W' ∧ Inv W' (A.setVal i.node (some x)) := by
  have R := I.rep t w hw
  obtain ⟨⟨lk, d⟩, v, h1, h2⟩ := R.live i hi
  simp only at h2
  subst h2
  let h' : Heap T := fun q => if q = i.node then some ⟨lk, some x⟩ else W.heap q
  refine ⟨{ W with heap := h' }, by simp only [write, h1]; rfl, ?_⟩
  have hlink : ∀ p e d, h'.link p e d = W.heap.link p e d := by
    intro p e d
    simp only [Heap.link, h']
    split
    · rename_i hp; subst hp; simp [h1]
    · rfl
  have hrep : ∀ q u, Rep W.heap q u → Rep h' q u := by
    intro q u S
    have hL : ∀ a b, Linked W.heap a b → Linked h' a b := by
      intro a b hab; simpa only [Linked, hlink] using hab
    refine ⟨S.balanced, S.nodup, S.chain.imp hL, hL _ _ S.wrap, ?_, ?_⟩
    · obtain ⟨n, hn, hd⟩ := S.tail_live
      refine ⟨n, ?_, hd⟩
      simp only [h']
      split
      · rename_i hq; subst hq; rw [h1] at hn; simp only [Option.some.injEq] at hn; subst hn; simp at hd
      · exact hn
    · intro y hy
      obtain ⟨n, u', hn, hd⟩ := S.live y hy
      simp only [h']
      split
      · exact ⟨_, x, rfl, rfl⟩
      · exact ⟨n, u', hn, hd⟩
  refine ⟨fun q u hq => hrep q u (I.rep q u hq), I.size, I.disj, ?_, ?_⟩
  · intro p hp
    refine I.noleak p ?_
    intro hp'
    apply hp
    simp only [h']
    split
    · rename_i hq; subst hq; rw [h1] at hp'; simp at hp'
    · exact hp'
  · intro p
    simp only [valueAt, AState.setVal, h']
    split
    · simp
    · exact I.val p

theorem splice_allowed {W : World T} {A : AState T} (I : Inv W A) {t x : Ptr} {pos first last : Iter}
    {S : List Iter} (h : SpliceOk W t pos x S first last) {n : Nat}
    (hn : x = t ∨ n = 0 ∨ n = (nodes S).length) :
    ∃ W' A' r, splice W t pos x first last n = some (W', r) ∧ Inv W' A' := by
  obtain ⟨hS, l, r, R, rfl, rfl, hp⟩ := h
  have hx := I.word_of_rep R
  by_cases hne : S = []
  · subst hne
    exact ⟨W, A, _, splice_empty, I⟩
  · by_cases hxt : x = t
    · subst hxt
      simp only [if_true] at hp
      rcases hp with rfl | ⟨a, c, hac, rfl⟩
      · exact ⟨W, A, _, splice_self, I⟩
      · obtain ⟨W', h1, I'⟩ := splice_same I hx hac hS hne n
        exact ⟨W', _, _, h1, I'⟩
    · simp only [hxt, if_false] at hp
      obtain ⟨a, c, Rt, rfl⟩ := hp
      have hw := I.word_of_rep Rt
      obtain ⟨W', h1, I'⟩ := splice_two I hxt hw hx hS hne (count := n)
        (hn.resolve_left hxt)
      exact ⟨W', _, _, h1, I'⟩

/-- Every allowed call returns, without undefined behaviour, and keeps the invariant. -/
theorem exec_refines {W : World T} {A : AState T} (I : Inv W A) (o : Op T) (h : Allowed W o) :
    ∃ W' A', exec W o = some W' ∧ Inv W' A' := by
  cases o with
  | new t =>
    obtain ⟨W', h1, I', -⟩ := newForest_refines I h
    exact ⟨W', _, h1, I'⟩
  | insert t pos x p =>
    obtain ⟨hp, a, b, R, rfl⟩ := h
    obtain ⟨W', h1, I'⟩ := insert_refines I (I.word_of_rep R) hp x
    exact ⟨W', _, by simp [exec, h1], I'⟩
  | write i x =>
    obtain ⟨t, w, R, hi⟩ := h
    obtain ⟨W', h1, I'⟩ := write_refines I (I.word_of_rep R) hi x
    exact ⟨W', _, h1, I'⟩
  | erase t pos =>
    obtain ⟨w, R, hi⟩ := h
    obtain ⟨n, e⟩ := pos
    obtain ⟨a, b, c, rfl, hb⟩ := R.balanced.split hi
    obtain ⟨W', h1, I', -⟩ := erase_refines (e := e) I (I.word_of_rep R) hb
    exact ⟨W', _, by simp [exec, h1], I'⟩
  | eraseRange t f l =>
    obtain ⟨a, r, c, R, rfl, rfl⟩ := h
    obtain ⟨W', h1, I', -⟩ := eraseRange_refines I (I.word_of_rep R)
    exact ⟨W', _, by simp [exec, h1], I'⟩
  | clear t =>
    obtain ⟨w, R⟩ := h
    obtain ⟨W', h1, I', -⟩ := clear_refines I (I.word_of_rep R)
    exact ⟨W', _, h1, I'⟩
  | splice t pos x f l n =>
    obtain ⟨S, hS, hn⟩ := h
    obtain ⟨W', A', r, h1, I'⟩ := splice_allowed I hS hn
    exact ⟨W', A', by simp [exec, h1], I'⟩
  | spliceRange t pos x f l =>
    obtain ⟨S, hS⟩ := h
    obtain ⟨W', A', r, h1, I'⟩ := splice_allowed I hS (n := 0) (by simp)
    exact ⟨W', A', by simp [exec, spliceRange, h1], I'⟩
  | spliceAll t pos x =>
    rcases h with ⟨hxt, ⟨v, Rx⟩, a, c, Rt, rfl⟩ | ⟨rfl, rfl, w, R⟩
    · obtain ⟨W', h1, I'⟩ := spliceAll_two I hxt (I.word_of_rep Rt) (I.word_of_rep Rx)
      exact ⟨W', _, by simp [exec, h1], I'⟩
    · obtain ⟨W', h1, I'⟩ := spliceAll_self I (I.word_of_rep R)
      exact ⟨W', _, by simp [exec, h1], I'⟩
  | spliceNode t pos x i =>
    obtain ⟨n, l, b, r, e, rfl, hb, R, hp⟩ := h
    by_cases hxt : x = t
    · subst hxt
      simp only [if_true] at hp
      obtain ⟨a, c, hac, rfl⟩ := hp
      obtain ⟨W', h1, I'⟩ := spliceNode_same (e := e) I (I.word_of_rep R) hac hb
      exact ⟨W', _, by simp [exec, h1], I'⟩
    · simp only [hxt, if_false] at hp
      obtain ⟨a, c, Rt, rfl⟩ := hp
      obtain ⟨W', h1, I'⟩ := spliceNode_two (e := e) I hxt (I.word_of_rep Rt) (I.word_of_rep R) hb
      exact ⟨W', _, by simp [exec, h1], I'⟩
  | insertParent t f l x p =>
    obtain ⟨hp, a, S, c, R, hS, rfl, rfl⟩ := h
    obtain ⟨W', h1, I'⟩ := insertParent_refines I x (I.word_of_rep R) hS hp
    exact ⟨W', _, by simp [exec, h1], I'⟩
  | insertRange t pos x f l ps =>
    obtain ⟨S, hS, ⟨hnd, hfr, hlen⟩, h⟩ := h
    rcases h with ⟨hxt, a, c, u, r, Rt, rfl, Rx, rfl, rfl⟩ | ⟨rfl, ⟨a, m, r, R, rfl, rfl, rfl⟩ | ⟨u, z, m, c, R, rfl, rfl, rfl⟩⟩
    · obtain ⟨W', A', E, h1, I', -⟩ := insertRange_refines I hxt (I.word_of_rep Rt) (I.word_of_rep Rx) hS
        hnd hfr hlen
      exact ⟨W', A', by simp [exec, h1], I'⟩
    · obtain ⟨W', A', E, h1, I', -⟩ := insertRange_own_refines I (I.word_of_rep R) (apart_before x a m S r) hS hnd hfr hlen
      rw [← posOf_firstOr] at h1
      exact ⟨W', A', by simp [exec, h1], I'⟩
    · obtain ⟨W', A', E, h1, I', -⟩ := insertRange_own_refines I (a := u ++ (S ++ l :: m)) (c := c)
        (by simpa using I.word_of_rep R) (apart_after x u S m c l) hS hnd hfr hlen
      exact ⟨W', A', by simp [exec, posOf_firstOr, posOf_cons, h1], I'⟩
  | size t =>
    obtain ⟨w, R⟩ := h
    obtain ⟨W', h1, I', -⟩ := size_refines I (I.word_of_rep R)
    exact ⟨W', A, by simp [exec, h1], I'⟩
  | equalShape x y =>
    obtain ⟨⟨v, Rx⟩, w, Ry⟩ := h
    obtain ⟨W', h1, I'⟩ := equalShape_refines I (I.word_of_rep Rx) (I.word_of_rep Ry)
    exact ⟨W', A, by simp [exec, h1], I'⟩
  | copyNew t x ps =>
    obtain ⟨hp, htp, v, Rx, hnd, hfr, hlen⟩ := h
    obtain ⟨W', A', E, h1, I', -⟩ := copyCtor_refines I (I.word_of_rep Rx) hp hnd hfr htp hlen
    exact ⟨W', A', h1, I'⟩
  | copyAssign t x tmp tmp1 ps =>
    obtain ⟨hxt, hp, hp1, hne, htp, htp1, ⟨w, Rt⟩, v, Rx, hnd, hfr, hlen⟩ := h
    obtain ⟨W', A', E, h1, I', -⟩ := copyAssign_refines I hxt (I.word_of_rep Rt) (I.word_of_rep Rx) hp
      hp1 hne hnd hfr htp htp1 hlen
    exact ⟨W', A', h1, I'⟩
  | moveNew t x =>
    obtain ⟨hp, v, Rx⟩ := h
    obtain ⟨W', h1, I'⟩ := moveCtor_refines I (I.word_of_rep Rx) hp
    exact ⟨W', _, h1, I'⟩
  | moveAssign t x tmp =>
    obtain ⟨hp, ⟨w, Rt⟩, v, Rx⟩ := h
    by_cases hxt : x = t
    · subst hxt
      obtain ⟨W', h1, I'⟩ := moveAssign_self I (I.word_of_rep Rt) hp
      exact ⟨W', _, h1, I'⟩
    · obtain ⟨W', h1, I'⟩ := moveAssign_refines I hxt (I.word_of_rep Rt) (I.word_of_rep Rx) hp
      exact ⟨W', _, h1, I'⟩
  | swap t x tmp tmp1 tmp2 =>
    obtain ⟨hp, hp1, hp2, hn1, hn2, ⟨w, Rt⟩, v, Rx⟩ := h
    by_cases hxt : x = t
    · subst hxt
      obtain ⟨W', h1, I'⟩ := swap_self I (I.word_of_rep Rt) hp hp1 hp2 hn1 hn2
      exact ⟨W', _, h1, I'⟩
    · obtain ⟨W', h1, I'⟩ := swap_refines I hxt (I.word_of_rep Rt) (I.word_of_rep Rx) hp hp1 hp2 hn1 hn2
      exact ⟨W', _, h1, I'⟩
  | transcribe proj x t ps =>
    obtain ⟨hxt, ⟨w, Rt⟩, v, Rx, hnd, hfr, hlen⟩ := h
    obtain ⟨W', A', E, h1, I', -⟩ := transcribe_refines proj I hxt (I.word_of_rep Rt) (I.word_of_rep Rx)
      hnd hfr hlen
    exact ⟨W', A', by simp [exec, h1], I'⟩
  | unflatten t s ps =>
    obtain ⟨⟨w, Rt⟩, hN, hnd, hfr, hlen⟩ := h
    obtain ⟨W', A', E, h1, I', -⟩ := unflatten_refines I (I.word_of_rep Rt) hN hnd hfr hlen
    exact ⟨W', A', by simp [exec, h1], I'⟩
  | destroy t =>
    obtain ⟨w, R⟩ := h
    obtain ⟨W', h1, I'⟩ := destroy_refines I (I.word_of_rep R)
    exact ⟨W', _, h1, I'⟩

theorem inv_start : Inv (⟨fun _ => none, fun _ => 0⟩ : World T) ⟨fun _ => none, fun _ => none⟩ :=
  ⟨by simp, by simp, by simp, by simp, by simp [valueAt]⟩

theorem Reachable.inv {W : World T} (h : Reachable W) : ∃ A, Inv W A := by
  induction h with
  | start => exact ⟨_, inv_start⟩
  | step o _ ha he ih =>
    obtain ⟨A, I⟩ := ih
    obtain ⟨W', A', h1, I'⟩ := exec_refines I o ha
    rw [he] at h1
    simp only [Option.some.injEq] at h1
    subst h1
    exact ⟨A', I'⟩

/-- A live forest object: its sentinel is allocated. -/
def IsForest (W : World T) (t : Ptr) : Prop := ∃ n, W.heap t = some n ∧ n.data = none

theorem Inv.forest {W : World T} {A : AState T} (I : Inv W A) {t : Ptr} (h : IsForest W t) :
    ∃ w, A.words t = some w := by
  obtain ⟨n, hn, hd⟩ := h
  obtain ⟨t', w', hw', hm⟩ := I.noleak t (by rw [hn]; simp)
  simp only [support, List.mem_cons, List.mem_map] at hm
  rcases hm with rfl | ⟨x, hx, hxt⟩
  · exact ⟨w', hw'⟩
  · obtain ⟨m, v, h1, h2⟩ := (I.rep t' w' hw').live x hx
    rw [hxt, hn] at h1
    simp only [Option.some.injEq] at h1
    subst h1
    rw [hd] at h2; simp at h2

end Verif.Forest
