import Verif.Forest.Props2

/-!
# C106: iterators stay valid

An iterator is a node and an edge (forest.hpp:550-632), so it is as good as its node. `Erased W o n`: the call `o` is one that erases node `n`.
-/

namespace Verif.Forest

variable {T : Type} {W W' : World T} {A : AState T} {n : Ptr} {v : T}

/-- Node `n` belongs to the forest `t`. -/
def NodeOf (W : World T) (t n : Ptr) : Prop := ∃ w y, order W t = some w ∧ y ∈ w ∧ y.node = n

/-- The call erases `n`: the node itself is erased, or both of its edges are in the range that is erased, or its forest is cleared, destroyed or
assigned to. -/
def Erased (W : World T) (o : Op T) (n : Ptr) : Prop :=
  match o with
  | .erase _ pos => n = pos.node
  | .eraseRange t f l => ∃ a r c, order W t = some (a ++ (r ++ c)) ∧ f = posOf t (r ++ c) ∧ l = posOf t c ∧ Within r n
  | .clear t => NodeOf W t n
  | .destroy t => NodeOf W t n
  | .copyAssign t _ _ _ _ => NodeOf W t n
  | .moveAssign t x _ => x ≠ t ∧ NodeOf W t n
  | _ => False

/-- The forest that has the nodes of forest `u` after the call. -/
def dest (o : Op T) (u : Ptr) : Ptr :=
  match o with
  | .moveNew t x => if u = x then t else u
  | .moveAssign t x _ => if u = x then t else u
  | .swap t x _ _ _ => if u = x then t else if u = t then x else u
  | _ => u

/-- Calls that move nodes to another place. -/
def Splices (o : Op T) : Prop :=
  match o with
  | .splice .. => True
  | .spliceRange .. => True
  | .spliceAll .. => True
  | .spliceNode .. => True
  | _ => False

/-- The call assigns to the value of `n`. -/
def Writes (o : Op T) (n : Ptr) : Prop := ∃ i x, o = .write i x ∧ i.node = n

/-! ## What the calls do to the abstract state -/

theorem Inv.fresh (I : Inv W A) {p : Ptr} (hp : W.heap p = none) : A.val p = none := by
  rw [← I.val p]; simp [valueAt, hp]

theorem Inv.fresh_ne (I : Inv W A) {p : Ptr} (hp : W.heap p = none) (hn : A.val n = some v) : n ≠ p := by
  rintro rfl
  rw [I.fresh hp] at hn
  cases hn

theorem Inv.nodeOf (I : Inv W A) {t : Ptr} {w : List Iter} (hw : A.words t = some w) : NodeOf W t n ↔ ∃ y ∈ w, y.node = n := by
  constructor
  · rintro ⟨w', y, ho, hy, hn⟩
    rw [I.order hw] at ho
    cases ho
    exact ⟨y, hy, hn⟩
  · rintro ⟨y, hy, hn⟩
    exact ⟨w, y, I.order hw, hy, hn⟩

theorem Balanced.within {w : List Iter} (h : Balanced w) : Within w n ↔ ∃ y ∈ w, y.node = n := by
  constructor
  · exact fun hn => ⟨_, hn.1, rfl⟩
  · rintro ⟨⟨m, e⟩, hy, rfl⟩
    cases e with
    | leading => exact ⟨hy, (h.mem_iff m).1 hy⟩
    | trailing => exact ⟨(h.mem_iff m).2 hy, hy⟩

/-- Where a word is split is determined by the iterator. -/
theorem Rep.split_unique {h : Heap T} {t : Ptr} {w a b a' b' : List Iter} (R : Rep h t w) (h1 : w = a ++ b) (h2 : w = a' ++ b')
    (hp : posOf t b = posOf t b') : a = a' ∧ b = b' := by
  have e : ∀ b : List Iter, ∃ z, b ++ [end_ t] = posOf t b :: z := by
    intro b
    cases b with
    | nil => exact ⟨[], rfl⟩
    | cons y b => exact ⟨b ++ [end_ t], by simp [posOf]⟩
  obtain ⟨z, hz⟩ := e b
  obtain ⟨z', hz'⟩ := e b'
  have hn : (w ++ [end_ t]).Nodup := by
    have := R.nodup
    simp only [closed, List.nodup_cons] at this
    exact this.2
  have h3 : w ++ [end_ t] = a ++ posOf t b :: z := by rw [h1, List.append_assoc, hz]
  have h4 : w ++ [end_ t] = a' ++ posOf t b :: z' := by rw [h2, List.append_assoc, hz', hp]
  rw [h3] at hn
  have := append_cons_inj hn (h3 ▸ h4)
  refine ⟨this.1, ?_⟩
  have h5 := h1.symm.trans h2
  rw [this.1] at h5
  exact List.append_cancel_left h5

/-- What the abstract state is like after a call. -/
structure Effect (W : World T) (o : Op T) (A A' : AState T) : Prop where
  keep : ∀ n v, A.val n = some v → ¬ Erased W o n → ¬ Writes o n → A'.val n = some v
  gone : ∀ n, Erased W o n → A'.val n = none ∧ (A'.words n ≠ none → A.words n ≠ none)
  order : ¬ Splices o → ∀ u w l, A.words u = some w → l.Sublist w → (∀ y ∈ l, ¬ Erased W o y.node) →
    l = [] ∨ ∃ w', A'.words (dest o u) = some w' ∧ l.Sublist w'

theorem Effect.same {o : Op T} (he : ∀ n, ¬ Erased W o n) (hd : ∀ u, dest o u = u) : Effect W o A A :=
  ⟨fun _ _ h _ _ => h, fun n h => absurd h (he n), fun _ u w l hw hl _ => .inr ⟨w, by rw [hd]; exact hw, hl⟩⟩

theorem nil_of_erased {l w : List Iter} {P : Ptr → Prop} (hl : l.Sublist w) (h : ∀ y ∈ l, ¬ P y.node) (hw : ∀ y ∈ w, P y.node) : l = [] := by
  cases l with
  | nil => rfl
  | cons y l => exact absurd (hw y (hl.subset (.head _))) (h y (.head _))

/-- Nodes are only added, to one forest. -/
theorem Effect.add {o : Op T} {A' : AState T} {t : Ptr} {a b E : List Iter} {P : Ptr → Prop} (he : ∀ n, ¬ Erased W o n) (hd : ∀ u, dest o u = u)
    (hw : A.words t = some (a ++ b)) (hA : A'.words = (A.setWord t (a ++ (E ++ b))).words) (hv : ∀ q, ¬ P q → A'.val q = A.val q)
    (hP : ∀ q, P q → A.val q = none) : Effect W o A A' := by
  refine ⟨fun n v hn _ _ => ?_, fun n h => absurd h (he n), fun _ u w l hu hl _ => .inr ?_⟩
  · rw [hv n (fun h => by rw [hP n h] at hn; cases hn)]
    exact hn
  · rw [hd, hA]
    by_cases hut : u = t
    · subst hut
      rw [hw] at hu
      cases hu
      refine ⟨a ++ (E ++ b), by simp [AState.setWord], hl.trans ?_⟩
      exact List.Sublist.append (List.Sublist.refl a) (List.sublist_append_right E b)
    · exact ⟨w, by simp [AState.setWord, hut, hu], hl⟩

theorem splice_effect (I : Inv W A) {t x : Ptr} {pos first last : Iter} {S : List Iter} (h : SpliceOk W t pos x S first last) {k : Nat}
    (hk : x = t ∨ k = 0 ∨ k = (nodes S).length) :
    ∃ W' A' r, splice W t pos x first last k = some (W', r) ∧ Inv W' A' ∧ A'.val = A.val := by
  obtain ⟨hS, l, r, R, rfl, rfl, hp⟩ := h
  have hx := I.word_of_rep R
  by_cases hne : S = []
  · subst hne
    exact ⟨W, A, _, splice_empty, I, rfl⟩
  · by_cases hxt : x = t
    · subst hxt
      simp only [if_true] at hp
      rcases hp with rfl | ⟨a, c, hac, rfl⟩
      · exact ⟨W, A, _, splice_self, I, rfl⟩
      · obtain ⟨W', h1, I'⟩ := splice_same I hx hac hS hne k
        exact ⟨W', _, _, h1, I', rfl⟩
    · simp only [hxt, if_false] at hp
      obtain ⟨a, c, Rt, rfl⟩ := hp
      have hw := I.word_of_rep Rt
      obtain ⟨W', h1, I'⟩ := splice_two I hxt hw hx hS hne (count := k)
        (hk.resolve_left hxt)
      exact ⟨W', _, _, h1, I', rfl⟩

theorem Effect.splice {o : Op T} {A' : AState T} (he : ∀ n, ¬ Erased W o n) (hs : Splices o) (hv : A'.val = A.val) : Effect W o A A' :=
  ⟨fun n v h _ _ => by rw [hv]; exact h, fun n h => absurd h (he n), fun h => absurd hs h⟩

theorem exec_effect (I : Inv W A) (o : Op T) (h : Allowed W o) : ∃ W' A', exec W o = some W' ∧ Inv W' A' ∧ Effect W o A A' := by
  cases o with
  | new t =>
    obtain ⟨W', h1, I', -⟩ := newForest_refines I h
    refine ⟨W', _, h1, I', fun n v h _ _ => h, fun n h => h.elim, fun _ u w l hw hl _ => .inr ⟨w, ?_, hl⟩⟩
    have : u ≠ t := by rintro rfl; rw [I.words_none h] at hw; cases hw
    simp [AState.setWord, dest, this, hw]
  | insert t pos x p =>
    obtain ⟨hp, a, b, R, rfl⟩ := h
    obtain ⟨W', h1, I'⟩ := insert_refines I (I.word_of_rep R) hp x
    refine ⟨W', _, by simp [exec, h1], I', Effect.add (P := (· = p)) (fun _ h => h) (fun _ => rfl) (I.word_of_rep R) (E := [⟨p, .leading⟩, ⟨p, .trailing⟩]) rfl ?_ ?_⟩
    · intro q hq; simp [AState.setVal, AState.setWord, hq]
    · rintro q rfl; exact I.fresh hp
  | write i x =>
    obtain ⟨t, w, R, hi⟩ := h
    obtain ⟨W', h1, I'⟩ := write_refines I (I.word_of_rep R) hi x
    refine ⟨W', _, h1, I', fun n v h _ hw => ?_, fun n h => h.elim, fun _ u w l hw hl _ => .inr ⟨w, hw, hl⟩⟩
    have : n ≠ i.node := by rintro rfl; exact hw ⟨i, x, rfl, rfl⟩
    simp [AState.setVal, this, h]
  | erase t pos =>
    obtain ⟨w, R, hi⟩ := h
    obtain ⟨n, e⟩ := pos
    obtain ⟨a, b, c, rfl, hb⟩ := R.balanced.split hi
    have hw := I.word_of_rep R
    obtain ⟨W', h1, I', -⟩ := erase_refines (e := e) I hw hb
    refine ⟨W', _, by simp [exec, h1], I', fun m v h hm _ => ?_, ?_, fun _ u w l hu hl hy => .inr ?_⟩
    · have : m ≠ n := hm
      simp [AState.setVal, AState.setWord, this, h]
    · rintro m rfl
      refine ⟨by simp [AState.setVal], fun h => ?_⟩
      simp only [AState.setVal, AState.setWord] at h
      split at h
      · next ht => rw [ht, hw]; simp
      · exact h
    · by_cases hut : u = t
      · subst hut
        rw [hw] at hu
        cases hu
        refine ⟨a ++ (b ++ c), by simp [AState.setVal, AState.setWord, dest], ?_⟩
        have key : l.filter (fun y => y.node ≠ n) = l := List.filter_eq_self.2 fun y h => by
          have : y.node ≠ n := hy y h
          simpa using this
        rw [← key]
        refine (hl.filter _).trans ?_
        simp only [List.filter_append, List.filter_cons, ne_eq, not_true_eq_false, decide_false, Bool.false_eq_true, if_false]
        exact List.Sublist.append List.filter_sublist (List.Sublist.append List.filter_sublist List.filter_sublist)
      · exact ⟨w, by simp [AState.setVal, AState.setWord, dest, hut, hu], hl⟩
  | eraseRange t f l =>
    obtain ⟨a, r, c, R, rfl, rfl⟩ := h
    have hw := I.word_of_rep R
    obtain ⟨W', h1, I', -⟩ := eraseRange_refines I hw
    have hE : ∀ m, Erased W (.eraseRange t (posOf t (r ++ c)) (posOf t c) : Op T) m ↔ Within r m := by
      intro m
      constructor
      · rintro ⟨a', r', c', ho, h1, h2, hm⟩
        rw [I.order hw] at ho
        have ho := Option.some.inj ho
        obtain ⟨rfl, h3⟩ := R.split_unique rfl ho h1
        obtain ⟨h4, rfl⟩ := R.split_unique (a := a ++ r) (b := c) (a' := a ++ r') (b' := c') (by simp) (by simp [h3]) h2
        rw [List.append_cancel_left h4]
        exact hm
      · exact fun hm => ⟨a, r, c, I.order hw, rfl, rfl, hm⟩
    refine ⟨W', _, by simp [exec, h1], I', fun m v h hm _ => ?_, fun m hm => ?_, fun _ u w l hu hl hy => .inr ?_⟩
    · rw [hE] at hm
      simp [AState.dropVals, AState.setWord, hm, h]
    · rw [hE] at hm
      refine ⟨by simp [AState.dropVals, hm], fun h => ?_⟩
      simp only [AState.dropVals, AState.setWord] at h
      split at h
      · next ht => rw [ht, hw]; simp
      · exact h
    · by_cases hut : u = t
      · subst hut
        rw [hw] at hu
        cases hu
        refine ⟨a ++ (prune r ++ c), by simp [AState.dropVals, AState.setWord, dest], ?_⟩
        have key : l.filter (fun y => ¬ Within r y.node) = l := List.filter_eq_self.2 fun y h => by
          have := hy y h
          rw [hE] at this
          simpa using this
        rw [← key]
        refine (hl.filter _).trans ?_
        simp only [List.filter_append]
        exact List.Sublist.append List.filter_sublist (List.Sublist.append (List.Sublist.refl _) List.filter_sublist)
      · exact ⟨w, by simp [AState.dropVals, AState.setWord, dest, hut, hu], hl⟩
  | clear t =>
    obtain ⟨w, R⟩ := h
    have hw := I.word_of_rep R
    obtain ⟨W', h1, I', -⟩ := clear_refines I hw
    have hE : ∀ m, Erased W (.clear t : Op T) m ↔ Within w m := fun m => (I.nodeOf hw).trans R.balanced.within.symm
    refine ⟨W', _, h1, I', fun m v h hm _ => ?_, fun m hm => ?_, fun _ u w' l hu hl hy => ?_⟩
    · rw [hE] at hm
      simp [AState.dropVals, AState.setWord, hm, h]
    · rw [hE] at hm
      refine ⟨by simp [AState.dropVals, hm], fun h => ?_⟩
      simp only [AState.dropVals, AState.setWord] at h
      split at h
      · next ht => rw [ht, hw]; simp
      · exact h
    · by_cases hut : u = t
      · subst hut
        rw [hw] at hu
        cases hu
        exact .inl (nil_of_erased hl hy fun y h => (I.nodeOf hw).2 ⟨y, h, rfl⟩)
      · exact .inr ⟨w', by simp [AState.dropVals, AState.setWord, dest, hut, hu], hl⟩
  | splice t pos x f l k =>
    obtain ⟨S, hS, hk⟩ := h
    obtain ⟨W', A', r, h1, I', hv⟩ := splice_effect I hS hk
    exact ⟨W', A', by simp [exec, h1], I', .splice (fun _ h => h) trivial hv⟩
  | spliceRange t pos x f l =>
    obtain ⟨S, hS⟩ := h
    obtain ⟨W', A', r, h1, I', hv⟩ := splice_effect I hS (k := 0) (by simp)
    exact ⟨W', A', by simp [exec, spliceRange, h1], I', .splice (fun _ h => h) trivial hv⟩
  | spliceAll t pos x =>
    rcases h with ⟨hxt, ⟨v, Rx⟩, a, c, Rt, rfl⟩ | ⟨rfl, rfl, w, R⟩
    · obtain ⟨W', h1, I'⟩ := spliceAll_two I hxt (I.word_of_rep Rt) (I.word_of_rep Rx)
      exact ⟨W', _, by simp [exec, h1], I', .splice (fun _ h => h) trivial rfl⟩
    · obtain ⟨W', h1, I'⟩ := spliceAll_self I (I.word_of_rep R)
      exact ⟨W', _, by simp [exec, h1], I', .splice (fun _ h => h) trivial rfl⟩
  | spliceNode t pos x i =>
    obtain ⟨n, l, b, r, e, rfl, hb, R, hp⟩ := h
    by_cases hxt : x = t
    · subst hxt
      simp only [if_true] at hp
      obtain ⟨a, c, hac, rfl⟩ := hp
      obtain ⟨W', h1, I'⟩ := spliceNode_same (e := e) I (I.word_of_rep R) hac hb
      exact ⟨W', _, by simp [exec, h1], I', .splice (fun _ h => h) trivial rfl⟩
    · simp only [hxt, if_false] at hp
      obtain ⟨a, c, Rt, rfl⟩ := hp
      obtain ⟨W', h1, I'⟩ := spliceNode_two (e := e) I hxt (I.word_of_rep Rt) (I.word_of_rep R) hb
      exact ⟨W', _, by simp [exec, h1], I', .splice (fun _ h => h) trivial rfl⟩
  | insertParent t f l x p =>
    obtain ⟨hp, a, S, c, R, hS, rfl, rfl⟩ := h
    have hw := I.word_of_rep R
    obtain ⟨W', h1, I'⟩ := insertParent_refines I x hw hS hp
    refine ⟨W', _, by simp [exec, h1], I', fun m v h _ _ => ?_, fun n h => h.elim, fun _ u w l hu hl _ => .inr ?_⟩
    · have := I.fresh_ne hp h
      simp [AState.setVal, AState.setWord, this, h]
    · by_cases hut : u = t
      · subst hut
        rw [hw] at hu
        cases hu
        refine ⟨_, by simp [AState.setVal, AState.setWord, dest]; rfl, hl.trans ?_⟩
        exact List.Sublist.append (List.Sublist.refl _) (.cons _ (List.Sublist.append (List.Sublist.refl _) (.cons _ (List.Sublist.refl _))))
      · exact ⟨w, by simp [AState.setVal, AState.setWord, dest, hut, hu], hl⟩
  | insertRange t pos x f l ps =>
    obtain ⟨S, hS, ⟨hnd, hfr, hlen⟩, h⟩ := h
    have hP : ∀ q, q ∈ ps → A.val q = none := fun q hq => I.fresh (hfr q hq)
    rcases h with ⟨hxt, a, c, u, r, Rt, rfl, Rx, rfl, rfl⟩ | ⟨rfl, ⟨a, m, r, R, rfl, rfl, rfl⟩ | ⟨u, z, m, c, R, rfl, rfl, rfl⟩⟩
    · obtain ⟨W', A', E, h1, I', hA, -, hv⟩ := insertRange_refines I hxt (I.word_of_rep Rt) (I.word_of_rep Rx) hS
        hnd hfr hlen
      exact ⟨W', A', by simp [exec, h1], I', .add (P := (· ∈ ps)) (fun _ h => h) (fun _ => rfl) (I.word_of_rep Rt) hA hv hP⟩
    · obtain ⟨W', A', E, h1, I', hA, -, hv⟩ := insertRange_own_refines I (I.word_of_rep R) (apart_before x a m S r) hS hnd hfr hlen
      rw [← posOf_firstOr] at h1
      exact ⟨W', A', by simp [exec, h1], I', .add (P := (· ∈ ps)) (fun _ h => h) (fun _ => rfl) (I.word_of_rep R) hA hv hP⟩
    · obtain ⟨W', A', E, h1, I', hA, -, hv⟩ := insertRange_own_refines I (a := u ++ (S ++ l :: m)) (c := c)
        (by simpa using I.word_of_rep R) (apart_after x u S m c l) hS hnd hfr hlen
      exact ⟨W', A', by simp [exec, posOf_firstOr, posOf_cons, h1], I', .add (P := (· ∈ ps)) (fun _ h => h) (fun _ => rfl)
        (by simpa using I.word_of_rep R) hA hv hP⟩
  | size t =>
    obtain ⟨w, R⟩ := h
    obtain ⟨W', h1, I', -⟩ := size_refines I (I.word_of_rep R)
    exact ⟨W', A, by simp [exec, h1], I', .same (fun _ h => h) fun _ => rfl⟩
  | equalShape x y =>
    obtain ⟨⟨v, Rx⟩, w, Ry⟩ := h
    obtain ⟨W', h1, I'⟩ := equalShape_refines I (I.word_of_rep Rx) (I.word_of_rep Ry)
    exact ⟨W', A, by simp [exec, h1], I', .same (fun _ h => h) fun _ => rfl⟩
  | copyNew t x ps =>
    obtain ⟨hp, htp, v, Rx, hnd, hfr, hlen⟩ := h
    obtain ⟨W', A', E, h1, I', hA, -, hv⟩ := copyCtor_refines I (I.word_of_rep Rx) hp hnd hfr htp hlen
    refine ⟨W', A', h1, I', fun n v h _ _ => ?_, fun n h => h.elim, fun _ u w l hw hl _ => .inr ⟨w, ?_, hl⟩⟩
    · rw [hv n fun hn => I.fresh_ne (hfr n hn) h rfl]; exact h
    · have : u ≠ t := by rintro rfl; rw [I.words_none hp] at hw; cases hw
      rw [hA]
      simp [AState.setWord, dest, this, hw]
  | copyAssign t x tmp tmp1 ps =>
    obtain ⟨hxt, hp, hp1, hne, htp, htp1, ⟨w, Rt⟩, v, Rx, hnd, hfr, hlen⟩ := h
    have hw := I.word_of_rep Rt
    obtain ⟨W', A', E, h1, I', hA, -, hv, hg⟩ := copyAssign_refines I hxt hw (I.word_of_rep Rx) hp
      hp1 hne hnd hfr htp htp1 hlen
    have hE : ∀ m, Erased W (.copyAssign t x tmp tmp1 ps : Op T) m ↔ Within w m := fun m => (I.nodeOf hw).trans Rt.balanced.within.symm
    refine ⟨W', A', h1, I', fun m v h hm _ => ?_, fun m hm => ?_, fun _ u w' l hu hl hy => ?_⟩
    · rw [hE] at hm
      rw [hv m (fun hn => I.fresh_ne (hfr m hn) h rfl) hm]; exact h
    · rw [hE] at hm
      refine ⟨hg m hm, fun h => ?_⟩
      rw [hA] at h
      simp only [AState.setWord] at h
      split at h
      · next ht => rw [ht, hw]; simp
      · exact h
    · by_cases hut : u = t
      · subst hut
        rw [hw] at hu
        cases hu
        exact .inl (nil_of_erased hl hy fun y h => (I.nodeOf hw).2 ⟨y, h, rfl⟩)
      · exact .inr ⟨w', by rw [hA]; simp [AState.setWord, dest, hut, hu], hl⟩
  | moveNew t x =>
    obtain ⟨hp, v, Rx⟩ := h
    have hx := I.word_of_rep Rx
    obtain ⟨W', h1, I'⟩ := moveCtor_refines I hx hp
    refine ⟨W', _, h1, I', fun n v h _ _ => h, fun n h => h.elim, fun _ u w l hu hl _ => .inr ⟨w, ?_, hl⟩⟩
    have : u ≠ t := by rintro rfl; rw [I.words_none hp] at hu; cases hu
    by_cases hux : u = x
    · subst hux
      rw [hx] at hu
      simp [AState.setWord, dest, hu]
    · simp [AState.setWord, dest, hux, this, hu]
  | moveAssign t x tmp =>
    obtain ⟨hp, ⟨w, Rt⟩, v, Rx⟩ := h
    have hw := I.word_of_rep Rt
    by_cases hxt : x = t
    · subst hxt
      obtain ⟨W', h1, I'⟩ := moveAssign_self I hw hp
      refine ⟨W', _, h1, I', .same (fun _ h => h.1 rfl) fun u => ?_⟩
      simp only [dest]
      split
      · next h => exact h.symm
      · rfl
    · have hx := I.word_of_rep Rx
      obtain ⟨W', h1, I'⟩ := moveAssign_refines I hxt hw hx hp
      have hE : ∀ m, Erased W (.moveAssign t x tmp : Op T) m ↔ Within w m := fun m =>
        ⟨fun h => (Rt.balanced.within (n := m)).2 ((I.nodeOf hw).1 h.2), fun h => ⟨hxt, (I.nodeOf hw).2 (Rt.balanced.within.1 h)⟩⟩
      refine ⟨W', _, h1, I', fun m v h hm _ => ?_, fun m hm => ?_, fun _ u w' l hu hl hy => ?_⟩
      · rw [hE] at hm
        simp [AState.dropVals, AState.setWord, hm, h]
      · rw [hE] at hm
        refine ⟨by simp [AState.dropVals, hm], fun h => ?_⟩
        simp only [AState.dropVals, AState.setWord] at h
        split at h
        · next ht => rw [ht, hw]; simp
        · split at h
          · next ht => rw [ht, hx]; simp
          · exact h
      · by_cases hux : u = x
        · subst hux
          rw [hx] at hu
          exact .inr ⟨w', by simp [AState.dropVals, AState.setWord, dest, hu], hl⟩
        · by_cases hut : u = t
          · subst hut
            rw [hw] at hu
            cases hu
            exact .inl (nil_of_erased (P := Erased W (.moveAssign u x tmp : Op T)) hl hy fun y h => ⟨hxt, (I.nodeOf hw).2 ⟨y, h, rfl⟩⟩)
          · exact .inr ⟨w', by simp [AState.dropVals, AState.setWord, dest, hux, hut, hu], hl⟩
  | swap t x tmp tmp1 tmp2 =>
    obtain ⟨hp, hp1, hp2, hn1, hn2, ⟨w, Rt⟩, v, Rx⟩ := h
    have hw := I.word_of_rep Rt
    by_cases hxt : x = t
    · subst hxt
      obtain ⟨W', h1, I'⟩ := swap_self I hw hp hp1 hp2 hn1 hn2
      refine ⟨W', _, h1, I', .same (fun _ h => h) fun u => ?_⟩
      simp only [dest]
      split
      · next h => exact h.symm
      · rfl
    · have hx := I.word_of_rep Rx
      obtain ⟨W', h1, I'⟩ := swap_refines I hxt hw hx hp hp1 hp2 hn1 hn2
      refine ⟨W', _, h1, I', fun n v h _ _ => h, fun n h => h.elim, fun _ u w' l hu hl _ => .inr ⟨w', ?_, hl⟩⟩
      by_cases hux : u = x
      · subst hux
        rw [hx] at hu
        simp [AState.setWord, dest, hu]
      · by_cases hut : u = t
        · subst hut
          rw [hw] at hu
          simp [AState.setWord, dest, hu, hxt, hux]
        · simp [AState.setWord, dest, hux, hut, hu]
  | transcribe proj x t ps =>
    obtain ⟨hxt, ⟨w, Rt⟩, v, Rx, hnd, hfr, hlen⟩ := h
    obtain ⟨W', A', E, h1, I', hA, -, hv⟩ := transcribe_refines proj I hxt (I.word_of_rep Rt) (I.word_of_rep Rx)
      hnd hfr hlen
    exact ⟨W', A', by simp [exec, h1], I', .add (P := (· ∈ ps)) (a := []) (fun _ h => h) (fun _ => rfl) (I.word_of_rep Rt) hA hv
      fun q hq => I.fresh (hfr q hq)⟩
  | unflatten t s ps =>
    obtain ⟨⟨w, Rt⟩, hN, hnd, hfr, hlen⟩ := h
    obtain ⟨W', A', E, h1, I', hA, -, hv⟩ := unflatten_refines I (I.word_of_rep Rt) hN hnd hfr hlen
    exact ⟨W', A', by simp [exec, h1], I', .add (P := (· ∈ ps)) (a := []) (fun _ h => h) (fun _ => rfl) (I.word_of_rep Rt) hA hv
      fun q hq => I.fresh (hfr q hq)⟩
  | destroy t =>
    obtain ⟨w, R⟩ := h
    have hw := I.word_of_rep R
    obtain ⟨W', h1, I'⟩ := destroy_refines I hw
    have hE : ∀ m, Erased W (.destroy t : Op T) m ↔ Within w m := fun m => (I.nodeOf hw).trans R.balanced.within.symm
    refine ⟨W', _, h1, I', fun m v h hm _ => ?_, fun m hm => ?_, fun _ u w' l hu hl hy => ?_⟩
    · rw [hE] at hm
      simp [AState.dropVals, AState.delWord, hm, h]
    · rw [hE] at hm
      refine ⟨by simp [AState.dropVals, AState.delWord, hm], fun h => ?_⟩
      simp only [AState.dropVals, AState.delWord] at h
      split at h
      · exact absurd rfl h
      · exact h
    · by_cases hut : u = t
      · subst hut
        rw [hw] at hu
        cases hu
        exact .inl (nil_of_erased hl hy fun y h => (I.nodeOf hw).2 ⟨y, h, rfl⟩)
      · exact .inr ⟨w', by simp [AState.dropVals, AState.delWord, dest, hut, hu], hl⟩

/-! ## The claims -/

theorem Inv.edges (I : Inv W A) (h : A.val n = some v) : ∃ t w, IsForest W t ∧ Forest.order W t = some w ∧ Within w n := by
  have hv := (I.val n).trans h
  have hl : W.heap n ≠ none := by intro h0; simp [valueAt, h0] at hv
  obtain ⟨t, w, hw, hs⟩ := I.noleak n hl
  simp only [support, List.mem_cons, List.mem_map] at hs
  rcases hs with rfl | ⟨y, hy, rfl⟩
  · obtain ⟨m, hm, hd⟩ := (I.rep n w hw).tail_live
    simp [valueAt, hm, hd] at hv
  · exact ⟨t, w, I.isForest_iff.2 ⟨w, hw⟩, I.order hw, (I.rep t w hw).balanced.within.2 ⟨y, hy, rfl⟩⟩

/-- **C106.** A call that does not erase a node and does not assign to its value leaves the node's value as it was: whatever is inserted, erased,
moved, spliced or swapped elsewhere, a reference to the value stays good. -/
theorem c106_value (hR : Reachable W) {o : Op T} (ha : Allowed W o) (hx : exec W o = some W') (hv : W.value n = some v) (he : ¬ Erased W o n)
    (hw : ¬ Writes o n) : W'.value n = some v := by
  obtain ⟨A, I⟩ := hR.inv
  obtain ⟨W1, A', h1, I', E⟩ := exec_effect I o ha
  rw [hx] at h1
  cases h1
  rw [World.value, I'.val]
  exact E.keep n v (by rw [← I.val]; exact hv) he hw

/-- **C106.** … and an assignment to its value changes nothing but the value. -/
theorem c106_write (hR : Reachable W) {i : Iter} {x : T} (ha : Allowed W (.write i x)) (hx : exec W (.write i x) = some W') :
    W'.value i.node = some x ∧ (∀ m, m ≠ i.node → W'.value m = W.value m) ∧ ∀ t, IsForest W t → order W' t = order W t := by
  obtain ⟨A, I⟩ := hR.inv
  obtain ⟨t, w, Rt, hi⟩ := ha
  obtain ⟨W1, h1, I'⟩ := write_refines I (I.word_of_rep Rt) hi x
  have h1 : exec W (.write i x) = some W1 := h1
  rw [hx] at h1
  cases h1
  refine ⟨?_, fun m hm => ?_, fun u hu => ?_⟩
  · rw [World.value, I'.val]; simp [AState.setVal]
  · rw [World.value, I'.val, World.value, I.val]; simp [AState.setVal, hm]
  · obtain ⟨w, hw⟩ := I.isForest_iff.1 hu
    rw [I.order hw, I'.order (w := w) hw]

/-- **C106.** The iterators at the node stay valid: both its edges are met by the traversal of one of the forests. -/
theorem c106_valid (hR : Reachable W) {o : Op T} (ha : Allowed W o) (hx : exec W o = some W') (hv : W.value n ≠ none) (he : ¬ Erased W o n) :
    W'.value n ≠ none ∧ ∃ t w, IsForest W' t ∧ order W' t = some w ∧ (⟨n, .leading⟩ : Iter) ∈ w ∧ (⟨n, .trailing⟩ : Iter) ∈ w := by
  obtain ⟨A, I⟩ := hR.inv
  obtain ⟨v, hv⟩ := Option.ne_none_iff_exists'.1 hv
  have key : ∃ v, W'.value n = some v := by
    by_cases hw : Writes o n
    · obtain ⟨i, x, rfl, rfl⟩ := hw
      exact ⟨x, (c106_write hR ha hx).1⟩
    · exact ⟨v, c106_value hR ha hx hv he hw⟩
  obtain ⟨v', hv'⟩ := key
  obtain ⟨A', I'⟩ := (Reachable.step o hR ha hx).inv
  exact ⟨by simp [hv'], I'.edges (v := v') (by rw [← I'.val]; exact hv')⟩

/-- **C106.** A node that is erased is gone: it is freed, and no forest's traversal meets it. -/
theorem c106_erased (hR : Reachable W) {o : Op T} (ha : Allowed W o) (hx : exec W o = some W') (hv : W.value n ≠ none) (he : Erased W o n) :
    W'.heap n = none ∧ ∀ t, IsForest W' t → ¬ NodeOf W' t n := by
  obtain ⟨A, I⟩ := hR.inv
  obtain ⟨W1, A', h1, I', E⟩ := exec_effect I o ha
  rw [hx] at h1
  cases h1
  obtain ⟨hg, hf⟩ := E.gone n he
  have hnf : ¬ IsForest W' n := by
    rw [I'.isForest_iff]
    rintro ⟨w, hw⟩
    obtain ⟨w, hw⟩ := Option.ne_none_iff_exists'.1 (hf (by simp [hw]))
    obtain ⟨m, hm, hd⟩ := (I.rep n w hw).tail_live
    exact hv (by simp [World.value, valueAt, hm, hd])
  refine ⟨I'.dead hg hnf, fun t ht => ?_⟩
  rintro ⟨w, y, ho, hy, rfl⟩
  obtain ⟨m, v, hm, hd⟩ := (I'.rep t w (I'.words_of_order ht ho)).live y hy
  rw [I'.dead hg hnf] at hm
  cases hm

/-- **C106.** A call other than a splice does not change the order of the iterators that stay valid, and keeps them in one forest: the forest they were
in, or after a move or swap the forest that has its nodes. -/
theorem c106_order (hR : Reachable W) {o : Op T} (ha : Allowed W o) (hx : exec W o = some W') (hs : ¬ Splices o) {t : Ptr} {w l : List Iter}
    (hf : IsForest W t) (ho : order W t = some w) (hl : l.Sublist w) (hne : l ≠ []) (he : ∀ y ∈ l, ¬ Erased W o y.node) :
    IsForest W' (dest o t) ∧ ∃ w', order W' (dest o t) = some w' ∧ l.Sublist w' := by
  obtain ⟨A, I⟩ := hR.inv
  obtain ⟨W1, A', h1, I', E⟩ := exec_effect I o ha
  rw [hx] at h1
  cases h1
  rcases E.order hs t w l (I.words_of_order hf ho) hl he with h | ⟨w', hw', hl'⟩
  · exact absurd h hne
  · exact ⟨I'.isForest_iff.2 ⟨w', hw'⟩, w', I'.order hw', hl'⟩

/-- `W'` is reached from `W` by calls of which none erases `n`. -/
inductive Spares (n : Ptr) : World T → World T → Prop
  | refl (W : World T) : Spares n W W
  | step {W W' W'' : World T} (o : Op T) : Spares n W W' → Allowed W' o → exec W' o = some W'' → ¬ Erased W' o n → Spares n W W''

/-- **C106.** After any number of calls of which none erases the node its iterators are valid. -/
theorem c106_history (hR : Reachable W) (hs : Spares n W W') (hv : W.value n ≠ none) :
    Reachable W' ∧ W'.value n ≠ none ∧
      ∃ t w, IsForest W' t ∧ order W' t = some w ∧ (⟨n, .leading⟩ : Iter) ∈ w ∧ (⟨n, .trailing⟩ : Iter) ∈ w := by
  induction hs with
  | refl =>
    obtain ⟨A, I⟩ := hR.inv
    obtain ⟨v, hv'⟩ := Option.ne_none_iff_exists'.1 hv
    exact ⟨hR, hv, I.edges (v := v) (by rw [← I.val]; exact hv')⟩
  | step o _ ha hx he ih =>
    obtain ⟨hR', hv', -⟩ := ih
    exact ⟨.step o hR' ha hx, c106_valid hR' ha hx hv' he⟩

/-- Erasing node 1 of the demo forest: nodes 2 and 3, its children, keep their values and their order; node 1 is freed. -/
example : ∃ W W' : World Nat, Reachable W ∧ Allowed W (.erase 0 (L 1)) ∧ exec W (.erase 0 (L 1)) = some W' ∧
    W'.value 2 = some 20 ∧ W'.heap 1 = none ∧ ∃ w, order W' 0 = some w ∧ [L 2, R 2, L 3, R 4].Sublist w := by
  obtain ⟨W, hR, I⟩ := demo
  have hw : demoState.words 0 = some demoWord := rfl
  have ha : Allowed W (.erase 0 (L 1)) := ⟨demoWord, I.rep 0 _ hw, by simp⟩
  obtain ⟨W', A', hx, -, -⟩ := exec_effect I _ ha
  have v2 : W.value 2 = some 20 := I.val 2
  have v1 : W.value 1 = some 10 := I.val 1
  have hE : ∀ m : Ptr, m ≠ 1 → ¬ Erased W (.erase 0 (L 1)) m := fun m h he => h he
  refine ⟨W, W', hR, ha, hx, c106_value hR ha hx v2 (hE 2 (by decide)) (by rintro ⟨_, _, h, -⟩; cases h),
    (c106_erased hR ha hx (by simp [v1]) rfl).1, ?_⟩
  refine (c106_order hR ha hx (by simp [Splices]) (I.isForest_iff.2 ⟨_, hw⟩) (I.order hw) (l := [L 2, R 2, L 3, R 4]) (by decide) (by simp) ?_).2
  intro y hy
  apply hE
  simp at hy
  rcases hy with rfl | rfl | rfl | rfl <;> decide

/-- Clearing the forest erases node 1, and node 5 of the other forest stays valid. -/
example : ∃ W W' : World Nat, Reachable W ∧ Allowed W (.clear 0) ∧ exec W (.clear 0) = some W' ∧ Erased W (.clear 0) 1 ∧ Spares 5 W W' ∧
    W'.value 5 ≠ none := by
  obtain ⟨W, hR, I⟩ := demo
  have hw : demoState.words 0 = some demoWord := rfl
  have ha : Allowed W (.clear 0) := ⟨demoWord, I.rep 0 _ hw⟩
  obtain ⟨W', A', hx, -, -⟩ := exec_effect I _ ha
  have hE : ¬ Erased W (.clear 0) 5 := by
    rintro h
    obtain ⟨y, hy, h⟩ := (I.nodeOf hw).1 h
    simp [demoWord] at hy
    rcases hy with rfl | rfl | rfl | rfl | rfl | rfl | rfl | rfl <;> simp at h
  have hs : Spares 5 W W' := .step _ (.refl W) ha hx hE
  have v5 : W.value 5 = some 50 := I.val 5
  exact ⟨W, W', hR, ha, hx, (I.nodeOf hw).2 ⟨L 1, by simp, rfl⟩, hs, (c106_history hR hs (by simp [v5])).2.1⟩

end Verif.Forest
