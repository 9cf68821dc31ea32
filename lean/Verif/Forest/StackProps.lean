import Verif.Forest.StackLemmas

/-!
# C93: adapted iterators navigate like plain ones, whatever adaptors are stacked
-/

namespace Verif.Forest

variable {T σ : Type}

/-! ## What follows from the laws -/

section
variable {F : FO T σ} {V N : σ → Prop} {sh : σ → Iter} {val : Ptr → Option T} {t : Ptr} {w : List Iter}

theorem Laws.next (L : Laws F V N sh val t w) {a c : List Iter} {x : Iter} {s : σ} (hw : w = a ++ x :: c) (hV : V s) (hs : sh s = x) :
    ∃ s', F.incr s = some s' ∧ V s' ∧ N s' ∧ sh s' = posOf t c := by
  obtain ⟨r, hr⟩ := closed_posOf t (a ++ [x]) c
  exact L.incr hV (a := root t :: a) (b := r) (by rw [hw, hs]; simpa using hr)

theorem Laws.prev (L : Laws F V N sh val t w) {a c : List Iter} {x : Iter} {s : σ} (hw : w = a ++ x :: c) (hV : V s)
    (hs : sh s = posOf t c) : ∃ s', F.decr s = some s' ∧ V s' ∧ N s' ∧ sh s' = x := by
  obtain ⟨r, hr⟩ := closed_posOf t (a ++ [x]) c
  exact L.decr hV (a := root t :: a) (b := r) (by rw [hw, hs]; simpa using hr)

/-- What is true of an iterator, and stays so when the edge of a node is assigned and with `++`. -/
def Kept (F : FO T σ) (sh : σ → Iter) (t : Ptr) (w : List Iter) (P : σ → Prop) : Prop :=
  (∀ s e, P s → sh s ∈ w → P (F.setEdge s e)) ∧ ∀ s s', P s → sh s ≠ end_ t → F.incr s = some s' → P s'

theorem Laws.ne_end (L : Laws F V N sh val t w) {x : Iter} (hx : x ∈ w) : x ≠ end_ t := by
  rintro rfl
  have hN := L.nodup
  simp only [closed, List.nodup_cons, List.nodup_append] at hN
  exact hN.2.2.2 _ hx _ (by simp [end_]) rfl

theorem Laws.findParent (L : Laws F V N sh val t w) {P : σ → Prop} (hP : Kept F sh t w P) {v c : List Iter} (hv : Balanced v) :
    ∀ {a : List Iter} {m : Ptr} {s : σ}, w = a ++ (⟨m, .trailing⟩ :: (v ++ c)) → V s → P s → (sh s).node = m →
      (posOf t c).edge = .trailing → ∃ s', F.findParent s = some s' ∧ V s' ∧ P s' ∧ sh s' = posOf t c := by
  have hset : ∀ {s : σ} {m : Ptr}, (⟨m, .trailing⟩ : Iter) ∈ w → V s → P s → (sh s).node = m → V (F.setEdge s .trailing) ∧
      P (F.setEdge s .trailing) ∧ sh (F.setEdge s .trailing) = ⟨m, .trailing⟩ := by
    intro s m hm hV hPs hs
    have := L.bal.mem_edge hm (sh s).edge
    simp only [← hs] at this
    exact ⟨L.set _ hV this, hP.1 _ _ hPs this, by rw [L.shSet, hs]⟩
  induction hv with
  | nil =>
    intro a m s hw hV hPs hs hc
    have hm : (⟨m, .trailing⟩ : Iter) ∈ w := by rw [hw]; simp
    obtain ⟨h1, h1', h2⟩ := hset hm hV hPs hs
    obtain ⟨s', e1, e2, e3, e4⟩ := L.next (c := c) (by simpa using hw) h1 h2
    refine ⟨s', ?_, e2, hP.2 _ _ h1' (by rw [h2]; exact L.ne_end hm) e1, e4⟩
    rw [FO.findParent]
    simp [e1, L.edge, e4, hc]
  | @cons n b c' hb hc' _ ih =>
    intro a m s hw hV hPs hs hc
    have hm : (⟨m, .trailing⟩ : Iter) ∈ w := by rw [hw]; simp
    obtain ⟨h1, h1', h2⟩ := hset hm hV hPs hs
    obtain ⟨s1, e1, e2, e3, e4⟩ := L.next (c := ⟨n, .leading⟩ :: (b ++ ⟨n, .trailing⟩ :: (c' ++ c))) (by simpa using hw) h1 h2
    rw [posOf_cons] at e4
    obtain ⟨s', f1, f2⟩ := ih (a := a ++ [⟨m, .trailing⟩] ++ (⟨n, .leading⟩ :: b)) (m := n) (s := s1) (by simpa using hw) e2
      (hP.2 _ _ h1' (by rw [h2]; exact L.ne_end hm) e1) (by rw [e4]) hc
    refine ⟨s', ?_, f2⟩
    rw [FO.findParent]
    simp [e1, L.edge, e4, f1]

theorem Laws.children (L : Laws F V N sh val t w) {P : σ → Prop} (hP : Kept F sh t w P) {b c : List Iter} {ns : List Ptr}
    (hr : Roots b ns) : ∀ {a : List Iter} {f : σ}, w = a ++ (b ++ c) → V f → N f → P f → sh f = posOf t (b ++ c) →
      ∃ xs e, (xs ++ [e]).head? = some f ∧ List.IsChain (fun x y => F.childIncr x = some y) (xs ++ [e]) ∧
        (∀ x ∈ xs ++ [e], V x ∧ N x ∧ P x) ∧ xs.map sh = ns.map (⟨·, .leading⟩) ∧ sh e = posOf t c := by
  induction hr with
  | nil =>
    intro a f hw hV hN hPf hs
    exact ⟨[], f, rfl, by simp, by simpa using ⟨hV, hN, hPf⟩, rfl, hs⟩
  | @cons n b c' ns hb hr ih =>
    intro a f hw hV hN hPf hs
    simp only [List.cons_append, posOf_cons] at hs
    have h3 : P (F.setEdge f .trailing) := hP.1 _ _ hPf (by rw [hs, hw]; simp)
    have h1 : V (F.setEdge f .trailing) := L.set _ hV (by rw [hs, hw]; simp)
    have h2 : sh (F.setEdge f .trailing) = ⟨n, .trailing⟩ := by rw [L.shSet, hs]
    obtain ⟨f', e1, e2, e3, e4⟩ := L.next (a := a ++ (⟨n, .leading⟩ :: b)) (c := c' ++ c) (by simpa using hw) h1 h2
    obtain ⟨xs, e, g1, g2, g3, g4, g5⟩ := ih (a := a ++ (⟨n, .leading⟩ :: b) ++ [⟨n, .trailing⟩]) (by simpa using hw) e2 e3
      (hP.2 _ _ h3 (by rw [h2]; exact L.ne_end (by rw [hw]; simp)) e1) e4
    refine ⟨f :: xs, e, rfl, ?_, ?_, by simp [hs, g4], g5⟩
    · rw [List.cons_append, List.isChain_cons]
      refine ⟨fun y hy => ?_, g2⟩
      rw [g1] at hy
      simp only [Option.mem_some] at hy
      subst hy
      simp only [FO.childIncr, L.edge, hs]
      exact e1
    · intro x hx
      simp only [List.cons_append, List.mem_cons] at hx
      rcases hx with rfl | hx
      · exact ⟨hV, hN, hPf⟩
      · exact g3 x hx

theorem Laws.childDecr (L : Laws F V N sh val t w) {a b c : List Iter} {n : Ptr} {s : σ}
    (hw : w = a ++ (⟨n, .leading⟩ :: (b ++ ⟨n, .trailing⟩ :: c))) (hV : V s) (hs : sh s = posOf t c) :
    ∃ s', F.childDecr s = some s' ∧ V s' ∧ sh s' = ⟨n, .leading⟩ := by
  obtain ⟨s', e1, e2, e3, e4⟩ := L.prev (a := a ++ (⟨n, .leading⟩ :: b)) (c := c) (x := ⟨n, .trailing⟩) (by rw [hw]; simp) hV hs
  refine ⟨F.setEdge s' .leading, by simp [FO.childDecr, e1, L.edge, e4, Edge.pivot], L.set _ e2 (by rw [e4, hw]; simp), by rw [L.shSet, e4]⟩

/-- The loop over all positions. -/
theorem Laws.traverse (L : Laws F V N sh val t w) : ∀ {b a : List Iter} {f l : σ}, w = a ++ b → V f → N f → sh f = posOf t b →
    V l → N l → sh l = end_ t → ∃ xs, walk F.eq F.incr f l = some xs ∧ xs.map sh = b := by
  intro b
  induction b with
  | nil =>
    intro a f l hw hV hN hs hV' hN' hl
    refine ⟨[], ?_, rfl⟩
    rw [walk, L.eqCompl hV hV' hN hN' (by rw [hs, hl]; rfl)]
    simp
  | cons x b ih =>
    intro a f l hw hV hN hs hV' hN' hl
    rw [posOf_cons] at hs
    obtain ⟨f', e1, e2, e3, e4⟩ := L.next hw hV hs
    obtain ⟨xs, g1, g2⟩ := ih (a := a ++ [x]) (by simpa using hw) e2 e3 e4 hV' hN' hl
    refine ⟨f :: xs, ?_, by simp [hs, g2]⟩
    have hne : F.eq f l = false := by
      rw [← Bool.not_eq_true]
      intro h
      have h1 := L.eqSound h
      rw [hs, hl] at h1
      have hN := L.nodup
      rw [hw, h1] at hN
      simp [closed, end_, List.nodup_append] at hN
    rw [walk]
    simp [hne, e1, g1]

theorem Laws.traverseBack (L : Laws F V N sh val t w) {f : σ} (hV : V f) (hN : N f) : ∀ {a b : List Iter} {l : σ}, w = a ++ b →
    sh f = posOf t w → V l → N l → sh l = posOf t b → ∃ xs, walkBack F.eq F.decr f l = some xs ∧ xs.map sh = a.reverse := by
  intro a
  induction a using List.reverseRecOn with
  | nil =>
    intro b l hw hs hV' hN' hl
    refine ⟨[], ?_, rfl⟩
    rw [walkBack, L.eqCompl hV' hV hN' hN (by rw [hs, hl, hw]; rfl)]
    simp
  | append_singleton a x ih =>
    intro b l hw hs hV' hN' hl
    obtain ⟨l', e1, e2, e3, e4⟩ := L.prev (a := a) (c := b) (x := x) (by simpa using hw) hV' hl
    obtain ⟨xs, g1, g2⟩ := ih (b := x :: b) (by simpa using hw) hs e2 e3 (by rw [e4, posOf_cons])
    refine ⟨l' :: xs, ?_, by simp [e4, g2]⟩
    have hne : F.eq l f = false := by
      rw [← Bool.not_eq_true]
      intro h
      have h1 := L.eqSound h
      rw [hl, hs] at h1
      obtain ⟨r1, hr1⟩ := closed_posOf t (a ++ [x]) b
      obtain ⟨r2, hr2⟩ := closed_posOf t [] w
      rw [← hw, h1] at hr1
      rw [List.nil_append] at hr2
      have := (append_cons_inj (by rw [← hr1]; exact L.nodup) (hr1.symm.trans hr2)).1
      simp at this
    rw [walkBack]
    simp [hne, e1, g1]

theorem Laws.postorder (L : Laws F V N sh val t w) {l : σ} (hV' : V l) (hN' : N l) (hl : sh l = end_ t) :
    ∀ {r a : List Iter} {f : σ}, w = a ++ r → V f → N f → sh f = posOf t r →
      ∃ f' xs, F.findEdge f .trailing = some f' ∧ walk F.eq (F.edgeIncr .trailing) f' l = some xs ∧
        xs.map sh = r.filter (fun y => y.edge = .trailing) := by
  intro r
  induction r with
  | nil =>
    intro a f hw hV hN hs
    refine ⟨f, [], ?_, ?_, rfl⟩
    · rw [FO.findEdge]; simp [L.edge, hs, posOf, end_]
    · rw [walk, L.eqCompl hV hV' hN hN' (by rw [hs, hl]; rfl)]; simp
  | cons x r ih =>
    intro a f hw hV hN hs
    rw [posOf_cons] at hs
    obtain ⟨s1, e1, e2, e3, e4⟩ := L.next hw hV hs
    obtain ⟨f', xs, g1, g2, g3⟩ := ih (a := a ++ [x]) (by simpa using hw) e2 e3 e4
    cases hx : x.edge with
    | leading => exact ⟨f', xs, by rw [FO.findEdge]; simp [L.edge, hs, hx, e1, g1], g2, by simp [hx, g3]⟩
    | trailing =>
      refine ⟨f, f :: xs, by rw [FO.findEdge]; simp [L.edge, hs, hx], ?_, by simp [hx, g3, hs]⟩
      have hne : F.eq f l = false := by
        rw [← Bool.not_eq_true]
        intro h
        have h1 := L.eqSound h
        rw [hs, hl] at h1
        exact L.ne_end (x := x) (by rw [hw]; simp) h1
      rw [walk]
      simp [hne, FO.edgeIncr, e1, g1, g2]

end

/-! ## Stacks of adaptors over a forest -/

/-- The positions a stack of adaptors shows, of a forest with the positions `w`. -/
noncomputable def view (W : World T) : List (Ad T) → List Iter → List Iter
  | [], w => w
  | .rev :: l, w => mirror (view W l w)
  | .depth :: l, w => view W l w
  | .filter p :: l, w => shown (fun m => ∃ v, W.value m = some v ∧ p v = true) (view W l w)

/-- The iterators a program makes: iterators of the forest; adaptors constructed from others; what `++` and `--` give, between the first
position and the end; and those where the edge of a node was assigned. -/
inductive Made (W : World T) (t : Ptr) (w : List Iter) : (l : List (Ad T)) → Stack l → Prop
  | plain {i : Iter} : i ∈ w ++ [end_ t] → Made W t w [] i
  /-- `reverse_fullorder_iterator(x)` (forest.hpp:359), not for the first position -/
  | rev {l s r} : Made W t w l s → shows W.heap l s ≠ posOf t (view W l w) → Rev.mk' (fo W.heap l) s = some r → Made W t w (.rev :: l) r
  /-- `depth_fullorder_iterator(x, d)` (forest.hpp:435), where `d` is the depth of its node -/
  | depth {l s a b c n d} : Made W t w l s → n = node l s → view W l w = a ++ (⟨n, .leading⟩ :: (b ++ ⟨n, .trailing⟩ :: c)) →
      d = ((enclosing a c).length : Int) → Made W t w (.depth :: l) ⟨s, d⟩
  /-- `filter_fullorder_iterator(f, l, p)` (forest.hpp:243-244) with the first position and the end -/
  | filter {l f e r p} : Made W t w l f → settled W.heap l f → shows W.heap l f = posOf t (view W l w) → shows W.heap l e = end_ t →
      Fil.mk' (fo W.heap l) p f e = some r → Made W t w (.filter p :: l) r
  | incr {l s s'} : Made W t w l s → shows W.heap l s ≠ end_ t → (fo W.heap l).incr s = some s' → Made W t w l s'
  | decr {l s s'} : Made W t w l s → shows W.heap l s ≠ posOf t (view W l w) → (fo W.heap l).decr s = some s' → Made W t w l s'
  | setEdge {l s} (e : Edge) : Made W t w l s → shows W.heap l s ∈ view W l w → Made W t w l ((fo W.heap l).setEdge s e)

/-- The iterators for which the laws hold. -/
def InUse (W : World T) (t : Ptr) (w : List Iter) : (l : List (Ad T)) → Stack l → Prop
  | [], i => i ∈ closed t w
  | .rev :: l, s => InUse W t w l (Rev.base s) ∧ (shows W.heap l (Rev.base s) ∈ view W l w ∨
      Rev.edge s = ((fo W.heap l).edge (Rev.base s)).pivot)
  | .depth :: l, s => InUse W t w l (Dep.x s) ∧ DepthOk t (view W l w) (shows W.heap l (Dep.x s)) (Dep.depth s)
  | .filter p :: l, s => FilV (InUse W t w l) (settled W.heap l) (shows W.heap l) t (view W l w) (view W (.filter p :: l) w) s

theorem stack_laws {W : World T} {t : Ptr} {w : List Iter} (R : Rep W.heap t w) : ∀ l : List (Ad T),
    Laws (fo W.heap l) (InUse W t w l) (settled W.heap l) (shows W.heap l) (valueAt W.heap) t (view W l w)
  | [] => R.laws
  | .rev :: l => (stack_laws R l).rev
  | .depth :: l => (stack_laws R l).dep
  | .filter p :: l => by
    have L := stack_laws R l
    obtain ⟨w', hw'⟩ := L.bal.filtered (okVal (valueAt W.heap) p)
    have hN : (view W l w).Nodup := by
      have := L.nodup
      simp only [closed, List.nodup_cons] at this
      exact this.2.of_append_left
    have e : w' = view W (.filter p :: l) w := hw'.eq_shown hN
    subst e
    exact L.fil hw'

section
variable {W : World T} {t : Ptr} {w : List Iter} {l : List (Ad T)}

theorem Laws.nodup_word {F : FO T σ} {V N : σ → Prop} {sh : σ → Iter} {val : Ptr → Option T} (L : Laws F V N sh val t w) : w.Nodup := by
  have := L.nodup
  simp only [closed, List.nodup_cons] at this
  exact this.2.of_append_left

theorem Made.inUse (R : Rep W.heap t w) {s : Stack l} (h : Made W t w l s) : InUse W t w l s ∧ shows W.heap l s ≠ root t := by
  have mem_ne : ∀ {l : List (Ad T)} {x : Iter}, x ∈ view W l w ++ [end_ t] → x ≠ root t := by
    intro l x hx hr
    have hN := (stack_laws R l).nodup
    simp only [closed, List.nodup_cons] at hN
    rw [hr] at hx
    exact hN.1 hx
  have mem_of : ∀ {l : List (Ad T)} {s : Stack l}, InUse W t w l s → shows W.heap l s ≠ root t →
      shows W.heap l s ∈ view W l w ++ [end_ t] := by
    intro l s h hr
    have := (stack_laws R l).mem h
    simp only [closed, List.mem_cons] at this
    exact this.resolve_left hr
  have back : ∀ {l : List (Ad T)} {s : Stack l}, InUse W t w l s → shows W.heap l s ≠ root t →
      shows W.heap l s ≠ posOf t (view W l w) →
      ∃ a x c, view W l w = a ++ x :: c ∧ shows W.heap l s = posOf t c := by
    intro l s h hr hp
    obtain ⟨a, b, hab⟩ := List.append_of_mem (mem_of h hr)
    rcases List.eq_nil_or_concat a with rfl | ⟨a, x, rfl⟩
    · refine absurd ?_ hp
      cases hv : view W l w with
      | nil => rw [hv] at hab; simp at hab; rw [← hab.1]; rfl
      | cons z v => rw [hv] at hab; simp at hab; rw [posOf_cons, hab.1]
    · rw [List.concat_eq_append] at hab
      rcases concat_split hab with ⟨-, h2, h3⟩ | ⟨v0, -, h2⟩
      · exact ⟨a, x, [], h2, h3.symm⟩
      · exact ⟨a, x, shows W.heap l s :: v0, by rw [h2]; simp, by rw [posOf_cons]⟩
  induction h with
  | @plain i hi =>
    refine ⟨?_, mem_ne (l := []) hi⟩
    show i ∈ closed t w
    simp only [closed, List.mem_cons]
    exact .inr hi
  | @rev l s r _ hne hm ih =>
    have L := stack_laws R l
    obtain ⟨a, x, c, h1, h2⟩ := back ih.1 ih.2 hne
    obtain ⟨b, e1, e2, e3, e4⟩ := L.prev h1 ih.1 h2
    simp only [Rev.mk', e1, Option.bind_eq_bind, Option.bind_some, pure, Option.some.injEq] at hm
    subst hm
    refine ⟨⟨e2, .inr rfl⟩, mem_ne (l := .rev :: l) (List.mem_append_left _ ?_)⟩
    have : shows W.heap (.rev :: l) ⟨b, ((fo W.heap l).edge b).pivot⟩ = x.pivot := by rw [← e4]; rfl
    rw [this]
    exact mem_mirror.2 (by rw [Iter.pivot_pivot, h1]; simp)
  | @depth l s a b c n d _ hn hv hd ih =>
    have L := stack_laws R l
    refine ⟨⟨ih.1, ?_⟩, ih.2⟩
    have hb : Balanced b := L.bal.bracket L.nodup_word hv
    have hlv := level_enclosing (hv ▸ L.bal) (hv ▸ L.nodup_word) hb
    have h1 : closed t (view W l w) = (root t :: a) ++ (⟨n, .leading⟩ : Iter) :: (b ++ ⟨n, .trailing⟩ :: c ++ [end_ t]) := by
      rw [hv]; simp [closed, root, end_]
    obtain ⟨a', b', h2, h3⟩ := (L.bal.closed (t := t)).depth_other L.nodup h1 (shows W.heap l s).edge
    refine ⟨a', b', ?_, ?_⟩
    · rw [h2]; simp only [hn]; rfl
    · have e : (⟨n, (shows W.heap l s).edge⟩ : Iter) = shows W.heap l s := by rw [hn]; rfl
      rw [e] at h3
      rw [h3]
      simp only [depthAt, if_true]
      have h4 : level (root t :: a) = level a + 1 := by
        have := level_append [root t] a
        have h5 : level [root t] = 1 := by simp [level, shape, root]
        rw [List.singleton_append, h5] at this
        omega
      rw [h4, hlv, hd]
      omega
  | @filter l f e r p _ hs hf he hm ih =>
    have L := stack_laws R l
    have L' := stack_laws R (.filter p :: l)
    obtain ⟨w', hw'⟩ := L.bal.filtered (okVal (valueAt W.heap) p)
    have ew : w' = view W (.filter p :: l) w := hw'.eq_shown L.nodup_word
    subst ew
    have hfs : FS (okVal (valueAt W.heap) p) (view W l w) (view W (.filter p :: l) w) := by
      simpa using hw'.fs (r := []) (r' := []) .nil
    obtain ⟨x, e1, e2, e3, e4⟩ := L.skipF he hfs (a := []) rfl ih.1 hs hf
    simp only [Fil.mk', e1, Option.bind_eq_bind, Option.bind_some, pure, Option.some.injEq] at hm
    subst hm
    have hmem : posOf t (view W (.filter p :: l) w) ∈ view W (.filter p :: l) w ++ [end_ t] := by
      cases view W (.filter p :: l) w <;> simp [posOf]
    refine ⟨⟨e2, ?_, .inl rfl, ih.1, hs, hf, he⟩, ?_⟩
    · show shows W.heap l x ∈ _
      rw [e4]
      simp only [closed, List.mem_cons]
      exact .inr hmem
    · show shows W.heap l x ≠ _
      rw [e4]
      exact mem_ne (l := .filter p :: l) hmem
  | @incr l s s' _ hne hi ih =>
    have L := stack_laws R l
    have hm := mem_of ih.1 ih.2
    simp only [List.mem_append, List.mem_singleton, hne, or_false] at hm
    obtain ⟨a, c, hac⟩ := List.append_of_mem hm
    obtain ⟨s1, e1, e2, e3, e4⟩ := L.next hac ih.1 rfl
    rw [e1] at hi
    cases hi
    refine ⟨e2, mem_ne (l := l) ?_⟩
    rw [e4, hac]
    cases c <;> simp [posOf]
  | @decr l s s' _ hne hi ih =>
    have L := stack_laws R l
    obtain ⟨a, x, c, h1, h2⟩ := back ih.1 ih.2 hne
    obtain ⟨b, e1, e2, e3, e4⟩ := L.prev h1 ih.1 h2
    rw [e1] at hi
    cases hi
    exact ⟨e2, mem_ne (l := l) (by rw [e4, h1]; simp)⟩
  | @setEdge l s e _ hm ih =>
    have L := stack_laws R l
    refine ⟨L.set e ih.1 hm, mem_ne (l := l) (List.mem_append_left _ ?_)⟩
    rw [L.shSet]
    exact L.bal.mem_edge hm e

theorem Balanced.next_trailing {a c : List Iter} (h : Balanced (a ++ c)) :
    ∃ v c', c = v ++ c' ∧ Balanced v ∧ (posOf t c').edge = .trailing := by
  rw [balanced_iff_run, run_append] at h
  cases ha : Forest.run [] a with
  | none => simp [ha] at h
  | some st =>
    rw [ha, Option.bind_some] at h
    have := closes_of_run h
    cases st with
    | nil => exact ⟨c, [], by simp, this, rfl⟩
    | cons m st =>
      obtain ⟨v, c', h1, h2, -⟩ := this
      exact ⟨v, _, h1, h2, by rw [posOf_cons]⟩

theorem Made.kept : Kept (fo W.heap l) (shows W.heap l) t (view W l w) (Made W t w l) :=
  ⟨fun _ e h hm => .setEdge e h hm, fun _ _ h hne hi => .incr h hne hi⟩

/-! ## The properties -/

/-- **C93**: whatever adaptors are stacked, `has_children` says whether a child is shown, `find_parent` gives the trailing edge of the
closest node shown around it (or the end), `child_begin` gives the first child shown, from there `++` of `child_iterator` goes through the
children and then to the trailing edge of the node, and `--` goes back. `child_end` compares equal to what `++` reaches if the edge
assigned there is the one a reverse iterator has already (`settled`). -/
theorem c93_navigate (hW : Reachable W) (hf : IsForest W t) (ho : order W t = some w) {s : Stack l} (hs : Made W t w l s)
    {a b c : List Iter} {n : Ptr} (hn : node l s = n) (hv : view W l w = a ++ (⟨n, .leading⟩ :: (b ++ ⟨n, .trailing⟩ :: c))) :
    (fo W.heap l).hasChildren s = some (!b.isEmpty) ∧
    (∃ v c' s', c = v ++ c' ∧ Balanced v ∧ (posOf t c').edge = .trailing ∧ (fo W.heap l).findParent s = some s' ∧
      Made W t w l s' ∧ shows W.heap l s' = posOf t c') ∧
    ∃ ns f xs e, Roots b ns ∧ (fo W.heap l).childBegin s = some f ∧ (xs ++ [e]).head? = some f ∧
      List.IsChain (fun x y => (fo W.heap l).childIncr x = some y ∧
        ∃ x', (fo W.heap l).childDecr y = some x' ∧ shows W.heap l x' = shows W.heap l x) (xs ++ [e]) ∧
      (∀ x ∈ xs ++ [e], Made W t w l x) ∧ xs.map (shows W.heap l) = ns.map (⟨·, .leading⟩) ∧ shows W.heap l e = ⟨n, .trailing⟩ ∧
      (settled W.heap l ((fo W.heap l).childEnd s) →
        walk (fo W.heap l).eq (fo W.heap l).childIncr f ((fo W.heap l).childEnd s) = some xs) := by
  obtain ⟨A, I⟩ := hW.inv
  have R := I.rep t w (I.words_of_order hf ho)
  have L := stack_laws R l
  have hU := hs.inUse R
  have hmem : ∀ e, (⟨n, e⟩ : Iter) ∈ view W l w := by intro e; rw [hv]; cases e <;> simp
  have hsm : shows W.heap l s ∈ view W l w := by
    have := hmem (shows W.heap l s).edge
    rw [← hn] at this
    exact this
  have hnode : (shows W.heap l s).node = n := hn
  have hb : Balanced b := L.bal.bracket L.nodup_word hv
  have hN := L.nodup_word
  -- the first position after the leading edge
  have hlead := hs.setEdge .leading hsm
  have hls : shows W.heap l ((fo W.heap l).setEdge s .leading) = ⟨n, .leading⟩ := by rw [L.shSet, hnode]
  obtain ⟨f, e1, e2, e3, e4⟩ := L.next (a := a) (c := b ++ ⟨n, .trailing⟩ :: c) hv (hlead.inUse R).1 hls
  have hfm : Made W t w l f := .incr hlead (by rw [hls]; exact L.ne_end (hmem _)) e1
  refine ⟨?_, ?_, ?_⟩
  · simp only [FO.hasChildren, e1, Option.bind_eq_bind, Option.bind_some, L.eqNode, e4, hnode, pure, Option.some.injEq]
    cases b with
    | nil => simp [posOf]
    | cons x b =>
      simp only [List.cons_append, posOf_cons, List.isEmpty_cons]
      have : x.node ≠ n := node_unique (hv ▸ hN) (by simp)
      simp [this.symm]
  · have hB := L.bal
    rw [hv, show a ++ ((⟨n, .leading⟩ : Iter) :: (b ++ ⟨n, .trailing⟩ :: c)) = (a ++ ⟨n, .leading⟩ :: (b ++ [⟨n, .trailing⟩])) ++ c by simp] at hB
    obtain ⟨v, c', rfl, h1, h2⟩ := hB.next_trailing (t := t)
    obtain ⟨s', g1, g2, g3, g4⟩ := L.findParent Made.kept h1 (a := a ++ ⟨n, .leading⟩ :: b) (by rw [hv]; simp) hU.1 hs hnode h2
    exact ⟨v, c', s', rfl, h1, h2, g1, g3, g4⟩
  · obtain ⟨ns, hns⟩ := hb.roots
    have hv' : view W l w = (a ++ [⟨n, .leading⟩]) ++ (b ++ ⟨n, .trailing⟩ :: c) := by rw [hv]; simp
    obtain ⟨xs, e, g1, g2, g3, g4, g5⟩ := L.children Made.kept hns hv' e2 e3 hfm e4
    rw [posOf_cons] at g5
    refine ⟨ns, f, xs, e, hns, e1, g1, ?_, fun x hx => (g3 x hx).2.2, g4, g5, fun hse => ?_⟩
    · -- `--` goes back
      have key : ∀ {b : List Iter} {ns : List Ptr}, Roots b ns → ∀ {a : List Iter} {xs : List (Stack l)},
          view W l w = a ++ (b ++ ⟨n, .trailing⟩ :: c) →
          List.IsChain (fun x y => (fo W.heap l).childIncr x = some y) (xs ++ [e]) →
          (∀ x ∈ xs ++ [e], InUse W t w l x) → xs.map (shows W.heap l) = ns.map (⟨·, .leading⟩) →
          List.IsChain (fun x y => (fo W.heap l).childIncr x = some y ∧
            ∃ x', (fo W.heap l).childDecr y = some x' ∧ shows W.heap l x' = shows W.heap l x) (xs ++ [e]) := by
        intro b ns hr
        induction hr with
        | nil =>
          intro a xs hv _ _ hx
          simp only [List.map_nil, List.map_eq_nil_iff] at hx
          subst hx
          simp
        | @cons m b c' ns hb hr ih =>
          intro a xs hv hch hin hx
          cases xs with
          | nil => simp at hx
          | cons x xs =>
            simp only [List.map_cons, List.cons.injEq] at hx
            rw [List.cons_append, List.isChain_cons] at hch ⊢
            refine ⟨fun y hy => ⟨hch.1 y hy, ?_⟩, ih (a := a ++ (⟨m, .leading⟩ :: (b ++ [⟨m, .trailing⟩]))) (by simpa using hv) hch.2
              (fun z hz => hin z (by simp only [List.cons_append, List.mem_cons]; exact .inr hz)) hx.2⟩
            have hsy : shows W.heap l y = posOf t (c' ++ ⟨n, .trailing⟩ :: c) := by
              cases hr with
              | nil =>
                have : xs = [] := by simpa using hx.2
                subst this
                simp only [List.nil_append, List.head?_cons, Option.mem_some] at hy
                subst hy
                simpa [posOf] using g5
              | cons k _ _ =>
                cases xs with
                | nil => simp at hx
                | cons z xs =>
                  simp only [List.cons_append, List.head?_cons, Option.mem_some] at hy
                  subst hy
                  simp only [List.map_cons, List.cons.injEq] at hx
                  simp only [List.cons_append, posOf_cons]
                  exact hx.2.1
            have hym : y ∈ (xs ++ [e]) := List.mem_of_mem_head? hy
            obtain ⟨x', k1, k2, k3⟩ := L.childDecr (a := a) (b := b) (n := m) (c := c' ++ ⟨n, .trailing⟩ :: c) (by simpa using hv)
              (hin y (by simp only [List.cons_append, List.mem_cons]; exact .inr hym)) hsy
            exact ⟨x', k1, by rw [k3, hx.1]⟩
      exact key hns hv' g2 (fun x hx => (g3 x hx).1) g4
    · have hce := hs.setEdge .trailing hsm
      have hces : shows W.heap l ((fo W.heap l).childEnd s) = ⟨n, .trailing⟩ := by rw [FO.childEnd, L.shSet, hnode]
      refine walk_eq' (z := e) (L.eqCompl (g3 e (by simp)).1 (hce.inUse R).1 (g3 e (by simp)).2.1 hse (by rw [g5]; exact hces.symm)) ?_ g2 g1
      intro x hx
      rw [← Bool.not_eq_true]
      intro he
      have h1 := (L.eqSound he).trans hces
      have h2 : shows W.heap l x ∈ xs.map (shows W.heap l) := List.mem_map_of_mem hx
      rw [g4, h1] at h2
      simp at h2

/-- **C93**: a depth iterator, moved in any way, shows the number of nodes around its own that are shown. -/
theorem c93_depth (hW : Reachable W) (hf : IsForest W t) (ho : order W t = some w) {s : Stack l} {d : Int}
    (hs : Made W t w (.depth :: l) (⟨s, d⟩ : Dep (Stack l))) {a b c : List Iter} {n : Ptr} (hn : node l s = n)
    (hv : view W l w = a ++ (⟨n, .leading⟩ :: (b ++ ⟨n, .trailing⟩ :: c))) : d = (enclosing a c).length := by
  obtain ⟨A, I⟩ := hW.inv
  have R := I.rep t w (I.words_of_order hf ho)
  have L := stack_laws R l
  obtain ⟨⟨h1, a1, b1, h2, h3⟩, -⟩ := hs.inUse R
  simp only at h2 h3
  have hb : Balanced b := L.bal.bracket L.nodup_word hv
  have hlv := level_enclosing (hv ▸ L.bal) (hv ▸ L.nodup_word) hb
  obtain ⟨a', b', h4, h5⟩ := (L.bal.closed (t := t)).depth_other L.nodup h2 .leading
  have e : (shows W.heap l s).node = n := hn
  rw [e] at h4 h5
  have h6 : closed t (view W l w) = (root t :: a) ++ (⟨n, .leading⟩ : Iter) :: (b ++ ⟨n, .trailing⟩ :: c ++ [end_ t]) := by
    rw [hv]; simp [closed, root, end_]
  have h7 := (append_cons_inj (by rw [← h4]; exact L.nodup) (h4.symm.trans h6)).1
  subst h7
  have h8 : level (root t :: a) = level a + 1 := by
    have := level_append [root t] a
    have h9 : level [root t] = 1 := by simp [level, shape, root]
    rw [List.singleton_append, h9] at this
    omega
  simp only [depthAt, if_true, h8] at h5
  rw [h3]
  simp only [depthAt]
  rw [← h5, hlv]
  omega

/-- **C93**: the loop over all positions, forwards and backwards. -/
theorem c93_traverse (hW : Reachable W) (hf : IsForest W t) (ho : order W t = some w) {f e : Stack l} (hm : Made W t w l f)
    (hm' : Made W t w l e) (hs : settled W.heap l f) (hs' : settled W.heap l e) (h : shows W.heap l f = posOf t (view W l w))
    (h' : shows W.heap l e = end_ t) : Balanced (view W l w) ∧
    (∃ xs, walk (fo W.heap l).eq (fo W.heap l).incr f e = some xs ∧ xs.map (shows W.heap l) = view W l w) ∧
    ∃ xs, walkBack (fo W.heap l).eq (fo W.heap l).decr f e = some xs ∧ xs.map (shows W.heap l) = (view W l w).reverse := by
  obtain ⟨A, I⟩ := hW.inv
  have R := I.rep t w (I.words_of_order hf ho)
  have L := stack_laws R l
  exact ⟨L.bal, L.traverse (a := []) rfl (hm.inUse R).1 hs h (hm'.inUse R).1 hs' h',
    L.traverseBack (hm.inUse R).1 hs (a := view W l w) (b := []) (by simp) h (hm'.inUse R).1 hs' h'⟩

/-- **C93**: `postorder_range` over any adaptors visits the trailing edges shown. -/
theorem c93_postorder (hW : Reachable W) (hf : IsForest W t) (ho : order W t = some w) {f e : Stack l} (hm : Made W t w l f)
    (hm' : Made W t w l e) (hs : settled W.heap l f) (hs' : settled W.heap l e) (h : shows W.heap l f = posOf t (view W l w))
    (h' : shows W.heap l e = end_ t) : (fo W.heap l).findEdge e .trailing = some e ∧
    ∃ f' xs, (fo W.heap l).findEdge f .trailing = some f' ∧
      walk (fo W.heap l).eq ((fo W.heap l).edgeIncr .trailing) f' e = some xs ∧
      xs.map (shows W.heap l) = (view W l w).filter (fun y => y.edge = .trailing) := by
  obtain ⟨A, I⟩ := hW.inv
  have R := I.rep t w (I.words_of_order hf ho)
  have L := stack_laws R l
  refine ⟨by rw [FO.findEdge]; simp [L.edge, h', end_], L.postorder (hm'.inUse R).1 hs' h' (a := []) rfl (hm.inUse R).1 hs h⟩

/-- **C93** fails for `preorder_range` over a reversed filter range: to make its end, `find_edge` increments `rend()`, where the filter
iterator moves from the sentinel to the end of its range and applies the predicate there. That is undefined for every forest that is not
empty. -/
theorem c93_preorder_counterexample (hW : Reachable W) (hf : IsForest W t) (ho : order W t = some w) (hne : w ≠ []) {p : T → Bool}
    {s : Stack [Ad.rev, Ad.filter p]} (hs : Made W t w _ s) (hse : settled W.heap _ s) (h : shows W.heap _ s = end_ t) :
    (fo W.heap [Ad.rev, Ad.filter p]).findEdge s .leading = none := by
  obtain ⟨A, I⟩ := hW.inv
  have R := I.rep t w (I.words_of_order hf ho)
  obtain ⟨⟨hU, -⟩, -⟩ := hs.inUse R
  obtain ⟨b, e⟩ := s
  obtain ⟨x, ins, first, last⟩ := b
  have hfi : first = posOf t w := hU.firstS
  have hla : last = end_ t := hU.lastS
  have hset := hse.2
  simp only [shows, end_, Iter.mk.injEq] at h
  have he : e = .trailing := h.2
  subst he
  obtain ⟨xn, xe⟩ := x
  have hxn : xn = t := h.1
  have hxe : xe = .leading := by
    have : Edge.trailing = xe.pivot := hset
    cases xe with
    | leading => rfl
    | trailing => cases this
  subst hxn hxe hfi hla
  obtain ⟨y, w', rfl⟩ := List.exists_cons_of_ne_nil hne
  have hN := R.nodup
  have hy : y ≠ root xn ∧ y ≠ end_ xn := by
    simp only [closed, List.cons_append, List.nodup_cons, List.mem_cons, List.mem_append, root, end_] at hN ⊢
    exact ⟨fun h => hN.1 (.inl h.symm), fun h => hN.2.1 (.inr (.inl h))⟩
  have hd : Forest.decr W.heap (root xn) = some (end_ xn) := R.decr_root
  have hv : W.heap.deref (end_ xn) = none := by
    obtain ⟨n, h1, h2⟩ := R.tail_live
    simp [Heap.deref, end_, h1, h2]
  have hsk : skipB (baseFO W.heap) p (posOf xn (y :: w')) (end_ xn) = none := by
    rw [skipB]
    simp only [end_] at hv hy ⊢
    simp [baseFO, iterEq, posOf_cons, hy.2, hv]
  have hx1 : (root xn = posOf xn (y :: w')) = False := by rw [posOf_cons]; exact eq_false hy.1.symm
  have hinc : (fo W.heap [Ad.rev, Ad.filter p]).incr ⟨⟨root xn, ins, posOf xn (y :: w'), end_ xn⟩, .trailing⟩ = none := by
    show ((filFO (baseFO W.heap) p).decr ⟨root xn, ins, posOf xn (y :: w'), end_ xn⟩ >>= _) = none
    have : (filFO (baseFO W.heap) p).decr ⟨root xn, ins, posOf xn (y :: w'), end_ xn⟩ = none := by
      show (Forest.decr W.heap (root xn) >>= _) = none
      rw [hd]
      simp [baseFO, iterEq]
      intro a ha
      exact absurd (hsk.symm.trans ha) (by simp)
    rw [this]
    rfl
  have : ∀ {σ : Type} (F : FO T σ) (x : σ), F.edge x = .trailing → F.incr x = none → F.findEdge x .leading = none := by
    intro σ F x h1 h2
    rw [FO.findEdge]
    simp [h1, h2]
  exact this _ _ rfl hinc

/-- **C93**: all stacks can be made, and reach all their positions. -/
theorem c93_made (hW : Reachable W) (hf : IsForest W t) (ho : order W t = some w) : ∀ {l : List (Ad T)}, view W l w ≠ [] →
    ∀ (a b : List Iter), view W l w = a ++ b → ∃ s, Made W t w l s ∧ settled W.heap l s ∧ shows W.heap l s = posOf t b := by
  obtain ⟨A, I⟩ := hW.inv
  have R := I.rep t w (I.words_of_order hf ho)
  -- from the first position to the others
  have walkon : ∀ {l : List (Ad T)} {f : Stack l}, Made W t w l f → settled W.heap l f → shows W.heap l f = posOf t (view W l w) →
      ∀ (a b : List Iter), view W l w = a ++ b → ∃ s, Made W t w l s ∧ settled W.heap l s ∧ shows W.heap l s = posOf t b := by
    intro l f h1 h2 h3 a
    have L := stack_laws R l
    induction a using List.reverseRecOn with
    | nil => intro b hv; exact ⟨f, h1, h2, by rw [h3, hv]; rfl⟩
    | append_singleton a x ih =>
      intro b hv
      obtain ⟨s, k1, k2, k3⟩ := ih (b := x :: b) (by simpa using hv)
      rw [posOf_cons] at k3
      obtain ⟨s', e1, e2, e3, e4⟩ := L.next (a := a) (c := b) (by simpa using hv) (k1.inUse R).1 k3
      exact ⟨s', .incr k1 (by rw [k3]; exact L.ne_end (by rw [hv]; simp)) e1, e3, e4⟩
  intro l
  induction l with
  | nil =>
    intro hne
    have hne' : w ≠ [] := hne
    have hm : posOf t w ∈ w ++ [end_ t] := by cases w <;> simp [posOf]
    exact walkon (l := []) (f := posOf t w) (.plain hm) trivial rfl
  | cons x l ih =>
    have L := stack_laws R l
    intro hne
    cases x with
    | rev =>
      have hne' : view W l w ≠ [] := by
        intro h; exact hne (by show mirror (view W l w) = []; rw [h]; rfl)
      obtain ⟨e, k1, k2, k3⟩ := ih hne' (view W l w) [] (by simp)
      obtain ⟨u, x, hx⟩ : ∃ u x, view W l w = u ++ [x] := by
        rcases List.eq_nil_or_concat (view W l w) with h | ⟨u, x, h⟩
        · exact absurd h hne'
        · exact ⟨u, x, by rw [h, List.concat_eq_append]⟩
      obtain ⟨b, e1, e2, e3, e4⟩ := L.prev (a := u) (x := x) (c := []) hx (k1.inUse R).1 k3
      have hmk : Rev.mk' (fo W.heap l) e = some ⟨b, ((fo W.heap l).edge b).pivot⟩ := by simp [Rev.mk', e1]
      have hne2 : shows W.heap l e ≠ posOf t (view W l w) := by
        rw [k3, posOf_nil]
        obtain ⟨y, v, hy⟩ := List.exists_cons_of_ne_nil hne'
        rw [hy, posOf_cons]
        exact (L.ne_end (by rw [hy]; simp)).symm
      refine walkon (l := .rev :: l) (f := (⟨b, ((fo W.heap l).edge b).pivot⟩ : Rev (Stack l))) (.rev k1 hne2 hmk) ⟨e3, rfl⟩ ?_
      show shows W.heap (.rev :: l) _ = posOf t (mirror (view W l w))
      have : shows W.heap (.rev :: l) ⟨b, ((fo W.heap l).edge b).pivot⟩ = x.pivot := by rw [← e4]; rfl
      rw [this, hx]
      simp [mirror, posOf]
    | depth =>
      obtain ⟨f, k1, k2, k3⟩ := ih hne [] (view W l w) rfl
      have hB := L.bal
      have hdec : ∃ n b c, view W l w = [] ++ (⟨n, .leading⟩ :: (b ++ ⟨n, .trailing⟩ :: c)) := by
        generalize hq : view W l w = q at hB
        cases hB with
        | nil => exact absurd hq hne
        | cons n _ _ => exact ⟨n, _, _, rfl⟩
      obtain ⟨n, b, c, hv⟩ := hdec
      have hn : n = node l f := by
        rw [hv, List.nil_append, posOf_cons] at k3
        exact (congrArg Iter.node k3).symm
      exact walkon (l := .depth :: l) (f := (⟨f, 0⟩ : Dep (Stack l))) (.depth k1 hn hv (by simp [enclosing, nodes])) k2 k3
    | filter p =>
      obtain ⟨w', hw'⟩ := L.bal.filtered (okVal (valueAt W.heap) p)
      have ew : w' = view W (.filter p :: l) w := hw'.eq_shown L.nodup_word
      subst ew
      have hne' : view W l w ≠ [] := by
        intro h
        have := hw'.sublist
        rw [h] at this
        exact hne (List.sublist_nil.1 this)
      obtain ⟨f, k1, k2, k3⟩ := ih hne' [] (view W l w) rfl
      obtain ⟨e, m1, m2, m3⟩ := ih hne' (view W l w) [] (by simp)
      have hfs : FS (okVal (valueAt W.heap) p) (view W l w) (view W (.filter p :: l) w) := by
        simpa using hw'.fs (r := []) (r' := []) .nil
      obtain ⟨x, e1, e2, e3, e4⟩ := L.skipF (last := e) m3 hfs (a := []) rfl (k1.inUse R).1 k2 k3
      exact walkon (l := .filter p :: l) (f := (⟨x, true, f, e⟩ : Fil (Stack l)))
        (.filter k1 k2 k3 m3 (by simp [Fil.mk', e1])) e3 e4

/-- `++` of a child iterator, `k` times. -/
def times {σ : Type} (f : σ → Option σ) : Nat → σ → Option σ
  | 0, s => some s
  | k + 1, s => (f s).bind (times f k)

/-- **C93** fails for the children at a reverse iterator: `child_end` assigns the edge and leaves the base, so that from a leading edge
what `++` reaches never compares equal to it. The loop over the children at any reverse iterator on a leading edge goes on forever, for
every forest and every node, with or without children. -/
theorem c93_child_range_counterexample (hW : Reachable W) (hf : IsForest W t) (ho : order W t = some w)
    {s : Stack (Ad.rev :: l)} (hs : Made W t w (.rev :: l) s) (hset : settled W.heap (.rev :: l) s)
    (he : (shows W.heap (.rev :: l) s).edge = .leading) (hm : shows W.heap (.rev :: l) s ∈ view W (.rev :: l) w) :
    ∃ f, (fo W.heap (.rev :: l)).childBegin s = some f ∧ ∀ k, ∃ z, times (fo W.heap (.rev :: l)).childIncr k f = some z ∧
      (fo W.heap (.rev :: l)).eq z ((fo W.heap (.rev :: l)).childEnd s) = false := by
  obtain ⟨A, I⟩ := hW.inv
  have R := I.rep t w (I.words_of_order hf ho)
  have L := stack_laws R (.rev :: l)
  have L0 := stack_laws R l
  obtain ⟨a, b, c, hv, hb⟩ := L.bal.split (n := node (.rev :: l) s) (e := (shows W.heap (.rev :: l) s).edge) hm
  generalize hn : node (.rev :: l) s = n at hv
  have hmem : ∀ e, (⟨n, e⟩ : Iter) ∈ view W (.rev :: l) w := by intro e; rw [hv]; cases e <;> simp
  have hlead := hs.setEdge .leading hm
  have hls : shows W.heap (.rev :: l) ((fo W.heap (.rev :: l)).setEdge s .leading) = ⟨n, .leading⟩ := by
    rw [L.shSet]; exact congrArg (Iter.mk · _) hn
  obtain ⟨f, e1, e2, e3, e4⟩ := L.next (a := a) (c := b ++ ⟨n, .trailing⟩ :: c) hv (hlead.inUse R).1 hls
  refine ⟨f, e1, ?_⟩
  have hne : ∀ z, settled W.heap (.rev :: l) z → (fo W.heap (.rev :: l)).eq z ((fo W.heap (.rev :: l)).childEnd s) = false := by
    intro z hz
    rw [← Bool.not_eq_true]
    intro hq
    have hq' : (fo W.heap l).eq (Rev.base z) (Rev.base s) = true ∧ Rev.edge z = .trailing := by
      simpa [fo, revFO, FO.childEnd] using hq
    have h1 := congrArg Iter.edge (L0.eqSound hq'.1)
    have h2 : Rev.edge s = .leading := he
    have h3 := hz.2
    have h4 := hset.2
    rw [L0.edge, h1] at h3
    rw [L0.edge] at h4
    rw [← h4, hq'.2, h2] at h3
    cases h3
  -- where the child iterator is
  have key : ∀ k z, InUse W t w (.rev :: l) z → settled W.heap (.rev :: l) z →
      (∃ u v, b = u ++ v ∧ Balanced v ∧ shows W.heap (.rev :: l) z = posOf t (v ++ ⟨n, .trailing⟩ :: c)) →
      ∃ z', times (fo W.heap (.rev :: l)).childIncr k z = some z' ∧ settled W.heap (.rev :: l) z' := by
    intro k
    induction k with
    | zero => intro z _ hz _; exact ⟨z, rfl, hz⟩
    | succ k ih =>
      rintro z hU hz ⟨u, v, rfl, hbv, hp⟩
      cases hbv with
      | nil =>
        rw [List.nil_append, posOf_cons] at hp
        obtain ⟨z1, g1, g2, g3, g4⟩ := L.next (a := a) (c := u ++ [] ++ ⟨n, .trailing⟩ :: c) (s := (fo W.heap (.rev :: l)).setEdge z .leading) hv
          (L.set _ hU (by rw [hp]; exact hmem _)) (by rw [L.shSet, hp])
        obtain ⟨z', q1, q2⟩ := ih z1 g2 g3 ⟨[], u ++ [], by simp, hb, g4⟩
        refine ⟨z', ?_, q2⟩
        simp only [times, FO.childIncr, L.edge, hp, Edge.pivot, g1, Option.bind_some]
        exact q1
      | @cons m b' c' hb' hc' =>
        simp only [List.cons_append, posOf_cons] at hp
        have hv2 : view W (.rev :: l) w = (a ++ ⟨n, .leading⟩ :: (u ++ ⟨m, .leading⟩ :: b')) ++ ⟨m, .trailing⟩ :: (c' ++ ⟨n, .trailing⟩ :: c) := by
          rw [hv]; simp
        obtain ⟨z1, g1, g2, g3, g4⟩ := L.next hv2 (s := (fo W.heap (.rev :: l)).setEdge z .trailing)
          (L.set _ hU (by rw [hp, hv]; simp)) (by rw [L.shSet, hp])
        obtain ⟨z', q1, q2⟩ := ih z1 g2 g3 ⟨u ++ ⟨m, .leading⟩ :: (b' ++ [⟨m, .trailing⟩]), c', by simp, hc', g4⟩
        refine ⟨z', ?_, q2⟩
        simp only [times, FO.childIncr, L.edge, hp, Edge.pivot, g1, Option.bind_some]
        exact q1
  intro k
  obtain ⟨z, h1, h2⟩ := key k f e2 e3 ⟨[], b, rfl, hb, e4⟩
  exact ⟨z, h1, hne z h2⟩

/-! ## Examples: the demo forest `1 (2 3) 4`, without the node that holds 20, reversed -/

abbrev demoAds : List (Ad Nat) := [.rev, .filter (fun v => v != 20)]

theorem demo_view {W : World Nat} (I : Inv W demoState) : view W demoAds demoWord = [L 4, R 4, L 1, L 3, R 3, R 1] ∧
    view W [.filter (fun v => v != 20)] demoWord = [L 1, L 3, R 3, R 1, L 4, R 4] := by
  have hval : ∀ m v, W.value m = some v ↔ demoState.val m = some v := fun m v => by rw [← I.val m]
  have hN : demoWord.Nodup := (I.rep 0 demoWord rfl).nodup_word
  have ok : ∀ n, (n = 1 ∨ n = 3 ∨ n = 4) → ∃ v, W.value n = some v ∧ (v != 20) = true := by
    rintro n h
    refine ⟨10 * n, (hval _ _).2 ?_, ?_⟩ <;> rcases h with rfl | rfl | rfl <;> decide
  have hf : Filtered (fun m => ∃ v, W.value m = some v ∧ (v != 20) = true) demoWord [L 1, L 3, R 3, R 1, L 4, R 4] := by
    refine .keep 1 (b := [L 2, R 2, L 3, R 3]) (b' := [L 3, R 3]) (c := [L 4, R 4]) (c' := [L 4, R 4]) (ok 1 (by simp)) ?_ ?_
    · refine .drop 2 (b := []) (c := [L 3, R 3]) ?_ .nil (.keep 3 (b := []) (b' := []) (ok 3 (by simp)) .nil .nil)
      rintro ⟨v, h1, h2⟩
      rw [hval] at h1
      simp [demoState] at h1
      subst h1
      simp at h2
    · exact .keep 4 (b := []) (b' := []) (ok 4 (by simp)) .nil .nil
  have h := hf.eq_shown hN
  constructor
  · show mirror (shown _ demoWord) = _
    rw [← h]
    rfl
  · exact h.symm

-- `c93_made`, `c93_navigate`: node 1 of the reversed filter has the child 3 and no parent; its other neighbour is 4
example : ∃ (W : World Nat) (s : Stack demoAds), Reachable W ∧ IsForest W 0 ∧ order W 0 = some demoWord ∧
    Made W 0 demoWord demoAds s ∧ node demoAds s = 1 ∧ shows W.heap demoAds s = L 1 ∧ settled W.heap demoAds s ∧
    shows W.heap demoAds s ∈ view W demoAds demoWord ∧
    view W demoAds demoWord = [L 4, R 4] ++ (L 1 :: ([L 3, R 3] ++ R 1 :: [])) := by
  obtain ⟨W, h, I⟩ := demo
  have hv := (demo_view I).1
  have hf : IsForest W 0 := I.isForest_iff.mpr ⟨demoWord, rfl⟩
  have ho : order W 0 = some demoWord := I.order rfl
  obtain ⟨s, h1, h2, h3⟩ := c93_made h hf ho (l := demoAds) (by rw [hv]; simp) [L 4, R 4] [L 1, L 3, R 3, R 1] hv
  exact ⟨W, s, h, hf, ho, h1, congrArg Iter.node h3, h3, h2, by rw [h3, hv, posOf_cons]; simp, hv⟩

-- at the trailing edge `child_end` is settled, so the loop over the children ends there
example : ∃ (W : World Nat) (s : Stack demoAds), Made W 0 demoWord demoAds s ∧ shows W.heap demoAds s = R 1 ∧
    settled W.heap demoAds ((fo W.heap demoAds).childEnd s) ∧
    ∃ f x, (fo W.heap demoAds).childBegin s = some f ∧ shows W.heap demoAds x = L 3 ∧
      walk (fo W.heap demoAds).eq (fo W.heap demoAds).childIncr f ((fo W.heap demoAds).childEnd s) = some [x] := by
  obtain ⟨W, h, I⟩ := demo
  have hv := (demo_view I).1
  have hf : IsForest W 0 := I.isForest_iff.mpr ⟨demoWord, rfl⟩
  have ho : order W 0 = some demoWord := I.order rfl
  obtain ⟨s, h1, h2, h3⟩ := c93_made h hf ho (l := demoAds) (by rw [hv]; simp) [L 4, R 4, L 1, L 3, R 3] [R 1] hv
  have hce : (fo W.heap demoAds).childEnd s = s := by
    have h4 := congrArg Iter.edge h3
    show Rev.mk (Rev.base s) .trailing = s
    have : Rev.edge s = .trailing := h4
    rw [← this]
    rfl
  have h6 : settled W.heap demoAds ((fo W.heap demoAds).childEnd s) := by rw [hce]; exact h2
  obtain ⟨-, -, ns, f, xs, e, k1, k2, -, -, -, k3, -, k4⟩ := c93_navigate h hf ho h1 (n := 1) (a := [L 4, R 4]) (b := [L 3, R 3]) (c := [])
    (congrArg Iter.node h3) hv
  have hns : ns = [3] := by
    generalize hq : [L 3, R 3] = q at k1
    cases k1 with
    | nil => simp at hq
    | @cons n b c ns hb hr =>
      simp only [List.cons.injEq, Iter.mk.injEq, and_true] at hq
      obtain ⟨rfl, hq⟩ := hq
      cases b with
      | nil =>
        simp only [List.nil_append, List.cons.injEq, true_and] at hq
        subst hq
        generalize hq : ([] : List Iter) = q at hr
        cases hr with
        | nil => rfl
        | cons _ _ _ => simp at hq
      | cons _ b => simp at hq
  subst hns
  obtain ⟨x, rfl⟩ : ∃ x, xs = [x] := List.length_eq_one_iff.1 (by simpa using congrArg List.length k3)
  exact ⟨W, s, h1, h3, h6, f, x, k2, by simpa using k3, k4 h6⟩

-- `c93_depth`: over the reversed filter, at node 3
example : ∃ (W : World Nat) (s : Stack demoAds), Reachable W ∧ IsForest W 0 ∧ order W 0 = some demoWord ∧
    Made W 0 demoWord (.depth :: demoAds) (⟨s, 1⟩ : Dep (Stack demoAds)) ∧ node demoAds s = 3 := by
  obtain ⟨W, h, I⟩ := demo
  have hv := (demo_view I).1
  have hf : IsForest W 0 := I.isForest_iff.mpr ⟨demoWord, rfl⟩
  have ho : order W 0 = some demoWord := I.order rfl
  obtain ⟨s, h1, h2, h3⟩ := c93_made h hf ho (l := demoAds) (by rw [hv]; simp) [L 4, R 4, L 1] [L 3, R 3, R 1] hv
  exact ⟨W, s, h, hf, ho, .depth (a := [L 4, R 4, L 1]) (b := []) (c := [R 1]) (n := 3) h1 (congrArg Iter.node h3).symm
    (by rw [hv]; rfl) (by decide), congrArg Iter.node h3⟩

-- `c93_traverse`, `c93_postorder`, `c93_preorder_counterexample`
example : ∃ (W : World Nat) (f e : Stack demoAds), Reachable W ∧ IsForest W 0 ∧ order W 0 = some demoWord ∧
    Made W 0 demoWord demoAds f ∧ Made W 0 demoWord demoAds e ∧ settled W.heap demoAds f ∧ settled W.heap demoAds e ∧
    shows W.heap demoAds f = posOf 0 (view W demoAds demoWord) ∧ shows W.heap demoAds e = end_ 0 := by
  obtain ⟨W, h, I⟩ := demo
  have hv := (demo_view I).1
  have hf : IsForest W 0 := I.isForest_iff.mpr ⟨demoWord, rfl⟩
  have ho : order W 0 = some demoWord := I.order rfl
  obtain ⟨f, h1, h2, h3⟩ := c93_made h hf ho (l := demoAds) (by rw [hv]; simp) [] _ rfl
  obtain ⟨e, k1, k2, k3⟩ := c93_made h hf ho (l := demoAds) (by rw [hv]; simp) (view W demoAds demoWord) [] (by simp)
  exact ⟨W, f, e, h, hf, ho, h1, k1, h2, k2, h3, k3⟩

/-! ## Over the iterators of a forest these are the adaptors of `Adaptors.lean` -/

def Rev.plain (s : Rev Iter) : RIt := ⟨s.base, s.edge⟩
def Dep.plain (s : Dep Iter) : DIt := ⟨s.x, s.depth⟩
def Fil.plain (s : Fil Iter) : FIt := ⟨s.x, s.inside, s.first, s.last⟩

theorem rev_plain (h : Heap T) (s s' : Rev Iter) : ((revFO (baseFO h)).incr s).map Rev.plain = revIncr h s.plain ∧
    ((revFO (baseFO h)).decr s).map Rev.plain = revDecr h s.plain ∧ (revFO (baseFO h)).eq s s' = revEq s.plain s'.plain := by
  refine ⟨?_, ?_, rfl⟩
  · simp only [revFO, baseFO, revIncr, Rev.plain]
    cases Forest.decr h ⟨s.base.node, s.edge.pivot⟩ <;> rfl
  · simp only [revFO, baseFO, revDecr, Rev.plain]
    cases Forest.incr h ⟨s.base.node, s.edge.pivot⟩ <;> rfl

theorem dep_plain (h : Heap T) (s : Dep Iter) : ((depFO (baseFO h)).incr s).map Dep.plain = depthIncr h s.plain ∧
    ((depFO (baseFO h)).decr s).map Dep.plain = depthDecr h s.plain := by
  constructor
  · simp only [depFO, baseFO, depthIncr, Dep.plain]
    cases Forest.incr h s.x <;> rfl
  · simp only [depFO, baseFO, depthDecr, Dep.plain]
    cases Forest.decr h s.x <;> rfl

end

end Verif.Forest
