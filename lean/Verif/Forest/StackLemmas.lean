import Verif.Forest.Stack
import Verif.Forest.Props3

/-! # Laws of full order iterators, and that the adaptors keep them -/

namespace Verif.Forest

variable {T σ : Type}

theorem Edge.pivot_pivot (e : Edge) : e.pivot.pivot = e := by cases e <;> rfl

theorem Iter.pivot_pivot (x : Iter) : x.pivot.pivot = x := by simp [Iter.pivot, Edge.pivot_pivot]

/-- `F` is an iterator over the positions `w` (and the sentinel `t`), where `V` are the iterators in use, `sh` is what an iterator shows
and `N` are those that compare as they should. -/
structure Laws (F : FO T σ) (V N : σ → Prop) (sh : σ → Iter) (val : Ptr → Option T) (t : Ptr) (w : List Iter) : Prop where
  bal : Balanced w
  nodup : (closed t w).Nodup
  live : ∀ x ∈ w, ∃ v, val x.node = some v
  mem : ∀ {s}, V s → sh s ∈ closed t w
  edge : ∀ s, F.edge s = (sh s).edge
  set : ∀ {s} e, V s → sh s ∈ w → V (F.setEdge s e)
  shSet : ∀ s e, sh (F.setEdge s e) = ⟨(sh s).node, e⟩
  setSame : ∀ s, F.setEdge s (F.edge s) = s
  incr : ∀ {s a y b}, V s → closed t w = a ++ sh s :: y :: b → ∃ s', F.incr s = some s' ∧ V s' ∧ N s' ∧ sh s' = y
  decr : ∀ {s a x b}, V s → closed t w = a ++ x :: sh s :: b → ∃ s', F.decr s = some s' ∧ V s' ∧ N s' ∧ sh s' = x
  eqSound : ∀ {s s'}, F.eq s s' = true → sh s = sh s'
  eqCompl : ∀ {s s'}, V s → V s' → N s → N s' → sh s = sh s' → F.eq s s' = true
  eqNode : ∀ s s', F.eqNode s s' = decide ((sh s).node = (sh s').node)
  deref : ∀ s, F.deref s = val (sh s).node

/-! ## The iterators of a forest -/

theorem Rep.laws {h : Heap T} {t : Ptr} {w : List Iter} (R : Rep h t w) :
    Laws (baseFO h) (· ∈ closed t w) (fun _ => True) id (valueAt h) t w where
  bal := R.balanced
  nodup := R.nodup
  live x hx := by
    obtain ⟨n, v, h1, h2⟩ := R.live x hx
    exact ⟨v, by simp [valueAt, h1, h2]⟩
  mem h := h
  edge _ := rfl
  set e _ hw := by
    have := R.balanced.mem_edge hw e
    simp only [id_eq] at this
    simp [closed, baseFO, this]
  shSet _ _ := rfl
  setSame _ := rfl
  incr _ hc := ⟨_, R.incr_adj hc, by rw [hc]; simp, trivial, rfl⟩
  decr _ hc := ⟨_, R.decr_adj hc, by rw [hc]; simp, trivial, rfl⟩
  eqSound h := by simpa [baseFO, iterEq] using h
  eqCompl _ _ _ _ h := by simpa [baseFO, iterEq] using h
  eqNode s s' := by simp [baseFO, beq_eq_decide]
  deref s := rfl

/-! ## `reverse_fullorder_iterator` -/

theorem mirror_closed (t : Ptr) (w : List Iter) : closed t (mirror w) = mirror (closed t w) := by
  simp [closed, mirror, Iter.pivot, Edge.pivot]

theorem mirror_mirror (w : List Iter) : mirror (mirror w) = w := by
  simp [mirror, List.map_reverse, Function.comp_def, Iter.pivot_pivot]

theorem mem_mirror {x : Iter} {w : List Iter} : x ∈ mirror w ↔ x.pivot ∈ w := by
  simp only [mirror, List.mem_map, List.mem_reverse]
  constructor
  · rintro ⟨y, hy, rfl⟩; rwa [Iter.pivot_pivot]
  · intro h; exact ⟨_, h, Iter.pivot_pivot x⟩

theorem mirror_append (a b : List Iter) : mirror (a ++ b) = mirror b ++ mirror a := by simp [mirror]

theorem mirror_cons (x : Iter) (b : List Iter) : mirror (x :: b) = mirror b ++ [x.pivot] := by simp [mirror]

variable {F : FO T σ} {V N : σ → Prop} {sh : σ → Iter} {val : Ptr → Option T} {t : Ptr} {w : List Iter}

theorem Laws.rev (L : Laws F V N sh val t w) :
    Laws (revFO F) (fun s => V s.base ∧ (sh s.base ∈ w ∨ s.edge = (F.edge s.base).pivot))
      (fun s => N s.base ∧ s.edge = (F.edge s.base).pivot) (fun s => ⟨(sh s.base).node, s.edge⟩) val t (mirror w) := by
  have piv : ∀ s : Rev σ, s.edge = (F.edge s.base).pivot → (⟨(sh s.base).node, s.edge⟩ : Iter) = (sh s.base).pivot := by
    intro s hs; rw [hs, L.edge]; rfl
  have unpiv : ∀ s : Rev σ, V s.base ∧ (sh s.base ∈ w ∨ s.edge = (F.edge s.base).pivot) → V (F.setEdge s.base s.edge.pivot) := by
    rintro s ⟨h1, h2 | h2⟩
    · exact L.set _ h1 h2
    · rw [h2, Edge.pivot_pivot, L.setSame]; exact h1
  refine { bal := L.bal.mirror, nodup := ?_, live := ?_, mem := ?_, edge := fun _ => rfl, set := ?_, shSet := fun _ _ => rfl,
           setSame := fun _ => rfl, incr := ?_, decr := ?_, eqSound := ?_, eqCompl := ?_, eqNode := ?_, deref := ?_ }
  · rw [mirror_closed, mirror]
    refine (List.nodup_reverse.2 L.nodup).map fun x y h => ?_
    rw [← Iter.pivot_pivot x, h, Iter.pivot_pivot]
  · intro x hx
    exact L.live x.pivot (mem_mirror.1 hx)
  · rintro s ⟨h1, h2 | h2⟩
    · have := L.bal.mem_edge h2 s.edge.pivot
      have : (⟨(sh s.base).node, s.edge⟩ : Iter) ∈ mirror w := mem_mirror.2 this
      simp [closed, this]
    · rw [piv s h2, mirror_closed, mem_mirror, Iter.pivot_pivot]
      exact L.mem h1
  · rintro s e ⟨h1, h2⟩ h3
    refine ⟨h1, .inl ?_⟩
    have := L.bal.mem_edge (mem_mirror.1 h3) (sh s.base).edge
    exact this
  · intro s a y b hs hc
    have hc' := congrArg mirror hc
    rw [mirror_closed, mirror_mirror, mirror_append, mirror_cons, mirror_cons] at hc'
    obtain ⟨b', h1, h2, h3, h4⟩ := L.decr (s := F.setEdge s.base s.edge.pivot) (a := mirror b) (x := y.pivot) (b := mirror a)
      (unpiv s hs) (by rw [L.shSet, hc']; simp [Iter.pivot])
    refine ⟨⟨b', (F.edge b').pivot⟩, by simp [revFO, h1], ⟨h2, .inr rfl⟩, ⟨h3, rfl⟩, ?_⟩
    rw [piv ⟨b', _⟩ rfl, h4, Iter.pivot_pivot]
  · intro s a x b hs hc
    have hc' := congrArg mirror hc
    rw [mirror_closed, mirror_mirror, mirror_append, mirror_cons, mirror_cons] at hc'
    obtain ⟨b', h1, h2, h3, h4⟩ := L.incr (s := F.setEdge s.base s.edge.pivot) (a := mirror b) (y := x.pivot) (b := mirror a)
      (unpiv s hs) (by rw [L.shSet, hc']; simp [Iter.pivot])
    refine ⟨⟨b', (F.edge b').pivot⟩, by simp [revFO, h1], ⟨h2, .inr rfl⟩, ⟨h3, rfl⟩, ?_⟩
    rw [piv ⟨b', _⟩ rfl, h4, Iter.pivot_pivot]
  · intro s s' h
    simp only [revFO, Bool.and_eq_true, decide_eq_true_eq] at h
    rw [L.eqSound h.1, h.2]
  · rintro s s' ⟨h1, -⟩ ⟨h2, -⟩ ⟨h3, h3'⟩ ⟨h4, h4'⟩ h5
    simp only [Iter.mk.injEq] at h5
    simp only [revFO, Bool.and_eq_true, decide_eq_true_eq]
    refine ⟨L.eqCompl h1 h2 h3 h4 ?_, h5.2⟩
    have := h5.2
    rw [h3', h4', L.edge, L.edge] at this
    have h6 : (sh s.base).edge = (sh s'.base).edge := by
      rw [← Edge.pivot_pivot (sh s.base).edge, this, Edge.pivot_pivot]
    have e1 : ∀ x y : Iter, x.node = y.node → x.edge = y.edge → x = y := by
      rintro ⟨a, b⟩ ⟨c, d⟩ h h'; simp_all
    exact e1 _ _ h5.1 h6
  · intro s s'; exact L.eqNode _ _
  · intro s; exact L.deref _

/-! ## `depth_fullorder_iterator` -/

/-- The depth at the position `x`, in terms of the word with the sentinel. -/
def DepthOk (t : Ptr) (w : List Iter) (x : Iter) (d : Int) : Prop := ∃ a b, closed t w = a ++ x :: b ∧ d = depthAt a x - 1

theorem Balanced.depth_other {w a b : List Iter} {x : Iter} (hB : Balanced w) (hN : w.Nodup) (hw : w = a ++ x :: b) (e : Edge) :
    ∃ a' b', w = a' ++ (⟨x.node, e⟩ : Iter) :: b' ∧ depthAt a' ⟨x.node, e⟩ = depthAt a x := by
  obtain ⟨n, f⟩ := x
  obtain ⟨u, s, v, hu, hs⟩ := hB.split (n := n) (e := f) (by rw [hw]; simp)
  have hv : w = (u ++ ⟨n, .leading⟩ :: s) ++ ⟨n, .trailing⟩ :: v := by rw [hu]; simp
  have hl : Forest.level (u ++ (⟨n, .leading⟩ : Iter) :: s) = Forest.level u + 1 := by
    rw [show u ++ (⟨n, .leading⟩ : Iter) :: s = (u ++ [⟨n, .leading⟩]) ++ s by simp, level_append, level_concat, hs.level]
    simp [edgeSign]
  have hd : depthAt a ⟨n, f⟩ = Forest.level u := by
    cases f with
    | leading =>
      have := (append_cons_inj (a := a) (b := b) (x := (⟨n, .leading⟩ : Iter)) (by rw [← hw]; exact hN) (hw ▸ hu)).1
      simp [depthAt, this]
    | trailing =>
      have := (append_cons_inj (a := a) (b := b) (x := (⟨n, .trailing⟩ : Iter)) (by rw [← hw]; exact hN) (hw ▸ hv)).1
      simp [depthAt, this, hl]
  cases e with
  | leading => exact ⟨u, _, hu, by rw [hd]; simp [depthAt]⟩
  | trailing => exact ⟨_, _, hv, by rw [hd]; simp [depthAt, hl]⟩

theorem Laws.dep (L : Laws F V N sh val t w) :
    Laws (depFO F) (fun s => V s.x ∧ DepthOk t w (sh s.x) s.depth) (fun s => N s.x) (fun s => sh s.x) val t w := by
  refine { bal := L.bal, nodup := L.nodup, live := L.live, mem := fun h => L.mem h.1, edge := fun s => L.edge s.x, set := ?_,
           shSet := fun s e => L.shSet s.x e, setSame := ?_, incr := ?_, decr := ?_, eqSound := fun h => L.eqSound h,
           eqCompl := fun h1 h2 h3 h4 h5 => L.eqCompl h1.1 h2.1 h3 h4 h5, eqNode := fun s s' => L.eqNode _ _, deref := fun s => L.deref _ }
  · rintro s e ⟨h1, a, b, h2, h3⟩ h4
    refine ⟨L.set e h1 h4, ?_⟩
    obtain ⟨a', b', h5, h6⟩ := (L.bal.closed (t := t)).depth_other L.nodup h2 e
    exact ⟨a', b', by simp only [depFO]; rw [L.shSet]; exact h5, by simp only [depFO]; rw [L.shSet, h6, h3]⟩
  · intro s
    show (⟨F.setEdge s.x (F.edge s.x), s.depth⟩ : Dep σ) = s
    rw [L.setSame]
  · rintro s a y b ⟨h1, a1, b1, h2, h3⟩ hc
    obtain ⟨s', e1, e2, e3, e4⟩ := L.incr h1 hc
    have ha : a1 = a := (append_cons_inj (by rw [← h2]; exact L.nodup) (h2.symm.trans hc)).1
    subst ha
    refine ⟨_, by simp only [depFO, e1]; rfl, ⟨e2, a1 ++ [sh s.x], b, ?_, ?_⟩, e3, e4⟩
    · simp only [e4]; rw [hc]; simp
    · simp only [L.edge, e4, h3, depthAt, level_concat]
      cases (sh s.x).edge <;> cases y.edge <;> simp [edgeSign] <;> omega
  · rintro s a x b ⟨h1, a1, b1, h2, h3⟩ hc
    obtain ⟨s', e1, e2, e3, e4⟩ := L.decr h1 hc
    have hc' : closed t w = (a ++ [x]) ++ sh s.x :: b := by rw [hc]; simp
    have ha : a1 = a ++ [x] := (append_cons_inj (by rw [← h2]; exact L.nodup) (h2.symm.trans hc')).1
    subst ha
    refine ⟨_, by simp only [depFO, e1]; rfl, ⟨e2, a, sh s.x :: b, ?_, ?_⟩, e3, e4⟩
    · simp only [e4]; rw [hc]
    · simp only [L.edge, e4, h3, depthAt, level_concat]
      cases (sh s.x).edge <;> cases x.edge <;> simp [edgeSign] <;> omega

/-! ## `filter_fullorder_iterator` -/

theorem FS.split {ok : Ptr → Prop} {r r' : List Iter} (hf : FS ok r r') : ∀ {u' x v'}, r' = u' ++ x :: v' →
    ∃ u v, r = u ++ x :: v ∧ FS ok v v' := by
  induction hf with
  | nil => intro u' x v' h; simp at h
  | trail n hf ih =>
    intro u' x v' h
    cases u' with
    | nil => simp only [List.nil_append, List.cons.injEq] at h; obtain ⟨rfl, rfl⟩ := h; exact ⟨[], _, rfl, hf⟩
    | cons z u' =>
      simp only [List.cons_append, List.cons.injEq] at h
      obtain ⟨u, v, rfl, h2⟩ := ih h.2
      exact ⟨⟨n, .trailing⟩ :: u, v, rfl, h2⟩
  | keep n hn hf ih =>
    intro u' x v' h
    cases u' with
    | nil => simp only [List.nil_append, List.cons.injEq] at h; obtain ⟨rfl, rfl⟩ := h; exact ⟨[], _, rfl, hf⟩
    | cons z u' =>
      simp only [List.cons_append, List.cons.injEq] at h
      obtain ⟨u, v, rfl, h2⟩ := ih h.2
      exact ⟨⟨n, .leading⟩ :: u, v, rfl, h2⟩
  | @drop n b r r' hn hb hf ih =>
    intro u' x v' h
    obtain ⟨u, v, rfl, h2⟩ := ih h
    exact ⟨⟨n, .leading⟩ :: (b ++ ⟨n, .trailing⟩ :: u), v, by simp, h2⟩

theorem concat_split {α : Type*} {r u v : List α} {x y : α} (h : r ++ [y] = u ++ x :: v) :
    (v = [] ∧ r = u ∧ y = x) ∨ ∃ v0, v = v0 ++ [y] ∧ r = u ++ x :: v0 := by
  rcases List.eq_nil_or_concat v with rfl | ⟨v0, z, rfl⟩
  · obtain ⟨h1, h2⟩ := List.append_inj' h rfl
    exact .inl ⟨rfl, h1, by simpa using h2⟩
  · rw [List.concat_eq_append] at h ⊢
    rw [show u ++ x :: (v0 ++ [z]) = (u ++ x :: v0) ++ [z] by simp] at h
    obtain ⟨h1, h2⟩ := List.append_inj' h rfl
    exact .inr ⟨v0, by simp at h2; rw [h2], h1⟩

theorem PS.split {ok : Ptr → Prop} {r r' : List Iter} (hf : PS ok r r') : ∀ {u' x v'}, r' = u' ++ x :: v' →
    ∃ u v, r = u ++ x :: v ∧ PS ok u u' := by
  induction hf with
  | nil => intro u' x v' h; simp at h
  | @lead n r r' hf ih =>
    intro u' x v' h
    rcases concat_split h with ⟨rfl, rfl, rfl⟩ | ⟨v0, rfl, h2⟩
    · exact ⟨r, [], rfl, hf⟩
    · obtain ⟨u, v, rfl, h3⟩ := ih h2
      exact ⟨u, v ++ [⟨n, .leading⟩], by simp, h3⟩
  | @keep n r r' hn hf ih =>
    intro u' x v' h
    rcases concat_split h with ⟨rfl, rfl, rfl⟩ | ⟨v0, rfl, h2⟩
    · exact ⟨r, [], rfl, hf⟩
    · obtain ⟨u, v, rfl, h3⟩ := ih h2
      exact ⟨u, v ++ [⟨n, .trailing⟩], by simp, h3⟩
  | @drop n b r r' hn hb hf ih =>
    intro u' x v' h
    obtain ⟨u, v, rfl, h2⟩ := ih h
    exact ⟨u, v ++ ⟨n, .leading⟩ :: b ++ [⟨n, .trailing⟩], by simp, h2⟩

/-- The predicate on nodes. -/
def okVal (val : Ptr → Option T) (p : T → Bool) (n : Ptr) : Prop := ∃ v, val n = some v ∧ p v = true

theorem closed_posOf (t : Ptr) (a r : List Iter) : ∃ r1, closed t (a ++ r) = root t :: a ++ posOf t r :: r1 := by
  cases r with
  | nil => exact ⟨[], by simp [closed, posOf, root, end_]⟩
  | cons x r => exact ⟨r ++ [end_ t], by simp [closed, posOf, root, end_]⟩

theorem closed_priorOf (t : Ptr) (a r : List Iter) : ∃ a1, closed t (a ++ r) = a1 ++ priorOf t a :: (r ++ [end_ t]) := by
  rcases List.eq_nil_or_concat a with rfl | ⟨a, x, rfl⟩
  · exact ⟨[], by simp [closed, priorOf, root, end_]⟩
  · exact ⟨root t :: a, by rw [List.concat_eq_append, priorOf_concat]; simp [closed, root, end_]⟩

theorem Laws.skipF {p : T → Bool} (L : Laws F V N sh val t w) {last : σ} (hl : sh last = end_ t) {r r' : List Iter}
    (hf : FS (okVal val p) r r') : ∀ {a s}, w = a ++ r → V s → N s → sh s = posOf t r →
      ∃ s', skipF F p s last = some s' ∧ V s' ∧ N s' ∧ sh s' = posOf t r' := by
  induction hf with
  | nil =>
    intro a s hw hV hNs hs
    exact ⟨s, by rw [Forest.skipF]; simp [L.edge, hs, posOf, end_], hV, hNs, hs⟩
  | trail n _ _ =>
    intro a s hw hV hNs hs
    rw [posOf_cons] at hs
    exact ⟨s, by rw [Forest.skipF]; simp [L.edge, hs], hV, hNs, by rw [posOf_cons, hs]⟩
  | keep n hn _ _ =>
    intro a s hw hV hNs hs
    rw [posOf_cons] at hs
    have hne : F.eq s last = false := by
      rw [← Bool.not_eq_true]; intro h; have := L.eqSound h; rw [hs, hl] at this; simp [end_] at this
    obtain ⟨v, hv, hp⟩ := hn
    refine ⟨s, ?_, hV, hNs, by rw [posOf_cons, hs]⟩
    rw [Forest.skipF]
    simp [L.edge, L.deref, hs, hne, hv, hp]
  | @drop n b r r' hn hb _ ih =>
    intro a s hw hV hNs hs
    rw [posOf_cons] at hs
    have hne : F.eq s last = false := by
      rw [← Bool.not_eq_true]; intro h; have := L.eqSound h; rw [hs, hl] at this; simp [end_] at this
    obtain ⟨v, hv⟩ := L.live ⟨n, .leading⟩ (by rw [hw]; simp)
    have hp : p v = false := by
      rw [← Bool.not_eq_true]; exact fun h' => hn ⟨v, hv, h'⟩
    have hw1 : w = (a ++ (⟨n, .leading⟩ :: b) ++ [⟨n, .trailing⟩]) ++ r := by rw [hw]; simp
    obtain ⟨r1, hr1⟩ := closed_posOf t (a ++ (⟨n, .leading⟩ :: b) ++ [⟨n, .trailing⟩]) r
    obtain ⟨s1, e1, e2, e3, e4⟩ := L.incr (s := F.setEdge s .trailing) (a := root t :: (a ++ (⟨n, .leading⟩ :: b)))
      (y := posOf t r) (b := r1) (L.set _ hV (by rw [hs, hw]; simp)) (by rw [hw1, hr1, L.shSet, hs]; simp)
    obtain ⟨s', f1, f2⟩ := ih hw1 e2 e3 e4
    refine ⟨s', ?_, f2⟩
    rw [Forest.skipF]
    simp only [L.edge, L.deref, hs, hne, hv, e1]
    simpa [hp] using f1

theorem Laws.skipB {p : T → Bool} (L : Laws F V N sh val t w) {first : σ} (hf1 : sh first = posOf t w) {r r' : List Iter}
    (hf : PS (okVal val p) r r') : ∀ {c s}, w = r ++ c → V s → N s → sh s = priorOf t r →
      ∃ s', skipB F p first s = some s' ∧ V s' ∧ N s' ∧ sh s' = priorOf t r' := by
  have hlead : ∀ {s n}, (⟨n, .trailing⟩ : Iter) ∈ w → sh s = ⟨n, .trailing⟩ → F.eq first s = false := by
    intro s n hm hs
    rw [← Bool.not_eq_true]
    intro h
    have h1 := L.eqSound h
    rw [hs, hf1] at h1
    have hB := L.bal
    cases hB with
    | nil => simp at hm
    | cons m _ _ => simp [posOf] at h1
  induction hf with
  | nil =>
    intro c s hw hV hNs hs
    exact ⟨s, by rw [Forest.skipB]; simp [L.edge, hs, priorOf, root], hV, hNs, hs⟩
  | lead n _ _ =>
    intro c s hw hV hNs hs
    rw [priorOf_concat] at hs
    exact ⟨s, by rw [Forest.skipB]; simp [L.edge, hs], hV, hNs, by rw [priorOf_concat, hs]⟩
  | keep n hn _ _ =>
    intro c s hw hV hNs hs
    rw [priorOf_concat] at hs
    have hne := hlead (by rw [hw]; simp) hs
    obtain ⟨v, hv, hp⟩ := hn
    refine ⟨s, ?_, hV, hNs, by rw [priorOf_concat, hs]⟩
    rw [Forest.skipB]
    simp [L.edge, L.deref, hs, hne, hv, hp]
  | @drop n b r r' hn hb _ ih =>
    intro c s hw hV hNs hs
    rw [priorOf_concat] at hs
    have hne := hlead (by rw [hw]; simp) hs
    obtain ⟨v, hv⟩ := L.live ⟨n, .leading⟩ (by rw [hw]; simp)
    have hp : p v = false := by
      rw [← Bool.not_eq_true]; exact fun h' => hn ⟨v, hv, h'⟩
    have hw1 : w = r ++ (⟨n, .leading⟩ :: b ++ [⟨n, .trailing⟩] ++ c) := by rw [hw]; simp
    obtain ⟨a1, ha1⟩ := closed_priorOf t r (⟨n, .leading⟩ :: b ++ [⟨n, .trailing⟩] ++ c)
    obtain ⟨s1, e1, e2, e3, e4⟩ := L.decr (s := F.setEdge s .leading) (a := a1) (x := priorOf t r)
      (b := b ++ [⟨n, .trailing⟩] ++ c ++ [end_ t]) (L.set _ hV (by rw [hs, hw]; simp)) (by rw [hw1, ha1, L.shSet, hs]; simp)
    obtain ⟨s', f1, f2⟩ := ih hw1 e2 e3 e4
    refine ⟨s', ?_, f2⟩
    rw [Forest.skipB]
    simp only [L.edge, L.deref, hs, hne, hv, e1]
    simpa [hp] using f1

/-- The filter iterators in use: made for the whole of the positions below. -/
structure FilV (V N : σ → Prop) (sh : σ → Iter) (t : Ptr) (w w' : List Iter) (s : Fil σ) : Prop where
  x : V s.x
  mem : sh s.x ∈ closed t w'
  inside : s.inside = true ∨ sh s.x = root t
  first : V s.first
  firstN : N s.first
  firstS : sh s.first = posOf t w
  lastS : sh s.last = end_ t

theorem Laws.fil {p : T → Bool} (L : Laws F V N sh val t w) {w' : List Iter} (hf : Filtered (okVal val p) w w') :
    Laws (filFO F p) (FilV V N sh t w w') (fun s => N s.x) (fun s => sh s.x) val t w' := by
  have hsub := hf.sublist
  have hfs : FS (okVal val p) w w' := by simpa using hf.fs (r := []) (r' := []) .nil
  have hps : PS (okVal val p) w w' := by simpa using hf.ps (r := []) (r' := []) .nil
  have hnd : (closed t w').Nodup := L.nodup.sublist (by
    simp only [closed]; exact (hsub.append (List.Sublist.refl _)).cons_cons _)
  have hmem : ∀ {x}, x ∈ w' → x ∈ w := fun h => hsub.subset h
  have hend : ∀ {a x b}, closed t w' = a ++ end_ t :: x :: b → False := by
    intro a x b h
    have h2 : closed t w' = (root t :: w') ++ end_ t :: [] := by simp [closed, root, end_]
    have := (append_cons_inj (by rw [← h]; exact hnd) (h.symm.trans h2)).2
    simp at this
  refine { bal := hf.balanced_right, nodup := hnd, live := fun x hx => L.live x (hmem hx), mem := fun h => h.mem,
           edge := fun s => L.edge s.x, set := ?_, shSet := fun s e => L.shSet s.x e, setSame := ?_, incr := ?_, decr := ?_,
           eqSound := fun h => L.eqSound h, eqCompl := fun h1 h2 h3 h4 h5 => L.eqCompl h1.x h2.x h3 h4 h5,
           eqNode := fun s s' => L.eqNode _ _, deref := fun s => L.deref _ }
  · intro s e h1 h2
    have h3 : (⟨(sh s.x).node, e⟩ : Iter) ∈ w' := hf.balanced_right.mem_edge h2 e
    refine ⟨L.set e h1.x (hmem h2), by simp only [filFO]; rw [L.shSet]; simp [closed, h3], .inl ?_, h1.first, h1.firstN, h1.firstS, h1.lastS⟩
    refine h1.inside.resolve_right fun h => ?_
    rw [h] at h2
    have : (closed t w').Nodup := hnd
    simp only [closed, List.nodup_cons] at this
    exact this.1 (List.mem_append_left _ h2)
  · intro s
    show ({ s with x := F.setEdge s.x (F.edge s.x) } : Fil σ) = s
    rw [L.setSame]
  · intro s a y b h hc
    -- the positions in the word below
    have hpos : ∃ u r r', w = u ++ r ∧ FS (okVal val p) r r' ∧ sh s.x = priorOf t u ∧ y = posOf t r' ∧ (sh s.x = root t → u = []) := by
      cases a with
      | nil =>
        have hx : sh s.x = root t := by simp only [closed, List.nil_append, List.cons.injEq] at hc; exact hc.1.symm
        refine ⟨[], w, w', rfl, hfs, by rw [hx]; rfl, ?_, fun _ => rfl⟩
        simp only [closed, List.nil_append, List.cons.injEq] at hc
        have := hc.2
        cases w' with
        | nil => simp at this; simp [posOf, this.1.symm, end_]
        | cons z w' => simp at this; simp [posOf, this.1]
      | cons z a =>
        simp only [closed, List.cons_append, List.cons.injEq] at hc
        have hc2 := hc.2
        rcases concat_split hc2 with ⟨h0, -, -⟩ | ⟨v0, hv0, hw'⟩
        · simp at h0
        · obtain ⟨u, v, hu, hv⟩ := hfs.split hw'
          refine ⟨u ++ [sh s.x], v, v0, by rw [hu]; simp, hv, by rw [priorOf_concat], ?_, ?_⟩
          · cases v0 with
            | nil => simp at hv0; simp [posOf, hv0.1, end_]
            | cons z v0 => simp at hv0; simp [posOf, hv0.1]
          · intro hr
            have : root t ∈ w := by rw [hu, hr]; simp
            have hN := L.nodup
            simp only [closed, List.nodup_cons] at hN
            exact absurd (List.mem_append_left _ this) hN.1
    obtain ⟨u, r, r', hw, hr, hx, hy, hroot⟩ := hpos
    have hnl : F.eq s.x s.last = false := by
      rw [← Bool.not_eq_true]; intro h'
      have := L.eqSound h'
      rw [h.lastS] at this
      rw [this] at hc
      exact hend hc
    obtain ⟨a1, ha1⟩ := closed_priorOf t u r
    have hadj : closed t w = a1 ++ sh s.x :: posOf t r :: (r ++ [end_ t]).tail := by
      rw [hw, ha1, hx]
      cases r <;> simp [posOf]
    obtain ⟨x1, e1, e2, e3, e4⟩ := L.incr h.x hadj
    have hin : (if F.eq x1 s.first then true else s.inside) = true := by
      rcases h.inside with h' | h'
      · simp [h']
      · have := hroot h'
        subst this
        rw [List.nil_append] at hw
        have : F.eq x1 s.first = true := L.eqCompl e2 h.first e3 h.firstN (by rw [e4, h.firstS, hw])
        simp [this]
    obtain ⟨x2, f1, f2, f3, f4⟩ := L.skipF h.lastS hr hw e2 e3 e4
    refine ⟨{ s with x := x2, inside := true }, ?_, ⟨f2, ?_, .inl rfl, h.first, h.firstN, h.firstS, h.lastS⟩, f3, by rw [f4, hy]⟩
    · simp only [filFO, hnl, e1]
      simp only [Bool.false_eq_true, if_false, Option.bind_eq_bind, Option.bind_some]
      rw [hin]
      simp [f1]
    · simp only [f4, ← hy, hc]; simp
  · intro s a z b h hc
    have hpos : ∃ u u' r, w = u ++ r ∧ PS (okVal val p) u u' ∧ sh s.x = posOf t r ∧ z = priorOf t u' := by
      have hlast : closed t w' = (root t :: w') ++ [end_ t] := by simp [closed, root, end_]
      rw [hlast, show a ++ z :: sh s.x :: b = (a ++ [z]) ++ sh s.x :: b by simp] at hc
      have hz : ∀ {u' q}, root t :: u' = a ++ [z] ++ q → q = [] → z = priorOf t u' := by
        rintro u' q h1 rfl
        rw [List.append_nil] at h1
        cases a with
        | nil => simp at h1; obtain ⟨rfl, rfl⟩ := h1; rfl
        | cons y a => simp at h1; rw [h1.2, priorOf_concat]
      rcases concat_split hc with ⟨rfl, h1, h2⟩ | ⟨v0, -, h1⟩
      · exact ⟨w, w', [], by simp, hps, by rw [← h2]; rfl, hz (q := []) (by simpa using h1) rfl⟩
      · cases a with
        | nil =>
          simp only [List.nil_append, List.cons_append, List.cons.injEq] at h1
          obtain ⟨rfl, h1⟩ := h1
          obtain ⟨u, v, hu, hv⟩ := hps.split (u' := []) (x := sh s.x) (v' := v0) (by simpa using h1)
          exact ⟨u, [], _, hu, hv, by rw [posOf_cons], rfl⟩
        | cons y a =>
          simp only [List.cons_append, List.cons.injEq] at h1
          obtain ⟨u, v, hu, hv⟩ := hps.split (u' := a ++ [z]) (x := sh s.x) (v' := v0) (by simpa using h1.2)
          exact ⟨u, _, _, hu, hv, by rw [posOf_cons], by rw [priorOf_concat]⟩
    obtain ⟨u, u', r, hw, hu, hx, hz⟩ := hpos
    obtain ⟨a1, ha1⟩ := closed_priorOf t u r
    have hadj : closed t w = a1 ++ priorOf t u :: sh s.x :: (r ++ [end_ t]).tail := by
      rw [hw, ha1, hx]
      cases r <;> simp [posOf]
    obtain ⟨x1, e1, e2, e3, e4⟩ := L.decr h.x hadj
    have hnr : sh s.x ≠ root t := by
      intro hr
      have h2 : closed t w = [] ++ root t :: (w ++ [end_ t]) := by simp [closed, root, end_]
      rw [hr, show a1 ++ priorOf t u :: root t :: (r ++ [end_ t]).tail = (a1 ++ [priorOf t u]) ++ root t :: (r ++ [end_ t]).tail by simp] at hadj
      have := (append_cons_inj (by rw [← hadj]; exact L.nodup) (hadj.symm.trans h2)).1
      simp at this
    have hin := h.inside.resolve_right hnr
    have hz1 : z ∈ closed t w' := by rw [hc]; simp
    have hnl : F.eq x1 s.last = false := by
      rw [← Bool.not_eq_true]; intro h'
      have := L.eqSound h'
      rw [h.lastS, e4] at this
      rw [this] at hadj
      have h2 : closed t w = (root t :: w) ++ end_ t :: [] := by simp [closed, root, end_]
      have := (append_cons_inj (by rw [← hadj]; exact L.nodup) (hadj.symm.trans h2)).2
      simp at this
    cases hq : F.eq s.x s.first with
    | true =>
      have hu0 : u = [] := by
        have h1 := L.eqSound hq
        rw [h.firstS] at h1
        obtain ⟨r1, hr1⟩ := closed_posOf t [] w
        simp only [List.nil_append] at hr1
        have hr1' : closed t w = [root t] ++ sh s.x :: r1 := by rw [hr1, h1]
        obtain ⟨r2, hr2⟩ := closed_posOf t u r
        rw [← hw, ← hx] at hr2
        have := (append_cons_inj (by rw [← hr2]; exact L.nodup) (hr2.symm.trans hr1')).1
        simpa using this
      subst hu0
      have hu' := PS.nil_left hu rfl
      subst hu'
      refine ⟨{ s with x := x1, inside := false }, ?_, ⟨e2, by simp only [e4]; simp [priorOf, closed, root],
        .inr (by simp only [e4]; rfl), h.first, h.firstN, h.firstS, h.lastS⟩, e3, by rw [e4, hz]⟩
      simp [filFO, hq, e1, hnl]
    | false =>
      obtain ⟨x2, f1, f2, f3, f4⟩ := L.skipB h.firstS hu hw e2 e3 e4
      refine ⟨{ s with x := x2, inside := true }, ?_, ⟨f2, by simp only [f4, ← hz]; exact hz1, .inl rfl, h.first, h.firstN, h.firstS,
        h.lastS⟩, f3, by rw [f4, hz]⟩
      simp [filFO, hq, e1, hin, f1]

end Verif.Forest
