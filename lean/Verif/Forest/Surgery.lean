import Verif.Forest.Nav

/-! # Heap surgery: effect of `set_next`, cutting and pasting segments -/

namespace Verif.Forest

variable {T : Type}

/-- Allocation state and value of a node. -/
def dataOf (h : Heap T) (p : Ptr) : Option (Option T) := (h p).map (·.data)

theorem valueAt_eq_dataOf (h : Heap T) (p : Ptr) : valueAt h p = (dataOf h p).join := by
  simp only [valueAt, dataOf]
  cases h p <;> simp

/-- The effect of `set_next(x, y)`. -/
structure NextEff (h h' : Heap T) (x y : Iter) : Prop where
  next_x : h'.link x.node x.edge .next = some y.node
  prior_y : h'.link y.node y.edge .prior = some x.node
  next_other : ∀ r : Iter, r ≠ x → h'.link r.node r.edge .next = h.link r.node r.edge .next
  prior_other : ∀ r : Iter, r ≠ y → h'.link r.node r.edge .prior = h.link r.node r.edge .prior
  data : ∀ r, dataOf h' r = dataOf h r
  frame : ∀ r, r ≠ x.node → r ≠ y.node → h' r = h r

theorem setNext_spec {h : Heap T} {x y : Iter} (hx : (h x.node).isSome) (hy : (h y.node).isSome) :
    ∃ h', setNext h x y = some h' ∧ NextEff h h' x y := by
  obtain ⟨n, hn⟩ := Option.isSome_iff_exists.mp hx
  obtain ⟨m, hm⟩ := Option.isSome_iff_exists.mp hy
  obtain ⟨xn, xe⟩ := x
  obtain ⟨yn, ye⟩ := y
  simp only at hn hm
  by_cases hxy : yn = xn
  · subst hxy
    rw [hn] at hm
    simp only [Option.some.injEq] at hm
    subst hm
    refine ⟨_, by simp [setNext, Heap.setLink, hn]; rfl, ?_⟩
    constructor
    · simp [Heap.link]
    · simp [Heap.link]
    · rintro ⟨r, e⟩ hr
      simp only [Heap.link]
      by_cases hrx : r = yn
      · subst hrx
        have : e ≠ xe := fun he => hr (by rw [he])
        simp [hn, this]
      · simp [hrx]
    · rintro ⟨r, e⟩ hr
      simp only [Heap.link]
      by_cases hrx : r = yn
      · subst hrx
        have : e ≠ ye := fun he => hr (by rw [he])
        simp [hn, this]
      · simp [hrx]
    · intro r
      by_cases hrx : r = yn
      · subst hrx; simp [dataOf, hn]
      · simp [dataOf, hrx]
    · intro r h1 _
      simp only at h1
      simp [h1]
  · refine ⟨_, by simp [setNext, Heap.setLink, hn, hm, hxy]; rfl, ?_⟩
    constructor
    · simp [Heap.link, Ne.symm hxy]
    · simp [Heap.link]
    · rintro ⟨r, e⟩ hr
      simp only [Heap.link]
      by_cases hry : r = yn
      · subst hry; simp [hm]
      · by_cases hrx : r = xn
        · subst hrx
          have : e ≠ xe := fun he => hr (by rw [he])
          simp [hn, this, hry]
        · simp [hrx, hry]
    · rintro ⟨r, e⟩ hr
      simp only [Heap.link]
      by_cases hry : r = yn
      · subst hry
        have : e ≠ ye := fun he => hr (by rw [he])
        simp [hm, this]
      · by_cases hrx : r = xn
        · subst hrx
          simp [hn, hry]
        · simp [hrx, hry]
    · intro r
      by_cases hry : r = yn
      · subst hry; simp [dataOf, hm]
      · by_cases hrx : r = xn
        · subst hrx; simp [dataOf, hn, hry]
        · simp [dataOf, hrx, hry]
    · intro r h1 h2
      simp only at h1 h2
      simp [h1, h2]

theorem NextEff.linked {h h' : Heap T} {x y : Iter} (E : NextEff h h' x y) : Linked h' x y :=
  ⟨E.next_x, E.prior_y⟩

theorem NextEff.linked_other {h h' : Heap T} {x y u v : Iter} (E : NextEff h h' x y) (hu : u ≠ x)
    (hv : v ≠ y) (hl : Linked h u v) : Linked h' u v :=
  ⟨by rw [E.next_other u hu]; exact hl.1, by rw [E.prior_other v hv]; exact hl.2⟩

theorem NextEff.chain {h h' : Heap T} {x y : Iter} (E : NextEff h h' x y) {l : List Iter}
    (hl : List.IsChain (Linked h) l) (hx : x ∉ l.dropLast) (hy : y ∉ l.tail) :
    List.IsChain (Linked h') l := by
  induction l with
  | nil => exact List.IsChain.nil
  | cons a l ih =>
    cases l with
    | nil => exact List.IsChain.singleton a
    | cons b l =>
      rw [List.isChain_cons_cons] at hl ⊢
      simp only [List.dropLast_cons_cons, List.mem_cons, not_or] at hx
      simp only [List.tail_cons, List.mem_cons, not_or] at hy
      exact ⟨E.linked_other (Ne.symm hx.1) (Ne.symm hy.1) hl.1, ih hl.2 hx.2 hy.2⟩

/-- Chains off both touched positions are unaffected. -/
theorem NextEff.chain' {h h' : Heap T} {x y : Iter} (E : NextEff h h' x y) {l : List Iter}
    (hl : List.IsChain (Linked h) l) (hx : x ∉ l) (hy : y ∉ l) : List.IsChain (Linked h') l :=
  E.chain hl (fun hm => hx (List.dropLast_subset _ hm)) (fun hm => hy (List.mem_of_mem_tail hm))

theorem mem_support_closed {t : Ptr} {w : List Iter} {p : Ptr} :
    p ∈ support t w ↔ ∃ x ∈ closed t w, x.node = p := by
  simp only [support, closed, List.mem_cons, List.mem_map, List.mem_append]
  constructor
  · rintro (rfl | ⟨x, hx, rfl⟩)
    · exact ⟨⟨p, .leading⟩, by simp, rfl⟩
    · exact ⟨x, by simp [hx], rfl⟩
  · rintro ⟨x, rfl | hx | hx, rfl⟩
    · simp
    · exact Or.inr ⟨x, hx, rfl⟩
    · simp at hx; subst hx; simp

theorem Rep.tail_data {h : Heap T} {t : Ptr} {w : List Iter} (R : Rep h t w) :
    dataOf h t = some none := by
  obtain ⟨n, h1, h2⟩ := R.tail_live
  simp [dataOf, h1, h2]

theorem Rep.data {h : Heap T} {t : Ptr} {w : List Iter} (R : Rep h t w) {x : Iter} (hx : x ∈ w) :
    ∃ v, dataOf h x.node = some (some v) := by
  obtain ⟨n, v, h1, h2⟩ := R.live x hx
  exact ⟨v, by simp [dataOf, h1, h2]⟩

theorem rep_of_data {h : Heap T} {t : Ptr} {w : List Iter} (hB : Balanced w)
    (hN : (closed t w).Nodup) (hC : List.IsChain (Linked h) (closed t w))
    (hW : Linked h ⟨t, .trailing⟩ ⟨t, .leading⟩) (hT : dataOf h t = some none)
    (hL : ∀ x ∈ w, ∃ v, dataOf h x.node = some (some v)) : Rep h t w := by
  refine ⟨hB, hN, hC, hW, ?_, ?_⟩
  · simp only [dataOf, Option.map_eq_some_iff] at hT
    exact hT
  · intro x hx
    obtain ⟨v, hv⟩ := hL x hx
    simp only [dataOf, Option.map_eq_some_iff] at hv
    obtain ⟨n, h1, h2⟩ := hv
    exact ⟨n, v, h1, h2⟩

theorem Rep.isSome {h : Heap T} {t : Ptr} {w : List Iter} (R : Rep h t w) {x : Iter}
    (hx : x ∈ closed t w) : (h x.node).isSome := by
  simp only [closed, List.mem_cons, List.mem_append, List.not_mem_nil, or_false] at hx
  obtain ⟨n, h1, h2⟩ := R.tail_live
  rcases hx with rfl | hx | rfl
  · simp [h1]
  · obtain ⟨m, v, h3, h4⟩ := R.live x hx
    simp [h3]
  · simp [h1]

/-- A forest does not see changes outside the nodes it occupies. -/
theorem Rep.congr {h h' : Heap T} {t : Ptr} {w : List Iter} (R : Rep h t w)
    (hf : ∀ p ∈ support t w, h' p = h p) : Rep h' t w := by
  have hl : ∀ x y, x ∈ closed t w → y ∈ closed t w → Linked h x y → Linked h' x y := by
    intro x y hx hy hl
    have e1 := hf x.node (mem_support_closed.mpr ⟨x, hx, rfl⟩)
    have e2 := hf y.node (mem_support_closed.mpr ⟨y, hy, rfl⟩)
    simp only [Linked, Heap.link, e1, e2]
    exact hl
  have hc : ∀ l : List Iter, (∀ x ∈ l, x ∈ closed t w) → List.IsChain (Linked h) l →
      List.IsChain (Linked h') l := by
    intro l
    induction l with
    | nil => intros; exact List.IsChain.nil
    | cons a l ih =>
      cases l with
      | nil => intros; exact List.IsChain.singleton a
      | cons b l =>
        intro hm hl'
        rw [List.isChain_cons_cons] at hl' ⊢
        exact ⟨hl a b (hm a (by simp)) (hm b (by simp)) hl'.1,
          ih (fun x hx => hm x (List.mem_cons_of_mem _ hx)) hl'.2⟩
  refine ⟨R.balanced, R.nodup, hc _ (fun _ hx => hx) R.chain, ?_, ?_, ?_⟩
  · exact hl _ _ (by simp [closed]) (by simp [closed]) R.wrap
  · rw [hf t (by simp [support])]; exact R.tail_live
  · intro x hx
    rw [hf x.node (by simp only [support, List.mem_cons, List.mem_map]; exact Or.inr ⟨x, hx, rfl⟩)]
    exact R.live x hx

/-- A detached, internally linked, well nested sequence of nodes. -/
structure Seg (h : Heap T) (S : List Iter) : Prop where
  balanced : Balanced S
  nodup : S.Nodup
  chain : List.IsChain (Linked h) S
  live : ∀ x ∈ S, ∃ v, dataOf h x.node = some (some v)

/-- The position just before the split `w = a ++ b`. -/
def priorOf (t : Ptr) (a : List Iter) : Iter := (a.getLast?).getD (root t)

theorem closed_split {t : Ptr} (a b : List Iter) :
    ∃ A B, closed t (a ++ b) = A ++ priorOf t a :: posOf t b :: B ∧
      A ++ [priorOf t a] = root t :: a ∧ posOf t b :: B = b ++ [end_ t] := by
  obtain ⟨A, hA⟩ : ∃ A, A ++ [priorOf t a] = root t :: a := by
    rcases List.eq_nil_or_concat a with rfl | ⟨a', x, rfl⟩
    · exact ⟨[], by simp [priorOf]⟩
    · exact ⟨root t :: a', by simp [priorOf]⟩
  obtain ⟨B, hB⟩ : ∃ B, posOf t b :: B = b ++ [end_ t] := by
    cases b with
    | nil => exact ⟨[], by simp [posOf]⟩
    | cons x b => exact ⟨b ++ [end_ t], by simp [posOf]⟩
  refine ⟨A, B, ?_, hA, hB⟩
  have : A ++ priorOf t a :: posOf t b :: B = (A ++ [priorOf t a]) ++ (posOf t b :: B) := by simp
  rw [this, hA, hB]
  simp [closed, root, end_]

theorem Rep.incr_split {h : Heap T} {t : Ptr} {a b : List Iter} (R : Rep h t (a ++ b)) :
    incr h (priorOf t a) = some (posOf t b) := by
  obtain ⟨A, B, hc, -, -⟩ := closed_split (t := t) a b
  exact R.incr_adj hc

theorem Rep.decr_split {h : Heap T} {t : Ptr} {a b : List Iter} (R : Rep h t (a ++ b)) :
    decr h (posOf t b) = some (priorOf t a) := by
  obtain ⟨A, B, hc, -, -⟩ := closed_split (t := t) a b
  exact R.decr_adj hc

theorem priorOf_mem {t : Ptr} (a b : List Iter) : priorOf t a ∈ closed t (a ++ b) := by
  obtain ⟨A, B, hc, -, -⟩ := closed_split (t := t) a b
  rw [hc]; simp

theorem posOf_mem {t : Ptr} (a b : List Iter) : posOf t b ∈ closed t (a ++ b) := by
  obtain ⟨A, B, hc, -, -⟩ := closed_split (t := t) a b
  rw [hc]; simp

theorem closed_append {t : Ptr} (a b : List Iter) :
    closed t (a ++ b) = (root t :: a) ++ (b ++ [end_ t]) := by
  simp [closed, root, end_]

theorem priorOf_last {t : Ptr} (a : List Iter) : (root t :: a).getLast? = some (priorOf t a) := by
  rcases List.eq_nil_or_concat a with rfl | ⟨a', x, rfl⟩
  · simp [priorOf]
  · have : root t :: (a' ++ [x]) = (root t :: a') ++ [x] := by simp
    rw [List.concat_eq_append, this, List.getLast?_concat]
    simp [priorOf]

theorem posOf_head {t : Ptr} (b : List Iter) : (b ++ [end_ t]).head? = some (posOf t b) := by
  cases b <;> simp [posOf]

theorem notMem_dropLast {α : Type*} {l : List α} (hN : l.Nodup) {x : α} (hx : l.getLast? = some x) :
    x ∉ l.dropLast := by
  rcases List.eq_nil_or_concat l with rfl | ⟨l', y, rfl⟩
  · simp at hx
  · simp only [List.concat_eq_append, List.getLast?_append, List.getLast?_singleton,
      Option.some_or, Option.some.injEq] at hx
    subst hx
    simp only [List.concat_eq_append, List.dropLast_concat]
    intro hm
    exact disjoint_of_nodup (a := l') (b := [y]) (by simpa using hN) hm (by simp)

theorem notMem_tail {α : Type*} {l : List α} (hN : l.Nodup) {x : α} (hx : l.head? = some x) :
    x ∉ l.tail := by
  cases l with
  | nil => simp at hx
  | cons y l =>
    simp at hx; subst hx
    simpa using (List.nodup_cons.mp hN).1

/-- Cutting out a balanced infix `S`. -/
theorem Rep.cut {h : Heap T} {t : Ptr} {a S c : List Iter} (R : Rep h t (a ++ (S ++ c)))
    (hS : Balanced S) :
    ∃ h', setNext h (priorOf t a) (posOf t c) = some h' ∧ NextEff h h' (priorOf t a) (posOf t c) ∧
      Rep h' t (a ++ c) ∧ Seg h' S := by
  have hxm : priorOf t a ∈ closed t (a ++ (S ++ c)) := priorOf_mem a _
  have hym : posOf t c ∈ closed t (a ++ (S ++ c)) := by
    rw [← List.append_assoc]; exact posOf_mem _ c
  obtain ⟨h', hs, E⟩ := setNext_spec (R.isSome hxm) (R.isSome hym)
  refine ⟨h', hs, E, ?_⟩
  have hN := R.nodup
  have hcl : closed t (a ++ (S ++ c)) = (root t :: a) ++ (S ++ (c ++ [end_ t])) := by
    rw [closed_append]; simp
  rw [hcl] at hN
  have hC := R.chain
  rw [hcl] at hC
  have hNa : (root t :: a).Nodup := hN.of_append_left
  have hNSc := hN.of_append_right
  have hNS : S.Nodup := hNSc.of_append_left
  have hNc : (c ++ [end_ t]).Nodup := hNSc.of_append_right
  have hCa : List.IsChain (Linked h) (root t :: a) := (List.isChain_append.mp hC).1
  have hCSc := (List.isChain_append.mp hC).2.1
  have hCS : List.IsChain (Linked h) S := (List.isChain_append.mp hCSc).1
  have hCc : List.IsChain (Linked h) (c ++ [end_ t]) := (List.isChain_append.mp hCSc).2.1
  have hxa : priorOf t a ∈ root t :: a := List.mem_of_getLast? (priorOf_last a)
  have hyc : posOf t c ∈ c ++ [end_ t] := List.mem_of_head? (posOf_head c)
  have hx_not : ∀ z ∈ S ++ (c ++ [end_ t]), z ∉ root t :: a := fun z h1 h2 =>
    disjoint_of_nodup hN h2 h1
  have hxS : priorOf t a ∉ S := fun hm => hx_not _ (by simp [hm]) hxa
  have hxc : priorOf t a ∉ c ++ [end_ t] := fun hm =>
    hx_not (priorOf t a) (by simp only [List.mem_append] at hm ⊢; exact Or.inr hm) hxa
  have hyS : posOf t c ∉ S := fun hm => disjoint_of_nodup hNSc hm hyc
  have hya : posOf t c ∉ root t :: a :=
    hx_not _ (by simp only [List.mem_append] at hyc ⊢; exact Or.inr hyc)
  have hdata : ∀ x ∈ a ++ (S ++ c), ∃ v, dataOf h' x.node = some (some v) := by
    intro x hx
    rw [E.data]; exact R.data hx
  constructor
  · refine rep_of_data (R.balanced.remove hS) ?_ ?_ ?_ ?_ ?_
    · rw [closed_append]
      exact hN.sublist (List.Sublist.append (List.Sublist.refl _) (List.sublist_append_right _ _))
    · rw [closed_append, List.isChain_append]
      refine ⟨E.chain hCa (notMem_dropLast hNa (priorOf_last a)) ?_,
        E.chain hCc ?_ (notMem_tail hNc (posOf_head c)), ?_⟩
      · exact fun hm => hya (List.mem_of_mem_tail hm)
      · exact fun hm => hxc (List.dropLast_subset _ hm)
      · intro u hu v hv
        rw [priorOf_last] at hu
        rw [posOf_head] at hv
        simp only [Option.mem_def, Option.some.injEq] at hu hv
        subst hu; subst hv
        exact E.linked
    · refine E.linked_other ?_ ?_ R.wrap
      · rintro he
        exact hxc (by rw [← he]; simp [end_])
      · rintro he
        exact hya (by rw [← he]; simp [root])
    · rw [E.data]; exact R.tail_data
    · intro x hx
      refine hdata x ?_
      simp only [List.mem_append] at hx ⊢
      tauto
  · exact ⟨hS, hNS, E.chain' hCS hxS hyS, fun x hx => hdata x (by simp [hx])⟩

theorem isSome_of_data {g : Heap T} {p : Ptr} {v : Option T} (hv : dataOf g p = some v) :
    (g p).isSome := by
  simp only [dataOf, Option.map_eq_some_iff] at hv
  obtain ⟨n, hn, -⟩ := hv
  simp [hn]

/-- Joining three internally linked pieces by two `set_next` calls. -/
theorem stitch {h : Heap T} {t : Ptr} {a S c : List Iter} (hB : Balanced (a ++ (S ++ c)))
    (hN : (closed t (a ++ (S ++ c))).Nodup)
    (hCa : List.IsChain (Linked h) (root t :: a)) (hCS : List.IsChain (Linked h) S)
    (hCc : List.IsChain (Linked h) (c ++ [end_ t]))
    (hW : Linked h ⟨t, .trailing⟩ ⟨t, .leading⟩) (hT : dataOf h t = some none)
    (hL : ∀ x ∈ a ++ (S ++ c), ∃ v, dataOf h x.node = some (some v))
    {f b : Iter} (hf : S.head? = some f) (hb : S.getLast? = some b) :
    ∃ h1 h2, setNext h (priorOf t a) f = some h1 ∧ setNext h1 b (posOf t c) = some h2 ∧
      NextEff h h1 (priorOf t a) f ∧ NextEff h1 h2 b (posOf t c) ∧ Rep h2 t (a ++ (S ++ c)) := by
  have hsome : ∀ x ∈ closed t (a ++ (S ++ c)), (h x.node).isSome := by
    intro x hx
    simp only [closed, List.mem_cons, List.mem_append, List.not_mem_nil, or_false] at hx
    rcases hx with rfl | hx | rfl
    · exact isSome_of_data hT
    · obtain ⟨v, hv⟩ := hL x (by simpa [List.mem_append] using hx)
      exact isSome_of_data hv
    · exact isSome_of_data hT
  have hcl : closed t (a ++ (S ++ c)) = (root t :: a) ++ (S ++ (c ++ [end_ t])) := by
    rw [closed_append]; simp
  have hxa : priorOf t a ∈ root t :: a := List.mem_of_getLast? (priorOf_last a)
  have hyc : posOf t c ∈ c ++ [end_ t] := List.mem_of_head? (posOf_head c)
  have hfS : f ∈ S := List.mem_of_head? hf
  have hbS : b ∈ S := List.mem_of_getLast? hb
  obtain ⟨h1, hs1, E1⟩ := setNext_spec (h := h) (x := priorOf t a) (y := f)
    (hsome _ (by rw [hcl]; exact List.mem_append_left _ hxa)) (hsome _ (by rw [hcl]; simp [hfS]))
  have hsome1 : ∀ x ∈ closed t (a ++ (S ++ c)), (h1 x.node).isSome := by
    intro x hx
    have := hsome x hx
    obtain ⟨n, hn⟩ := Option.isSome_iff_exists.mp this
    have hd' := E1.data x.node
    simp only [dataOf, hn] at hd'
    cases hh : h1 x.node
    · simp [hh] at hd'
    · simp
  obtain ⟨h2, hs2, E2⟩ := setNext_spec (h := h1) (x := b) (y := posOf t c)
    (hsome1 _ (by rw [hcl]; simp [hbS]))
    (hsome1 _ (by rw [hcl]; exact List.mem_append_right _ (List.mem_append_right _ hyc)))
  refine ⟨h1, h2, hs1, hs2, E1, E2, ?_⟩
  have hN' := hN
  rw [hcl] at hN'
  have hNa : (root t :: a).Nodup := hN'.of_append_left
  have hNSc := hN'.of_append_right
  have hNS : S.Nodup := hNSc.of_append_left
  have hNc : (c ++ [end_ t]).Nodup := hNSc.of_append_right
  have hda : ∀ x ∈ S, x ∉ root t :: a := fun x hx hm =>
    disjoint_of_nodup hN' hm (List.mem_append_left _ hx)
  have hdc : ∀ x ∈ S, x ∉ c ++ [end_ t] := fun x hx hm => disjoint_of_nodup hNSc hx hm
  have hxc : priorOf t a ∉ c ++ [end_ t] := fun hm =>
    disjoint_of_nodup hN' hxa (List.mem_append_right _ hm)
  have hya : posOf t c ∉ root t :: a := fun hm =>
    disjoint_of_nodup hN' hm (List.mem_append_right _ hyc)
  have hxS : priorOf t a ∉ S := fun hm => hda _ hm hxa
  have hyS : posOf t c ∉ S := fun hm => hdc _ hm hyc
  refine rep_of_data hB hN ?_ ?_ ?_ ?_
  · rw [closed_append, List.append_assoc, List.isChain_append]
    refine ⟨?_, ?_, ?_⟩
    · refine E2.chain' (E1.chain hCa (notMem_dropLast hNa (priorOf_last a)) ?_) (hda b hbS) hya
      exact fun hm => hda f hfS (List.mem_of_mem_tail hm)
    · rw [List.isChain_append]
      refine ⟨?_, ?_, ?_⟩
      · refine E2.chain (E1.chain hCS (fun hm => hxS (List.dropLast_subset _ hm))
          (notMem_tail hNS hf)) (notMem_dropLast hNS hb) ?_
        exact fun hm => hyS (List.mem_of_mem_tail hm)
      · refine E2.chain (E1.chain' hCc hxc (hdc f hfS)) ?_ (notMem_tail hNc (posOf_head c))
        exact fun hm => hdc b hbS (List.dropLast_subset _ hm)
      · intro u hu v hv
        rw [hb] at hu
        rw [posOf_head] at hv
        simp only [Option.mem_def, Option.some.injEq] at hu hv
        subst hu; subst hv
        exact E2.linked
    · intro u hu v hv
      rw [priorOf_last] at hu
      have : (S ++ (c ++ [end_ t])).head? = some f := by
        cases S with
        | nil => simp at hf
        | cons s S => simpa using hf
      rw [this] at hv
      simp only [Option.mem_def, Option.some.injEq] at hu hv
      subst hu; subst hv
      refine E2.linked_other ?_ ?_ E1.linked
      · rintro he; exact hxS (he ▸ hbS)
      · rintro he; exact hyS (he ▸ hfS)
  · refine E2.linked_other ?_ ?_ (E1.linked_other ?_ ?_ hW)
    · rintro he; exact hdc b hbS (by rw [← he]; simp [end_])
    · rintro he; exact hya (by rw [← he]; simp [root])
    · rintro he; exact hxc (by rw [← he]; simp [end_])
    · rintro he; exact hda f hfS (by rw [← he]; simp [root])
  · rw [E2.data, E1.data]; exact hT
  · intro x hx
    rw [E2.data, E1.data]
    exact hL x hx

/-- Pasting a detached segment. -/
theorem Rep.paste {h : Heap T} {t : Ptr} {a S c : List Iter} (R : Rep h t (a ++ c)) (hS : Seg h S)
    (hd : ∀ x ∈ S, x ∉ closed t (a ++ c)) {f b : Iter} (hf : S.head? = some f)
    (hb : S.getLast? = some b) :
    ∃ h1 h2, setNext h (priorOf t a) f = some h1 ∧ setNext h1 b (posOf t c) = some h2 ∧
      NextEff h h1 (priorOf t a) f ∧ NextEff h1 h2 b (posOf t c) ∧ Rep h2 t (a ++ (S ++ c)) := by
  have hN := R.nodup
  rw [closed_append] at hN
  have hC := R.chain
  rw [closed_append] at hC
  rw [closed_append] at hd
  refine stitch (R.balanced.insert hS.balanced) ?_ (List.isChain_append.mp hC).1 hS.chain
    (List.isChain_append.mp hC).2.1 R.wrap R.tail_data ?_ hf hb
  · rw [closed_append, List.append_assoc]
    rw [List.nodup_append] at hN ⊢
    refine ⟨hN.1, ?_, ?_⟩
    · rw [List.nodup_append]
      refine ⟨hS.nodup, hN.2.1, ?_⟩
      rintro x hx y hy rfl
      exact hd x hx (List.mem_append_right _ hy)
    · rintro x hx y hy rfl
      rw [List.mem_append] at hy
      rcases hy with hy | hy
      · exact hd x hy (List.mem_append_left _ hx)
      · exact hN.2.2 x hx x hy rfl
  · intro x hx
    simp only [List.mem_append] at hx
    rcases hx with hx | hx | hx
    · exact R.data (by simp [hx])
    · exact hS.live x hx
    · exact R.data (by simp [hx])

end Verif.Forest
