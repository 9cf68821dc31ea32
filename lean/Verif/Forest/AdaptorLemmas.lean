import Verif.Forest.Algo

/-! # Lemmas about the iterator adaptors -/

namespace Verif.Forest

variable {T : Type} {h : Heap T} {t : Ptr}

theorem iterEq_self (x : Iter) : iterEq x x = true := by simp [iterEq]

/-! ## Children -/

theorem Balanced.roots {b : List Iter} (hb : Balanced b) : ∃ ns, Roots b ns := by
  induction hb with
  | nil => exact ⟨[], .nil⟩
  | cons n hb hc _ ihc =>
    obtain ⟨ns, h⟩ := ihc
    exact ⟨n :: ns, .cons n hb h⟩

theorem Roots.balanced {b : List Iter} {ns : List Ptr} (hr : Roots b ns) : Balanced b := by
  induction hr with
  | nil => exact .nil
  | cons n hb _ ih => exact .cons n hb ih

theorem Roots.mem {b : List Iter} {ns : List Ptr} (hr : Roots b ns) {n : Ptr} (hn : n ∈ ns) :
    (⟨n, .leading⟩ : Iter) ∈ b := by
  induction hr with
  | nil => simp at hn
  | cons m hb _ ih =>
    rcases List.mem_cons.mp hn with rfl | hn
    · simp
    · simp [ih hn]

/-- The positions a child iterator goes through, with the end position. -/
theorem roots_head {b c : List Iter} {ns : List Ptr} (hr : Roots b ns) :
    (ns.map (fun n => (⟨n, .leading⟩ : Iter)) ++ [posOf t c]).head? = some (posOf t (b ++ c)) := by
  cases hr with
  | nil => simp
  | cons n _ _ => simp [posOf]

theorem child_chain {c : List Iter} {b : List Iter} {ns : List Ptr} (hr : Roots b ns) :
    ∀ {a : List Iter}, Rep h t (a ++ (b ++ c)) →
      List.IsChain (fun x y => childIncr h x = some y ∧ childDecr h y = some x)
        (ns.map (fun n => (⟨n, .leading⟩ : Iter)) ++ [posOf t c]) := by
  induction hr with
  | nil => intro a R; simp
  | @cons n b c' ns hb hr ih =>
    intro a R
    have R1 : Rep h t ((a ++ (⟨n, .leading⟩ :: b) ++ [⟨n, .trailing⟩]) ++ (c' ++ c)) := by simpa using R
    rw [List.map_cons, List.cons_append, List.isChain_cons]
    refine ⟨?_, ih R1⟩
    intro y hy
    rw [roots_head hr] at hy
    simp only [Option.mem_some] at hy
    subst hy
    have h1 := R1.incr_split
    have h2 := R1.decr_split
    rw [priorOf_concat] at h1 h2
    exact ⟨h1, by simp only [childDecr, h2]; rfl⟩

theorem child_walk {a b c : List Iter} {ns : List Ptr} (hr : Roots b ns) (R : Rep h t (a ++ (b ++ c))) :
    walk iterEq (childIncr h) (posOf t (b ++ c)) (posOf t c) =
      some (ns.map (fun n => (⟨n, .leading⟩ : Iter))) := by
  refine walk_eq (iterEq_self _) ?_ ((child_chain hr R).imp fun _ _ h => h.1) (roots_head hr)
  intro x hx
  obtain ⟨n, hn, rfl⟩ := List.mem_map.mp hx
  have hm := hr.mem hn
  obtain ⟨b1, b2, rfl⟩ := List.append_of_mem hm
  have R' : Rep h t ((a ++ b1) ++ ((⟨n, .leading⟩ :: b2) ++ c)) := by simpa using R
  have := posOf_ne R' (by simp)
  rw [List.cons_append, posOf_cons] at this
  simp [iterEq, this]

theorem child_walkBack {a b c : List Iter} {ns : List Ptr} (hr : Roots b ns) (R : Rep h t (a ++ (b ++ c))) :
    walkBack iterEq (childDecr h) (posOf t (b ++ c)) (posOf t c) =
      some (ns.map (fun n => (⟨n, .leading⟩ : Iter))).reverse := by
  refine walkBack_eq ?_ (iterEq_self _) ((child_chain hr R).imp fun _ _ h => h.2) (roots_head hr)
  intro y hy
  cases hr with
  | nil => simp at hy
  | @cons n b1 c1 ns hb hr =>
    have hne : (⟨n, .leading⟩ : Iter) ≠ posOf t c := by
      have := posOf_ne R (by simp)
      rwa [List.cons_append, posOf_cons] at this
    rw [List.cons_append, posOf_cons]
    simp only [List.map_cons, List.cons_append, List.tail_cons, List.mem_append, List.mem_map,
      List.mem_singleton] at hy
    rcases hy with ⟨m, hm, rfl⟩ | rfl
    · have hmem := hr.mem hm
      have hN := R.nodup_word
      have e : a ++ (⟨n, .leading⟩ :: (b1 ++ ⟨n, .trailing⟩ :: c1) ++ c) =
        (a ++ [⟨n, .leading⟩]) ++ (b1 ++ ⟨n, .trailing⟩ :: c1 ++ c) := by simp
      rw [e] at hN
      simp only [iterEq, decide_eq_false_iff_not]
      intro he
      rw [he] at hmem
      exact disjoint_of_nodup hN (z := ⟨n, .leading⟩) (by simp) (by simp [hmem])
    · simp only [iterEq, decide_eq_false_iff_not]
      exact fun he => hne he.symm

theorem findParent_eq {b c : List Iter} (hb : Balanced b) :
    ∀ {a : List Iter} {m : Ptr} {e : Edge}, Rep h t (a ++ (⟨m, .trailing⟩ :: (b ++ c))) →
      (posOf t c).edge = .trailing → findParent h ⟨m, e⟩ = some (posOf t c) := by
  induction hb with
  | nil =>
    intro a m e R hc
    have R1 : Rep h t ((a ++ [⟨m, .trailing⟩]) ++ c) := by simpa using R
    have h1 := R1.incr_split
    rw [priorOf_concat] at h1
    rw [findParent]
    simp [Iter.trailingOf, h1, hc]
  | @cons n b c' hb hc' _ ih =>
    intro a m e R hc
    have R1 : Rep h t ((a ++ [⟨m, .trailing⟩]) ++ (⟨n, .leading⟩ :: (b ++ ⟨n, .trailing⟩ :: (c' ++ c)))) := by
      simpa using R
    have h1 := R1.incr_split
    rw [priorOf_concat, posOf_cons] at h1
    have key := ih (a := a ++ [⟨m, .trailing⟩] ++ (⟨n, .leading⟩ :: b)) (m := n) (e := .leading)
      (by simpa using R) hc
    rw [findParent]
    simp [Iter.trailingOf, h1, key]

/-! ## Depth -/

/-- Number of open nodes after `a`. -/
def level (a : List Iter) : Int := ((shape a).count .leading : Int) - (shape a).count .trailing

/-- The depth a depth iterator shows at `x` after the prefix `a`. -/
def depthAt (a : List Iter) (x : Iter) : Int := if x.edge = .leading then level a else level a - 1

theorem level_concat (a : List Iter) (x : Iter) : level (a ++ [x]) = level a + edgeSign x.edge := by
  obtain ⟨n, e⟩ := x
  cases e <;> simp [level, shape, edgeSign, List.count_append] <;> omega

theorem depthIncr_eq {a : List Iter} {x y : Iter} (hi : incr h x = some y) :
    depthIncr h ⟨x, depthAt a x⟩ = some ⟨y, depthAt (a ++ [x]) y⟩ := by
  simp only [depthIncr, hi, Option.bind_eq_bind, Option.bind_some, pure, Option.some.injEq, DIt.mk.injEq,
    true_and, depthAt, level_concat]
  obtain ⟨n, e⟩ := x
  obtain ⟨m, f⟩ := y
  cases e <;> cases f <;> simp [edgeSign] <;> omega

theorem depthDecr_eq {a : List Iter} {x y : Iter} (hd : decr h y = some x) :
    depthDecr h ⟨y, depthAt (a ++ [x]) y⟩ = some ⟨x, depthAt a x⟩ := by
  simp only [depthDecr, hd, Option.bind_eq_bind, Option.bind_some, pure, Option.some.injEq, DIt.mk.injEq,
    true_and, depthAt, level_concat]
  obtain ⟨n, e⟩ := x
  obtain ⟨m, f⟩ := y
  cases e <;> cases f <;> simp [edgeSign] <;> omega

/-- Number of open nodes = number of enclosing nodes. -/
theorem level_enclosing {a s c : List Iter} {m : Ptr}
    (hB : Balanced (a ++ (⟨m, .leading⟩ :: (s ++ ⟨m, .trailing⟩ :: c))))
    (hN : (a ++ (⟨m, .leading⟩ :: (s ++ ⟨m, .trailing⟩ :: c)) : List Iter).Nodup) (hs : Balanced s) :
    level a = (enclosing a c).length := by
  have hNa : a.Nodup := hN.of_append_left
  -- nodes opened in `a`, by where they are closed
  have hcl : ∀ n ∈ nodes a, (⟨n, .trailing⟩ : Iter) ∈ c ∨ (⟨n, .trailing⟩ : Iter) ∈ a := by
    intro n hn
    have hla : (⟨n, .leading⟩ : Iter) ∈ a := by
      simp only [nodes, List.mem_map, List.mem_filter, decide_eq_true_eq] at hn
      obtain ⟨⟨k, e⟩, ⟨h1, h2⟩, rfl⟩ := hn
      simp only at h2; subst h2; exact h1
    have hT := (hB.mem_iff n).mp (List.mem_append_left _ hla)
    simp only [List.mem_append, List.mem_cons, Iter.mk.injEq, reduceCtorEq, and_false, false_or,
      and_true] at hT
    rcases hT with hT | hT | rfl | hT
    · exact Or.inr hT
    · exact absurd ((hs.mem_iff n).mpr hT) (fun hx => disjoint_of_nodup hN hla (by simp [hx]))
    · exact absurd hla (fun hx => disjoint_of_nodup hN hx (by simp))
    · exact Or.inl hT
  have hex : ∀ n, (⟨n, .trailing⟩ : Iter) ∈ c → (⟨n, .trailing⟩ : Iter) ∈ a → False :=
    fun n h1 h2 => disjoint_of_nodup hN h2 (by simp [h1])
  have hopen : ∀ n, (⟨n, .trailing⟩ : Iter) ∈ a → n ∈ nodes a := by
    intro n hn
    obtain ⟨a1, a2, rfl⟩ := List.append_of_mem hn
    have hL := (hB.mem_iff n).mpr (List.mem_append_left _ hn)
    have : (⟨n, .leading⟩ : Iter) ∈ a1 := by
      by_contra hc'
      have h2 : (⟨n, .leading⟩ : Iter) ∈ a2 ++ (⟨m, .leading⟩ :: (s ++ ⟨m, .trailing⟩ :: c)) := by
        simp only [List.mem_append, List.mem_cons] at hL ⊢
        simp only [Iter.mk.injEq, reduceCtorEq, and_false, and_true, false_or] at hL ⊢
        tauto
      obtain ⟨u1, u2, hu⟩ := List.append_of_mem h2
      have e : a1 ++ ⟨n, .trailing⟩ :: a2 ++ (⟨m, .leading⟩ :: (s ++ ⟨m, .trailing⟩ :: c)) =
          a1 ++ ⟨n, .trailing⟩ :: (u1 ++ ⟨n, .leading⟩ :: u2) := by rw [← hu]; simp
      rw [e] at hB hN
      exact hB.order hN
    simp only [nodes, List.mem_map, List.mem_filter, decide_eq_true_eq]
    exact ⟨⟨n, .leading⟩, ⟨by simp [this], rfl⟩, rfl⟩
  have hNn : (nodes a).Nodup := by
    rw [nodes]
    refine List.Nodup.map_on ?_ (hNa.filter _)
    rintro ⟨n, e⟩ h1 ⟨n', e'⟩ h2 rfl
    simp only [List.mem_filter, decide_eq_true_eq] at h1 h2
    rw [Iter.mk.injEq]; exact ⟨rfl, by rw [h1.2, h2.2]⟩
  have hT : ((a.filter (fun x => x.edge = .trailing)).map (·.node)).Perm
      ((nodes a).filter (fun n => (⟨n, .trailing⟩ : Iter) ∈ a)) := by
    refine (List.perm_ext_iff_of_nodup ?_ (hNn.filter _)).mpr ?_
    · refine List.Nodup.map_on ?_ (hNa.filter _)
      rintro ⟨n, e⟩ h1 ⟨n', e'⟩ h2 rfl
      simp only [List.mem_filter, decide_eq_true_eq] at h1 h2
      rw [Iter.mk.injEq]; exact ⟨rfl, by rw [h1.2, h2.2]⟩
    · intro n
      simp only [List.mem_map, List.mem_filter, decide_eq_true_eq]
      constructor
      · rintro ⟨⟨k, e⟩, ⟨h1, h2⟩, rfl⟩
        simp only at h2; subst h2
        exact ⟨hopen k h1, h1⟩
      · rintro ⟨-, h2⟩
        exact ⟨⟨n, .trailing⟩, ⟨h2, rfl⟩, rfl⟩
  have hlen := hT.length_eq
  rw [List.length_map] at hlen
  have hpart : (enclosing a c).length + ((nodes a).filter (fun n => (⟨n, .trailing⟩ : Iter) ∈ a)).length =
      (nodes a).length := by
    have hcompl : (nodes a).filter (fun n => (⟨n, .trailing⟩ : Iter) ∈ a) =
        (nodes a).filter (fun n => !decide ((⟨n, .trailing⟩ : Iter) ∈ c)) := by
      refine List.filter_congr ?_
      intro n hn
      have h1 := hcl n hn
      have h2 := hex n
      by_cases hc' : (⟨n, .trailing⟩ : Iter) ∈ c
      · have : (⟨n, .trailing⟩ : Iter) ∉ a := fun h => h2 hc' h
        simp [hc', this]
      · have : (⟨n, .trailing⟩ : Iter) ∈ a := h1.resolve_left hc'
        simp [hc', this]
    rw [hcompl, enclosing]
    rw [← List.countP_eq_length_filter, ← List.countP_eq_length_filter]
    have := List.length_eq_countP_add_countP (fun n => decide ((⟨n, .trailing⟩ : Iter) ∈ c)) (l := nodes a)
    rw [this]
    simp
  have c1 : (shape a).count .leading = (nodes a).length := by
    rw [nodes, List.length_map, ← List.countP_eq_length_filter, shape, List.count, List.countP_map]
    refine List.countP_congr ?_
    intro x _; simp
  have c2 : (shape a).count .trailing = (a.filter (fun x => x.edge = .trailing)).length := by
    rw [← List.countP_eq_length_filter, shape, List.count, List.countP_map]
    refine List.countP_congr ?_
    intro x _; simp
  rw [level, c1, c2, hlen]
  omega

end Verif.Forest
