import Verif.Forest.EraseRange

/-! # `splice` -/

namespace Verif.Forest

variable {T : Type} {W : World T} {A : AState T}

theorem pivot_pivot (x : Iter) : x.pivot.pivot = x := by
  obtain ⟨n, e⟩ := x
  cases e <;> rfl

/-- The relinking part of `splice`. -/
theorem splice_run {t x : Ptr} {pos first last back pf pp : Iter} {count : Nat} {W1 : World T}
    {h1 h2 h3 : Heap T} (hne : ¬ (first = last ∨ first = pos))
    (hsz : (if x ≠ t then
      if count ≠ 0 then do
        let W ← (if ← sizeValid W t then some (W.setSize t (W.size t + count)) else some W)
        if ← sizeValid W x then (usub (W.size x) count).map (W.setSize x) else some W
      else some ((W.setSize t 0).setSize x 0)
    else some W) = some W1)
    (hb : decr W1.heap last = some back) (hpf : decr W1.heap first = some pf)
    (hs1 : setNext W1.heap pf last = some h1) (hpp : decr h1 pos = some pp)
    (hs2 : setNext h1 pp first = some h2) (hs3 : setNext h2 back pos = some h3) :
    splice W t pos x first last count = some ({ W1 with heap := h3 }, first) := by
  have fin : (do
      let back ← decr W1.heap last
      let pf ← childDecr W1.heap first
      let h ← childSetNext W1.heap pf last
      let pp ← decr h pos
      let h ← setNext h pp first
      let h ← setNext h back pos
      return (({ W1 with heap := h } : World T), first)) = some ({ W1 with heap := h3 }, first) := by
    simp [hb, childDecr, hpf, childSetNext, pivot_pivot, hs1, hpp, hs2, hs3]
  simp only [splice, hne, if_false, Option.bind_eq_bind] at hsz fin ⊢
  split at hsz
  · rename_i hx
    rw [if_pos hx]
    split at hsz
    · rename_i hc
      rw [if_pos hc]
      obtain ⟨bv, e3, e4⟩ := Option.bind_eq_some_iff.mp hsz
      rw [e3]
      simp only [Option.bind_some] at e4 ⊢
      split at e4
      · rename_i hbv
        rw [if_pos hbv]
        simp only [Option.bind_some] at e4 ⊢
        obtain ⟨bv2, e5, e6⟩ := Option.bind_eq_some_iff.mp e4
        rw [e5]
        simp only [Option.bind_some]
        split at e6
        · rename_i hb2
          rw [if_pos hb2, e6]
          exact fin
        · rename_i hb2
          rw [if_neg hb2]
          simp only [Option.some.injEq] at e6
          subst e6
          exact fin
      · rename_i hbv
        rw [if_neg hbv]
        simp only [Option.bind_some] at e4 ⊢
        obtain ⟨bv2, e5, e6⟩ := Option.bind_eq_some_iff.mp e4
        rw [e5]
        simp only [Option.bind_some]
        split at e6
        · rename_i hb2
          rw [if_pos hb2, e6]
          exact fin
        · rename_i hb2
          rw [if_neg hb2]
          simp only [Option.some.injEq] at e6
          subst e6
          exact fin
    · rename_i hc
      rw [if_neg hc]
      simp only [Option.some.injEq] at hsz
      subst hsz
      exact fin
  · rename_i hx
    rw [if_neg hx]
    simp only [Option.some.injEq] at hsz
    subst hsz
    exact fin

theorem head_last {S : List Iter} (hS : S ≠ []) : ∃ f b, S.head? = some f ∧ S.getLast? = some b := by
  refine ⟨S.head hS, S.getLast hS, List.head?_eq_some_head hS, List.getLast?_eq_some_getLast hS⟩

theorem posOf_of_head {t : Ptr} {S r : List Iter} {f : Iter} (hf : S.head? = some f) :
    posOf t (S ++ r) = f := by
  cases S with
  | nil => simp at hf
  | cons y S => simp at hf; simp [posOf, hf]

theorem priorOf_of_last {t : Ptr} {l S : List Iter} {b : Iter} (hb : S.getLast? = some b) :
    priorOf t (l ++ S) = b := by
  simp [priorOf, hb]

theorem support_split {t : Ptr} {l S r : List Iter} {q : Ptr} :
    q ∈ support t (l ++ (S ++ r)) ↔ q ∈ S.map (·.node) ∨ q ∈ support t (l ++ r) := by
  simp only [support, List.map_append, List.mem_cons, List.mem_append]
  tauto

/-- An empty range: nothing happens. -/
theorem splice_empty {t x : Ptr} {pos first : Iter} {count : Nat} :
    splice W t pos x first first count = some (W, pos) := by
  simp [splice]

/-- Splicing a range to its own start: nothing happens. -/
theorem splice_self {t x : Ptr} {first last : Iter} {count : Nat} :
    splice W t first x first last count = some (W, first) := by
  simp [splice]

/-- The nodes of a balanced part are disjoint from the rest of the word. -/
theorem seg_notin {h : Heap T} {t : Ptr} {l S r : List Iter} (R : Rep h t (l ++ (S ++ r)))
    (hS : Balanced S) : ∀ y ∈ S, y.node ∉ support t (l ++ r) := by
  intro y hy hm
  obtain ⟨z, hz, he⟩ := mem_support_closed.mp hm
  have hzS : z ∈ S := mem_of_node_eq (hS.mem_edge hy .leading) (hS.mem_edge hy .trailing) he
  have hN := R.nodup
  have hp : (closed t (l ++ (S ++ r))).Perm (S ++ closed t (l ++ r)) := by
    have e : closed t (l ++ (S ++ r)) = (root t :: l) ++ (S ++ (r ++ [end_ t])) := by
      simp [closed, root, end_]
    have e' : S ++ closed t (l ++ r) = S ++ ((root t :: l) ++ (r ++ [end_ t])) := by
      simp [closed, root, end_]
    rw [e, e', ← List.append_assoc (root t :: l), ← List.append_assoc S]
    exact List.Perm.append_right _ List.perm_append_comm
  exact disjoint_of_nodup (hp.nodup_iff.mp hN) hzS hz

/-- Splicing within one forest. -/
theorem splice_same (I : Inv W A) {t : Ptr} {l S r a c : List Iter}
    (hw : A.words t = some (l ++ (S ++ r))) (hac : l ++ r = a ++ c) (hS : Balanced S) (hne : S ≠ [])
    (count : Nat) :
    ∃ W', splice W t (posOf t c) t (posOf t (S ++ r)) (posOf t r) count =
        some (W', posOf t (S ++ r)) ∧ Inv W' (A.setWord t (a ++ (S ++ c))) := by
  have R := I.rep t _ hw
  obtain ⟨f, b, hf, hb⟩ := head_last hne
  have hlast : decr W.heap (posOf t r) = some b := by
    have R' : Rep W.heap t ((l ++ S) ++ r) := by simpa using R
    have := R'.decr_split
    rwa [priorOf_of_last hb] at this
  have hfirst : decr W.heap (posOf t (S ++ r)) = some (priorOf t l) := R.decr_split
  obtain ⟨h1, hs1, E1, R1, G1⟩ := R.cut hS
  have hns := seg_notin R hS
  rw [hac] at R1 hns
  have hpp : decr h1 (posOf t c) = some (priorOf t a) := R1.decr_split
  have hd : ∀ y ∈ S, y ∉ closed t (a ++ c) := fun y hy hm =>
    hns y hy (mem_support_closed.mpr ⟨y, hm, rfl⟩)
  obtain ⟨h2, h3, hs2, hs3, E2, E3, R3⟩ := R1.paste G1 hd hf hb
  have hfm : f ∈ S := List.mem_of_head? hf
  have hbm : b ∈ S := List.mem_of_getLast? hb
  have e1 : posOf t (S ++ r) = f := posOf_of_head hf
  have hn1 : posOf t (S ++ r) ≠ posOf t r := posOf_ne R hne
  have hn2 : posOf t (S ++ r) ≠ posOf t c := by
    rw [e1]; intro he; exact hd f hfm (he ▸ posOf_mem a c)
  refine ⟨{ W with heap := h3 }, ?_, ?_⟩
  · refine splice_run (by simp [hn1, hn2]) (by simp) hlast hfirst hs1 hpp ?_ hs3
    rw [e1]; exact hs2
  · have hsup : ∀ q, q ∈ support t (a ++ (S ++ c)) ↔ q ∈ support t (l ++ (S ++ r)) := by
      intro q; rw [support_split, support_split, hac]
    have hcm : ∀ y, y ∈ closed t (a ++ c) ∨ y ∈ S → y ∈ closed t (a ++ (S ++ c)) := by
      intro y hy
      simp only [closed, List.mem_cons, List.mem_append] at hy ⊢
      tauto
    refine I.update1 hw (w' := a ++ (S ++ c)) rfl R3 ?_ (fun _ _ => rfl) ?_ ?_ ?_ ?_
    · have := I.size t _ hw
      have e : (nodes (a ++ (S ++ c))).length = (nodes (l ++ (S ++ r))).length := by
        have := congrArg (fun w => (nodes w).length) hac
        simp only [nodes_append, List.length_append] at this ⊢
        omega
      rw [e]; exact this
    · intro q h4 h5
      simp only
      have hpc := priorOf_mem (t := t) a c
      have hoc := posOf_mem (t := t) a c
      rw [E3.frame_support (hcm _ (Or.inr hbm)) (hcm _ (Or.inl hoc)) h5,
        E2.frame_support (hcm _ (Or.inl hpc)) (hcm _ (Or.inr hfm)) h5]
      refine E1.frame_support (t := t) (w := l ++ (S ++ r)) (priorOf_mem l _) ?_ h4
      rw [← List.append_assoc]; exact posOf_mem _ r
    · intro q hq; exact Or.inl ((hsup q).mp hq)
    · intro q h4 h5; exact absurd ((hsup q).mpr h4) h5
    · intro q
      rw [valueAt_eq_dataOf, E3.data, E2.data, E1.data, ← valueAt_eq_dataOf, I.val]
      rfl

/-- The bookkeeping of `_size` in `splice` between two forests. -/
theorem splice_size {t x : Ptr} {a c l S r : List Iter} {count : Nat} (htx : x ≠ t)
    (Rt : Rep W.heap t (a ++ c)) (Rx : Rep W.heap x (l ++ (S ++ r)))
    (St : W.size t = 0 ∨ W.size t = (nodes (a ++ c)).length)
    (Sx : W.size x = 0 ∨ W.size x = (nodes (l ++ (S ++ r))).length)
    (hne : S ≠ []) (hc : count = 0 ∨ count = (nodes S).length) :
    ∃ W1, (if x ≠ t then
      if count ≠ 0 then do
        let W ← (if ← sizeValid W t then some (W.setSize t (W.size t + count)) else some W)
        if ← sizeValid W x then (usub (W.size x) count).map (W.setSize x) else some W
      else some ((W.setSize t 0).setSize x 0)
    else some W) = some W1 ∧ W1.heap = W.heap ∧ (∀ q, q ≠ t → q ≠ x → W1.size q = W.size q) ∧
      (W1.size t = 0 ∨ W1.size t = (nodes (a ++ (S ++ c))).length) ∧
      (W1.size x = 0 ∨ W1.size x = (nodes (l ++ r)).length) := by
  rw [if_pos htx]
  by_cases hc0 : count = 0
  · refine ⟨(W.setSize t 0).setSize x 0, by simp [hc0], rfl, ?_, ?_, ?_⟩
    · intro q h1 h2; simp [World.setSize, h1, h2]
    · left; simp [World.setSize]
    · left; simp [World.setSize]
  · have hcn : count = (nodes S).length := hc.resolve_left hc0
    rw [if_pos hc0, sizeValid_eq Rt]
    simp only [Option.bind_eq_bind, Option.bind_some]
    obtain ⟨W0, hW0, hW0h, hW0o, hW0t⟩ : ∃ W0, (if decide (W.size t ≠ 0 ∨ a ++ c = []) then
        some (W.setSize t (W.size t + count)) else some W) = some W0 ∧ W0.heap = W.heap ∧
        (∀ q, q ≠ t → W0.size q = W.size q) ∧
        (W0.size t = 0 ∨ W0.size t = (nodes (a ++ (S ++ c))).length) := by
      by_cases hv : W.size t ≠ 0 ∨ a ++ c = []
      · refine ⟨W.setSize t (W.size t + count), by rw [if_pos]; simpa using hv, rfl, ?_, ?_⟩
        · intro q hq; simp [World.setSize, hq]
        · right
          simp only [World.setSize, if_true, nodes_append, List.length_append] at St ⊢
          rcases hv with hv | hv
          · omega
          · simp only [List.append_eq_nil_iff] at hv
            obtain ⟨rfl, rfl⟩ := hv
            simp [nodes_nil] at St ⊢; omega
      · refine ⟨W, by rw [if_neg]; simpa using hv, rfl, fun _ _ => rfl, ?_⟩
        left; simp only [not_or, Decidable.not_not] at hv; exact hv.1
    rw [hW0]
    simp only [Option.bind_some]
    have Rx0 : Rep W0.heap x (l ++ (S ++ r)) := by rw [hW0h]; exact Rx
    rw [sizeValid_eq Rx0]
    simp only [Option.bind_some]
    have hx0 : W0.size x = W.size x := hW0o x htx
    have hwne : l ++ (S ++ r) ≠ [] := by simp [hne]
    by_cases hv : W0.size x ≠ 0
    · have hxs : W0.size x = (nodes (l ++ (S ++ r))).length := by
        rw [hx0] at hv ⊢; exact Sx.resolve_left hv
      have hle : count ≤ W0.size x := by
        rw [hxs, hcn]; simp only [nodes_append, List.length_append]; omega
      refine ⟨W0.setSize x (W0.size x - count), by simp [hv, usub, hle], by simp [World.setSize, hW0h],
        ?_, ?_, ?_⟩
      · intro q h1 h2; simp [World.setSize, h2, hW0o q h1]
      · simpa [World.setSize, Ne.symm htx] using hW0t
      · right
        simp only [World.setSize, if_true]
        rw [hxs, hcn]; simp only [nodes_append, List.length_append]; omega
    · refine ⟨W0, ?_, hW0h, fun q h1 _ => hW0o q h1, hW0t, ?_⟩
      · rw [if_neg]; simp only [ne_eq, Decidable.not_not] at hv; simpa [hv] using hwne
      · left; simpa using hv

/-- Splicing between two forests. -/
theorem splice_two (I : Inv W A) {t x : Ptr} {l S r a c : List Iter} (htx : x ≠ t)
    (hw : A.words t = some (a ++ c)) (hx : A.words x = some (l ++ (S ++ r)))
    (hS : Balanced S) (hne : S ≠ []) {count : Nat} (hc : count = 0 ∨ count = (nodes S).length) :
    ∃ W', splice W t (posOf t c) x (posOf x (S ++ r)) (posOf x r) count =
        some (W', posOf x (S ++ r)) ∧ Inv W' ((A.setWord t (a ++ (S ++ c))).setWord x (l ++ r)) := by
  have Rt := I.rep t _ hw
  have R := I.rep x _ hx
  obtain ⟨W1, hsz, hW1h, hso, hst, hsx⟩ := splice_size htx Rt R (I.size t _ hw) (I.size x _ hx) hne hc
  obtain ⟨f, b, hf, hb⟩ := head_last hne
  have hlast : decr W.heap (posOf x r) = some b := by
    have R' : Rep W.heap x ((l ++ S) ++ r) := by simpa using R
    have := R'.decr_split
    rwa [priorOf_of_last hb] at this
  have hfirst : decr W.heap (posOf x (S ++ r)) = some (priorOf x l) := R.decr_split
  obtain ⟨h1, hs1, E1, R1, G1⟩ := R.cut hS
  have hns := seg_notin R hS
  have hdj : ∀ q, q ∈ support t (a ++ c) → q ∉ support x (l ++ (S ++ r)) := fun q h1 h2 =>
    htx (I.disj x _ t _ q hx hw h2 h1)
  have hxm1 : priorOf x l ∈ closed x (l ++ (S ++ r)) := priorOf_mem l _
  have hxm2 : posOf x r ∈ closed x (l ++ (S ++ r)) := by
    rw [← List.append_assoc]; exact posOf_mem _ r
  have Rt1 : Rep h1 t (a ++ c) := Rt.congr (fun p hp => E1.frame_support hxm1 hxm2 (hdj p hp))
  have hpp : decr h1 (posOf t c) = some (priorOf t a) := Rt1.decr_split
  have hSx : ∀ y ∈ S, y.node ∈ support x (l ++ (S ++ r)) := fun y hy => by
    rw [support_split]; exact Or.inl (List.mem_map_of_mem hy)
  have hd : ∀ y ∈ S, y ∉ closed t (a ++ c) := fun y hy hm =>
    hdj y.node (mem_support_closed.mpr ⟨y, hm, rfl⟩) (hSx y hy)
  obtain ⟨h2, h3, hs2, hs3, E2, E3, R3⟩ := Rt1.paste G1 hd hf hb
  have hfm : f ∈ S := List.mem_of_head? hf
  have hbm : b ∈ S := List.mem_of_getLast? hb
  have e1 : posOf x (S ++ r) = f := posOf_of_head hf
  have hn1 : posOf x (S ++ r) ≠ posOf x r := posOf_ne R hne
  have hn2 : posOf x (S ++ r) ≠ posOf t c := by
    rw [e1]; intro he; exact hd f hfm (he ▸ posOf_mem a c)
  have hcm : ∀ y, y ∈ closed t (a ++ c) ∨ y ∈ S → y ∈ closed t (a ++ (S ++ c)) := by
    intro y hy
    simp only [closed, List.mem_cons, List.mem_append] at hy ⊢
    tauto
  have hpc := priorOf_mem (t := t) a c
  have hoc := posOf_mem (t := t) a c
  have hfr : ∀ q, q ∉ support t (a ++ (S ++ c)) → h3 q = h1 q := by
    intro q h5
    rw [E3.frame_support (hcm _ (Or.inr hbm)) (hcm _ (Or.inl hoc)) h5,
        E2.frame_support (hcm _ (Or.inl hpc)) (hcm _ (Or.inr hfm)) h5]
  have hdj' : ∀ q, q ∈ support t (a ++ (S ++ c)) → q ∉ support x (l ++ r) := by
    intro q hq
    rw [support_split] at hq
    rcases hq with hq | hq
    · obtain ⟨y, hy, rfl⟩ := List.mem_map.mp hq
      exact hns y hy
    · intro h; exact hdj q hq (by rw [support_split]; exact Or.inr h)
  have hval : ∀ q, valueAt h3 q = A.val q := by
    intro q
    rw [valueAt_eq_dataOf, E3.data, E2.data, E1.data, ← valueAt_eq_dataOf, I.val]
  have Rx3 : Rep h3 x (l ++ r) := R1.congr (fun p hp => hfr p (fun h => hdj' p h hp))
  refine ⟨{ W1 with heap := h3 }, ?_, ?_⟩
  · refine splice_run (by simp [hn1, hn2]) hsz (by rw [hW1h]; exact hlast) (by rw [hW1h]; exact hfirst)
      (by rw [hW1h]; exact hs1) hpp ?_ hs3
    rw [e1]; exact hs2
  · have hfr' : ∀ q, q ∉ support t (a ++ c) → q ∉ support x (l ++ (S ++ r)) → h3 q = W.heap q := by
      intro q h4 h5
      have : q ∉ support t (a ++ (S ++ c)) := by
        rw [support_split]; rw [support_split] at h5; tauto
      rw [hfr q this, E1.frame_support hxm1 hxm2 h5]
    have hsame : ∀ q, (q ∈ support t (a ++ c) ∨ q ∈ support x (l ++ (S ++ r))) ↔
        (q ∈ support t (a ++ (S ++ c)) ∨ q ∈ support x (l ++ r)) := by
      intro q
      rw [support_split, support_split (t := t)]
      exact ⟨fun h => by rcases h with h | h | h <;> simp [h],
        fun h => by rcases h with (h | h) | h <;> simp [h]⟩
    exact I.update2 (W' := { W1 with heap := h3 }) htx hw hx rfl R3 Rx3 hst hsx hso hfr' hsame hdj'
      hval

end Verif.Forest
