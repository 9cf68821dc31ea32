import Verif.Forest.Concurrent

/-!
# Property theorems C84: forests read by several threads
-/

namespace Verif.Forest

variable {T : Type} [DecidableEq T] {W : World T} {s s' : Readers T}

/-- The number of nodes of the forest `t`. -/
def Cnt (A : AState T) (t : Ptr) (n : Nat) : Prop := ∃ w, A.words t = some w ∧ n = (nodes w).length

def ContOk (A : AState T) (t : Ptr) : Cont → Prop
  | .ret => True
  | .first x y => t = x ∧ ∃ n, Cnt A y n
  | .second x y a => t = y ∧ Cnt A x a

def PcOk (A : AState T) (W : World T) : Pc → Prop
  | .idle => True
  | .valid t k => (∃ n, Cnt A t n) ∧ ContOk A t k
  | .test t k => (∃ n, Cnt A t n) ∧ ContOk A t k
  | .walk t k => (∃ n, Cnt A t n) ∧ ContOk A t k
  | .store t n k => Cnt A t n ∧ ContOk A t k
  | .load t k => Cnt A t (W.size t) ∧ ContOk A t k
  | .loop x y => ∃ n, Cnt A x n ∧ Cnt A y n

def RetOk (A : AState T) : Call × Ret → Prop
  | (.size t, .size n) => Cnt A t n
  | (.equal x y, .equal b) => ∃ v w, A.words x = some v ∧ A.words y = some w ∧ (b = true ↔ content A.val v = content A.val w)
  | _ => False

structure RInv (A : AState T) (W : World T) (s : Readers T) : Prop where
  inv : Inv s.W A
  heap : s.W.heap = W.heap
  reach : Reachable s.W
  pcs : ∀ i, PcOk A s.W (s.pc i)
  log : ∀ r ∈ s.log, RetOk A r

omit [DecidableEq T] in
theorem Cnt.unique {A : AState T} {t : Ptr} {n m : Nat} (h1 : Cnt A t n) (h2 : Cnt A t m) : n = m := by
  obtain ⟨w, hw, rfl⟩ := h1
  obtain ⟨v, hv, rfl⟩ := h2
  rw [hw] at hv; simp only [Option.some.injEq] at hv; subst hv; rfl

omit [DecidableEq T] in
theorem RInv.goto {A : AState T} (I : RInv A W s) {i : Nat} {p : Pc} (hp : PcOk A s.W p) : RInv A W (s.goto i p) := by
  refine ⟨I.inv, I.heap, I.reach, ?_, I.log⟩
  intro j
  simp only [Readers.goto]
  split
  · exact hp
  · exact I.pcs j

omit [DecidableEq T] in
theorem RInv.leave {A : AState T} (I : RInv A W s) {i : Nat} {c : Call} {r : Ret} (hr : RetOk A (c, r)) :
    RInv A W (s.leave i c r) := by
  have := I.goto (i := i) (p := .idle) trivial
  refine ⟨this.inv, this.heap, this.reach, this.pcs, ?_⟩
  intro q hq
  rcases List.mem_cons.mp hq with rfl | hq
  · exact hr
  · exact I.log q hq

omit [DecidableEq T] in
theorem count_eq {A : AState T} (I : Inv W A) {t : Ptr} {w : List Iter} (hw : A.words t = some w) :
    (do
      let b ← begin_ W.heap t
      let first ← findEdge W.heap b .leading
      let last ← findEdge W.heap (end_ t) .leading
      edgeDistance W.heap .leading first last) = some (nodes w).length := by
  have R := I.rep t w hw
  have R0 : Rep W.heap t ([] ++ w) := by simpa using R
  have Re : Rep W.heap t (w ++ []) := by simpa using R
  have hl : findEdge W.heap (end_ t) .leading = some (root t) := by
    have := findEdge_eq (e := .leading) Re
    rw [posOf_nil] at this
    simpa [nextEdge, root] using this
  simp only [Option.bind_eq_bind, Option.bind_some, R.begin_posOf, findEdge_eq R0, hl, edgeDistance_eq R0]

theorem loop_eq {A : AState T} (I : Inv W A) {x y : Ptr} {v w : List Iter} (hx : A.words x = some v)
    (hy : A.words y = some w) (hl : (nodes v).length = (nodes w).length) :
    (do
      let first ← begin_ W.heap x
      let pos ← begin_ W.heap y
      eqLoop W.heap first (end_ x) pos) = some (decide (content A.val v = content A.val w)) := by
  have hlen : v.length = w.length := by
    rw [(I.rep x v hx).balanced.length_nodes, (I.rep y w hy).balanced.length_nodes, hl]
  have key := eqLoop_eq I (a1 := []) (a2 := []) (b1 := v) (b2 := w) (by simpa using hx) (by simpa using hy) hlen
  simp [(I.rep x v hx).begin_posOf, (I.rep y w hy).begin_posOf, key]

omit [DecidableEq T] in
/-- Storing the right size is what `size()` does when nobody else is there. -/
theorem store_reach {A : AState T} (I : Inv W A) (hR : Reachable W) {t : Ptr} {w : List Iter} (hw : A.words t = some w) :
    Reachable (W.setSize t (nodes w).length) ∧ Inv (W.setSize t (nodes w).length) A := by
  obtain ⟨W', h1, I', hh, hs, ho⟩ := size_refines I hw
  have e : W' = W.setSize t (nodes w).length := by
    cases W'; cases W
    simp only [World.setSize, World.mk.injEq] at *
    refine ⟨hh, ?_⟩
    funext q
    by_cases hq : q = t
    · subst hq; simp [hs]
    · simp [hq, ho q hq]
  subst e
  exact ⟨.step (.size t) hR ⟨w, I.rep t w hw⟩ (by simp [exec, h1]), I'⟩

/-- One step keeps the invariant and is not undefined. -/
theorem RInv.step {A : AState T} (I : RInv A W s) {a : RAct} {o : ROut T} (h : RStep s a o) :
    ∃ s', o = .ok s' ∧ RInv A W s' := by
  cases h with
  | @call i c hpc hf =>
    refine ⟨_, rfl, I.goto ?_⟩
    cases c with
    | size t =>
      obtain ⟨w, hw⟩ := I.inv.isForest_iff.mp (hf t (by simp [Call.forests]))
      exact ⟨⟨_, w, hw, rfl⟩, trivial⟩
    | equal x y =>
      obtain ⟨v, hv⟩ := I.inv.isForest_iff.mp (hf x (by simp [Call.forests]))
      obtain ⟨w, hw⟩ := I.inv.isForest_iff.mp (hf y (by simp [Call.forests]))
      exact ⟨⟨_, v, hv, rfl⟩, rfl, _, w, hw, rfl⟩
  | @next i hpc =>
    have hp := I.pcs i
    unfold Readers.next
    cases hi : s.pc i with
    | idle => exact absurd hi hpc
    | valid t k =>
      rw [hi] at hp
      obtain ⟨⟨n, w, hw, rfl⟩, hk⟩ := hp
      refine ⟨_, rfl, I.goto ?_⟩
      split
      · rename_i h0
        refine ⟨⟨w, hw, ?_⟩, hk⟩
        have := I.inv.size t w hw
        omega
      · exact ⟨⟨_, w, hw, rfl⟩, hk⟩
    | test t k =>
      rw [hi] at hp
      obtain ⟨⟨n, w, hw, rfl⟩, hk⟩ := hp
      simp only [(I.inv.rep t w hw).isEmpty_eq]
      refine ⟨_, rfl, I.goto ?_⟩
      split
      · rename_i h0
        refine ⟨⟨w, hw, ?_⟩, hk⟩
        have hwe : w = [] := by cases w <;> simp_all
        subst hwe
        have := I.inv.size t [] hw
        simpa [nodes] using this
      · exact ⟨⟨_, w, hw, rfl⟩, hk⟩
    | walk t k =>
      rw [hi] at hp
      obtain ⟨⟨n, w, hw, rfl⟩, hk⟩ := hp
      simp only [count_eq I.inv hw]
      exact ⟨_, rfl, I.goto ⟨⟨w, hw, rfl⟩, hk⟩⟩
    | store t n k =>
      rw [hi] at hp
      obtain ⟨⟨w, hw, rfl⟩, hk⟩ := hp
      obtain ⟨h1, h2⟩ := store_reach I.inv I.reach hw
      refine ⟨_, rfl, h2, I.heap, h1, ?_, I.log⟩
      have hmono : ∀ p, PcOk A s.W p → PcOk A (s.W.setSize t (nodes w).length) p := by
        intro p hp
        cases p with
        | load u k =>
          refine ⟨?_, hp.2⟩
          by_cases hu : u = t
          · subst hu; exact ⟨w, hw, by simp [World.setSize]⟩
          · have := hp.1
            simpa [World.setSize, hu] using this
        | _ => exact hp
      intro j
      simp only [Readers.goto]
      split
      · exact ⟨⟨w, hw, by simp [World.setSize]⟩, hk⟩
      · exact hmono _ (I.pcs j)
    | load t k =>
      rw [hi] at hp
      obtain ⟨hc, hk⟩ := hp
      refine ⟨_, rfl, ?_⟩
      cases k with
      | ret => exact I.leave hc
      | first x y =>
        obtain ⟨rfl, hy⟩ := hk
        exact I.goto ⟨hy, rfl, hc⟩
      | second x y a =>
        obtain ⟨rfl, hx⟩ := hk
        simp only [Readers.sized]
        split
        · rename_i hne
          obtain ⟨v, hv, e1⟩ := hx
          obtain ⟨w, hw, e2⟩ := hc
          refine I.leave ⟨v, w, hv, hw, by simp, ?_⟩
          intro he
          have := congrArg List.length he
          rw [content_length, content_length, (I.inv.rep _ v hv).balanced.length_nodes,
            (I.inv.rep _ w hw).balanced.length_nodes] at this
          omega
        · rename_i he
          simp only [ne_eq, Decidable.not_not] at he
          subst he
          exact I.goto ⟨_, hx, hc⟩
    | loop x y =>
      rw [hi] at hp
      obtain ⟨n, ⟨v, hv, e1⟩, ⟨w, hw, e2⟩⟩ := hp
      simp only [loop_eq I.inv hv hw (by omega)]
      exact ⟨_, rfl, I.leave ⟨v, w, hv, hw, by simp⟩⟩

theorem Reads.inv {A : AState T} (h : Reads W s) (hI : Inv W A) (hR : Reachable W) : RInv A W s := by
  induction h with
  | start => exact ⟨hI, rfl, hR, fun _ => trivial, by simp⟩
  | step _ hs ih =>
    obtain ⟨_, e, I'⟩ := ih.step hs
    cases e
    exact I'

/-- Steps a thread has to go. -/
def Pc.left : Pc → Nat
  | .idle => 0
  | .valid _ .ret => 5
  | .test _ .ret => 4
  | .walk _ .ret => 3
  | .store _ _ .ret => 2
  | .load _ .ret => 1
  | .loop _ _ => 1
  | .valid _ (.second _ _ _) => 6
  | .test _ (.second _ _ _) => 5
  | .walk _ (.second _ _ _) => 4
  | .store _ _ (.second _ _ _) => 3
  | .load _ (.second _ _ _) => 2
  | .valid _ (.first _ _) => 11
  | .test _ (.first _ _) => 10
  | .walk _ (.first _ _) => 9
  | .store _ _ (.first _ _) => 8
  | .load _ (.first _ _) => 7

/-- The call a thread is in. -/
def Pc.call : Pc → Option Call
  | .idle => none
  | .loop x y => some (.equal x y)
  | .valid t k | .test t k | .walk t k | .store t _ k | .load t k =>
    match k with
    | .ret => some (.size t)
    | .first x y => some (.equal x y)
    | .second x y _ => some (.equal x y)

/-- Steps of the thread `i` only. -/
inductive Own (i : Nat) : Readers T → Readers T → Prop
  | none {s : Readers T} : Own i s s
  | step {s s' s'' : Readers T} : RStep s (.next i) (.ok s') → Own i s' s'' → Own i s s''

/-- A step of a call stays in the call or logs its result. -/
theorem next_call (h : s.next i = .ok s') :
    ((s'.pc i).call = (s.pc i).call ∧ s'.log = s.log) ∨
    (s'.pc i = .idle ∧ ∃ c r, (s.pc i).call = some c ∧ s'.log = (c, r) :: s.log) := by
  unfold Readers.next at h
  cases hi : s.pc i with
  | idle => rw [hi] at h; cases h
  | valid t k =>
    rw [hi] at h; cases h
    left; simp only [Readers.goto, if_true]
    split <;> simp [Pc.call]
  | test t k =>
    rw [hi] at h; simp only at h
    split at h
    · cases h
    · cases h
      left; simp only [Readers.goto, if_true]
      split <;> simp [Pc.call]
  | walk t k =>
    rw [hi] at h; simp only at h
    split at h
    · cases h
    · cases h; left; simp [Readers.goto, Pc.call]
  | store t n k => rw [hi] at h; cases h; left; simp [Readers.goto, Pc.call]
  | load t k =>
    rw [hi] at h; cases h
    cases k with
    | ret => right; simp [Readers.sized, Readers.leave, Readers.goto, Pc.call]
    | first x y => left; simp [Readers.sized, Readers.goto, Pc.call]
    | second x y a =>
      simp only [Readers.sized]
      split
      · right; simp [Readers.leave, Readers.goto, Pc.call]
      · left; simp [Readers.goto, Pc.call]
  | loop x y =>
    rw [hi] at h; simp only at h
    split at h
    · cases h
    · cases h; right; simp [Readers.leave, Readers.goto, Pc.call]

/-! ## C84 -/

/-- C84. Whatever the interleaving of any number of threads that call `size` and `==`: no undefined behaviour; every thread in a call
can go on. -/
theorem c84_defined (hW : Reachable W) (h : Reads W s) {a : RAct} {o : ROut T} (hs : RStep s a o) : ∃ s', o = .ok s' := by
  obtain ⟨A, I⟩ := hW.inv
  obtain ⟨s', e, -⟩ := (h.inv I hW).step hs
  exact ⟨s', e⟩

/-- C84. Every call of `size` returned the number of nodes of the forest, and every `==` whether the forests denote the same trees,
whatever the other threads did meanwhile. -/
theorem c84_results (hW : Reachable W) (h : Reads W s) {c : Call} {r : Ret} (hr : (c, r) ∈ s.log) :
    (∃ t w, c = .size t ∧ order W t = some w ∧ r = .size (nodes w).length) ∨
    (∃ x y v w b, c = .equal x y ∧ order W x = some v ∧ order W y = some w ∧ r = .equal b ∧
      (b = true ↔ ∃ ts, Denotes W.value v ts ∧ Denotes W.value w ts)) := by
  obtain ⟨A, I⟩ := hW.inv
  have hi := (h.inv I hW).log _ hr
  cases c with
  | size t =>
    cases r with
    | size n => obtain ⟨w, hw, rfl⟩ := hi; exact .inl ⟨t, w, rfl, I.order hw, rfl⟩
    | equal b => exact absurd hi id
  | equal x y =>
    cases r with
    | size n => exact absurd hi id
    | equal b =>
      obtain ⟨v, w, hv, hw, hb⟩ := hi
      refine .inr ⟨x, y, v, w, b, rfl, I.order hv, I.order hw, rfl, ?_⟩
      obtain ⟨ts, hts⟩ := I.denotes hv
      obtain ⟨us, hus⟩ := I.denotes hw
      rw [hb, I.content_denotes hts, I.content_denotes hus]
      constructor
      · intro e; have := enc_inj e; subst this; exact ⟨ts, hts, hus⟩
      · rintro ⟨zs, h1, h2⟩; rw [hts.unique h1, hus.unique h2]

/-- C84. The forests themselves are as before: same forests, traversals and values; only sizes may have become known, and the state
is one a single thread could have reached. -/
theorem c84_unchanged (hW : Reachable W) (h : Reads W s) :
    s.W.heap = W.heap ∧ SameForests [] W s.W ∧ SameValues [] W s.W ∧ Reachable s.W := by
  obtain ⟨A, I⟩ := hW.inv
  have hi := h.inv I hW
  exact ⟨hi.heap, sameForests_of_inv I hi.inv (fun _ _ => rfl), sameValues_of_inv I hi.inv (fun _ _ => rfl), hi.reach⟩

/-- C84. No call waits for another: each step of a thread brings its call nearer to the end (11 steps at most), whatever the others do. -/
theorem c84_wait_free (hs : RStep s (.next i) (.ok s')) :
    (s'.pc i).left < (s.pc i).left ∧ (s.pc i).left ≤ 11 ∧ ∀ j, j ≠ i → s'.pc j = s.pc j := by
  generalize ho : (ROut.ok s' : ROut T) = o at hs
  cases hs with
  | next hpc =>
    unfold Readers.next at ho
    cases hi : s.pc i with
    | idle => exact absurd hi hpc
    | valid t k =>
      rw [hi] at ho
      cases ho
      refine ⟨?_, ?_, ?_⟩
      · simp only [Readers.goto, if_true]; split <;> cases k <;> simp [Pc.left]
      · cases k <;> simp [Pc.left]
      · intro j hj; simp [Readers.goto, hj]
    | test t k =>
      rw [hi] at ho
      simp only at ho
      split at ho
      · cases ho
      · cases ho
        refine ⟨?_, ?_, ?_⟩
        · simp only [Readers.goto, if_true]; split <;> cases k <;> simp [Pc.left]
        · cases k <;> simp [Pc.left]
        · intro j hj; simp [Readers.goto, hj]
    | walk t k =>
      rw [hi] at ho
      simp only at ho
      split at ho
      · cases ho
      · cases ho
        refine ⟨?_, ?_, ?_⟩
        · simp only [Readers.goto, if_true]; cases k <;> simp [Pc.left]
        · cases k <;> simp [Pc.left]
        · intro j hj; simp [Readers.goto, hj]
    | store t n k =>
      rw [hi] at ho
      cases ho
      refine ⟨?_, ?_, ?_⟩
      · simp only [Readers.goto, if_true]; cases k <;> simp [Pc.left]
      · cases k <;> simp [Pc.left]
      · intro j hj; simp [Readers.goto, hj]
    | load t k =>
      rw [hi] at ho
      cases ho
      cases k with
      | ret => exact ⟨by simp [Readers.sized, Readers.leave, Readers.goto, Pc.left], by simp [Pc.left],
          fun j hj => by simp [Readers.sized, Readers.leave, Readers.goto, hj]⟩
      | first x y => exact ⟨by simp [Readers.sized, Readers.goto, Pc.left], by simp [Pc.left],
          fun j hj => by simp [Readers.sized, Readers.goto, hj]⟩
      | second x y a =>
        simp only [Readers.sized]
        split
        · exact ⟨by simp [Readers.leave, Readers.goto, Pc.left], by simp [Pc.left],
            fun j hj => by simp [Readers.leave, Readers.goto, hj]⟩
        · exact ⟨by simp [Readers.goto, Pc.left], by simp [Pc.left], fun j hj => by simp [Readers.goto, hj]⟩
    | loop x y =>
      rw [hi] at ho
      simp only at ho
      split at ho
      · cases ho
      · cases ho
        exact ⟨by simp [Readers.leave, Readers.goto, Pc.left], by simp [Pc.left],
          fun j hj => by simp [Readers.leave, Readers.goto, hj]⟩

/-- C84. From every state a thread can finish its call alone, and the call returns. -/
theorem c84_returns (hW : Reachable W) (h : Reads W s) {c : Call} (hc : (s.pc i).call = some c) :
    ∃ s' r, Own i s s' ∧ s'.pc i = .idle ∧ s'.log = (c, r) :: s.log := by
  generalize hm : (s.pc i).left = m
  induction m using Nat.strongRecOn generalizing s with
  | ind m ih =>
    have hpc : s.pc i ≠ .idle := by intro e; rw [e] at hc; cases hc
    obtain ⟨s1, e1⟩ := c84_defined hW h (.next hpc)
    have hs : RStep s (.next i) (.ok s1) := e1 ▸ RStep.next hpc
    have hw := (c84_wait_free hs).1
    rcases next_call e1 with ⟨g1, g2⟩ | ⟨g1, c', r, g2, g3⟩
    · obtain ⟨s2, r, k1, k2, k3⟩ := ih _ (hm ▸ hw) (.step h hs) (g1.trans hc) rfl
      exact ⟨s2, r, .step hs k1, k2, k3.trans (by rw [g2])⟩
    · rw [hc] at g2; cases g2
      exact ⟨s1, r, .step hs .none, g1, g3⟩

theorem Own.reads (h : Own i s s') (hs : Reads W s) : Reads W s' := by
  induction h with
  | none => exact hs
  | step h1 _ ih => exact ih (.step hs h1)

theorem Own.other (h : Own i s s') {j : Nat} (hj : j ≠ i) : s'.pc j = s.pc j := by
  induction h with
  | none => rfl
  | step h1 _ ih => rw [ih, (c84_wait_free h1).2.2 j hj]

-- thread 0 is in `size()` of the demo forest and thread 1 compares it with another one; then both have returned
example : ∃ (W : World Nat) (s s' : Readers Nat) (r q : Ret), Reachable W ∧ Reads W s ∧ Reads W s' ∧
    (s.pc 0).call = some (.size 0) ∧ (s.pc 1).call = some (.equal 0 100) ∧
    s'.log = [(.equal 0 100, q), (.size 0, r)] := by
  obtain ⟨W, h, I⟩ := demo
  have i0 : IsForest W 0 := I.isForest_iff.mpr ⟨_, rfl⟩
  have i1 : IsForest W 100 := I.isForest_iff.mpr ⟨_, rfl⟩
  have r0 : Reads W ⟨W, fun _ => .idle, []⟩ := .start
  have r1 := r0.step (.call (i := 0) (c := .size 0) rfl (by simpa [Call.forests] using i0))
  have r2 := r1.step (.call (i := 1) (c := .equal 0 100) (by simp [Readers.goto])
    (by simpa [Call.forests, Readers.goto] using And.intro i0 i1))
  obtain ⟨s1, r, k1, k2, k3⟩ := c84_returns (i := 0) (c := .size 0) h r2 (by simp [Readers.goto, Call.start, Pc.call])
  have r3 := k1.reads r2
  have hc : (s1.pc 1).call = some (.equal 0 100) := by
    rw [k1.other (by decide)]; simp [Readers.goto, Call.start, Pc.call]
  obtain ⟨s2, q, l1, l2, l3⟩ := c84_returns (i := 1) h r3 hc
  refine ⟨W, _, s2, r, q, h, r2, l1.reads r3, ?_, ?_, ?_⟩
  · simp [Readers.goto, Call.start, Pc.call]
  · simp [Readers.goto, Call.start, Pc.call]
  · rw [l3, k3]; simp [Readers.goto]

end Verif.Forest
