import Verif.Forest.Props3

/-!
# Exceptions thrown while values are copied into a forest (include/stlab/forest.hpp, forest_algorithms.hpp)

The other models of `forest` assume that copying a value and allocating a node succeed. Here the operations that copy values get a
number `n`: the first `n` calls of `insert` succeed, and the next one throws. `insert` (forest.hpp:864-873) may throw when its
parameter `x` is copied from the argument, in `operator new`, or in the constructor of the node (which is given `std::move(x)`; the
memory is then freed by the new-expression). All three come before the first write to the forest, so they are one case here.

Result: `none` is undefined behaviour; otherwise the state, and what the operation returned, or `none` if it threw.
-/

namespace Verif.Forest

variable {T : Type}

/-- `insert(position, x)` (forest.hpp:864-873), also `push_front` and `push_back` (875-876): `ok` says whether the value could be
copied and the node allocated. -/
def insertThrow (W : World T) (t : Ptr) (pos : Iter) (x : T) (p : Ptr) (ok : Bool) : Option (World T × Option Iter) :=
  if ok then do
    let (W, r) ← insert W t pos x p
    return (W, some r)
  else some (W, none)

/-- `insert_parent` (forest.hpp:1085-1092). -/
def insertParentThrow (W : World T) (t : Ptr) (first last : Iter) (x : T) (p : Ptr) (ok : Bool) :
    Option (World T × Option Iter) := do
  let (W, r) ← insertThrow W t last x p ok
  match r with
  | none => return (W, none)
  | some result =>
    if first = last then return (W, some result)
    let (W, _) ← spliceRange W t result.trailingOf t first result
    return (W, some result)

/-- `insert(pos, first, last)` (forest.hpp:1035-1043). -/
def insertRangeThrow (W : World T) (t : Ptr) (pos first last : Iter) (ps : List Ptr) (n : Nat) :
    Option (World T × Option Iter) :=
  if first = last then some (W, some pos)
  else if first.edge = .leading then do
    let v ← W.heap.deref first
    match ps with
    | [] => none
    | p :: ps => do
      let (W, r) ← insertThrow W t pos v p (n != 0)
      match r with
      | none => return (W, none)
      | some pos => do
        let first ← incr W.heap first
        let pos ← incr W.heap pos
        insertRangeThrow W t pos first last ps (n - 1)
  else do
    let first ← incr W.heap first
    let pos ← incr W.heap pos
    insertRangeThrow W t pos first last ps n
partial_fixpoint

/-- `forest(const forest&)` (forest.hpp:798-800). This constructor does not delegate to another one, so if its body throws the
destructor (line 796) is not called: only the members are destroyed, the sentinel `_tail` (line 909) among them. -/
def copyCtorThrow (W : World T) (t x : Ptr) (ps : List Ptr) (n : Nat) : Option (World T × Bool) := do
  let W ← newForest W t
  let b ← begin_ W.heap x
  let (W, r) ← insertRangeThrow W t (end_ t) b (end_ x) ps n
  match r with
  | some _ => return (W, true)
  | none => return ({ W with heap := fun q => if q = t then none else W.heap q }, false)

/-- `operator=(const forest&)` (forest.hpp:802-806): what comes after the copy is `noexcept` (line 808). -/
def copyAssignThrow (W : World T) (t x tmp tmp1 : Ptr) (ps : List Ptr) (n : Nat) : Option (World T × Bool) :=
  if t = x then none else do
    let (W, ok) ← copyCtorThrow W tmp x ps n
    if ok then
      let W ← moveAssign W t tmp tmp1
      let W ← destroy W tmp
      return (W, true)
    else return (W, false)

/-- The loop of `transcribe` as `unflatten` uses it (forest_algorithms.hpp:80-90, 126-132). -/
def unflattenThrow (W : World T) (t : Ptr) (out : Iter) (ps : List Ptr) (n : Nat) :
    List (Option T) → Option (World T × Option Iter)
  | [] => some (W, some out)
  | some v :: s =>
    match ps with
    | [] => none
    | p :: ps => do
      let (W, r) ← insertThrow W t out v p (n != 0)
      match r with
      | none => return (W, none)
      | some out => do
        let out ← incr W.heap out
        unflattenThrow W t out ps (n - 1) s
  | none :: s => do
    let out ← incr W.heap out.trailingOf
    unflattenThrow W t out ps n s

/-- `unflatten(first, last, f)` (forest_algorithms.hpp:126-132). -/
def unflattenAllThrow (W : World T) (t : Ptr) (s : List (Option T)) (ps : List Ptr) (n : Nat) :
    Option (World T × Option Iter) := do
  let out ← begin_ W.heap t
  unflattenThrow W t out ps n s

/-! ## The loops -/

/-- What has been built when the loop stops before the node number `n` (from 0), with `d` nodes open at the start: the nodes that
are still open get no more children. -/
def cut {α : Type} : Nat → Nat → List (Option α) → List (Option α)
  | _, d, [] => List.replicate d none
  | 0, d, some _ :: _ => List.replicate d none
  | n + 1, d, some v :: s => some v :: cut n (d + 1) s
  | n, d, none :: s => none :: cut n (d - 1) s

theorem content_trailing {val : Ptr → Option T} : ∀ {k : List Iter}, (∀ x ∈ k, x.edge = .trailing) →
    content val k = List.replicate k.length none
  | [], _ => rfl
  | y :: k, h => by
    rw [content_cons_trailing (h y (by simp)), content_trailing (fun x hx => h x (by simp [hx]))]; rfl

theorem unflattenThrow_refines (t : Ptr) (a c : List Iter) :
    ∀ (s : List (Option T)) (ps : List Ptr) (n : Nat) (D k : List Iter) (W : World T) (A : AState T), Inv W A →
      A.words t = some (a ++ (D ++ (k ++ c))) → (∀ x ∈ k, x.edge = .trailing) →
      Nested k.length s → ps.Nodup → (∀ p ∈ ps, W.heap p = none) → opens s ≤ ps.length →
      ∃ W' A' E, unflattenThrow W t (posOf t (k ++ c)) ps n s =
          some (W', if n < opens s then none else some (posOf t c)) ∧ Inv W' A' ∧
        A'.words = (A.setWord t (a ++ (D ++ (E ++ c)))).words ∧ content A'.val E = cut n k.length s ∧
        (∀ q, q ∉ ps → A'.val q = A.val q) ∧ (Reachable W → Reachable W') := by
  intro s
  induction s with
  | nil =>
    intro ps n D k W A I hw hk hN _ _ _
    have : k = [] := by simpa [Nested] using hN
    subst this
    refine ⟨W, A, [], by simp [unflattenThrow, opens], I, ?_, rfl, fun _ _ => rfl, id⟩
    have := AState.setWord_self hw
    simp only [List.nil_append] at this ⊢
    rw [this]
  | cons o s ih =>
    intro ps n D k W A I hw hk hN hnd hfr hlen
    cases o with
    | some v =>
      cases ps with
      | nil => simp [opens] at hlen
      | cons p ps =>
        cases n with
        | zero =>
          refine ⟨W, A, k, ?_, I, ?_, ?_, fun _ _ => rfl, id⟩
          · simp [unflattenThrow, insertThrow, opens]
          · rw [AState.setWord_self hw]
          · rw [content_trailing hk, cut]
        | succ n =>
        obtain ⟨W1, h1, h2, I1, hpres⟩ := build_open I hw (hfr p (by simp)) v
        have hnd' := List.nodup_cons.mp hnd
        obtain ⟨W', A', E, g1, g2, g3, g4, g5, g6⟩ := ih ps n (D ++ [⟨p, .leading⟩]) (⟨p, .trailing⟩ :: k) W1 _ I1
          (by simp [AState.setVal, AState.setWord])
          (by
            intro x hx
            rcases List.mem_cons.mp hx with rfl | hx
            · rfl
            · exact hk x hx)
          (by simpa [Nested] using hN) hnd'.2
          (fun q hq => hpres q (fun e => hnd'.1 (e ▸ hq)) (hfr q (by simp [hq])))
          (by simp only [opens, Option.isSome_some, List.filter_cons_of_pos, List.length_cons] at hlen ⊢; omega)
        refine ⟨W', A', ⟨p, .leading⟩ :: E, ?_, g2, ?_, ?_, ?_, ?_⟩
        · have e : (n + 1 != 0) = true := by simp
          simp only [unflattenThrow, insertThrow, e, if_true, h1, Option.bind_eq_bind, Option.bind_some, h2,
            Nat.add_sub_cancel, pure]
          rw [g1]
          have e : opens (some v :: s) = opens s + 1 := by simp [opens]
          rw [e]
          simp only [Nat.add_lt_add_iff_right]
        · rw [g3]
          simp only [AState.setWord, AState.setVal]
          funext q; split <;> simp
        · rw [content_cons_leading, g4, g5 p hnd'.1]; simp [AState.setVal, cut]
        · intro q hq
          simp only [List.mem_cons, not_or] at hq
          rw [g5 q hq.2]; simp [AState.setVal, AState.setWord, hq.1]
        · intro hR
          refine g6 (.step (.insert t (posOf t (k ++ c)) v p) hR ⟨hfr p (by simp), a ++ D, k ++ c, ?_, rfl⟩
            (by simp [exec, h1]))
          have := I.rep t _ hw
          simpa using this
    | none =>
      cases k with
      | nil => simp [Nested] at hN
      | cons y k =>
        have hy : y.edge = .trailing := hk y (by simp)
        have h2 := build_close I hw
        obtain ⟨W', A', E, g1, g2, g3, g4, g5, g6⟩ := ih ps n (D ++ [y]) k W A I (by simpa using hw)
          (fun x hx => hk x (by simp [hx])) (by simpa [Nested] using hN) hnd hfr
          (by simpa [opens] using hlen)
        refine ⟨W', A', y :: E, ?_, g2, ?_, ?_, g5, g6⟩
        · have : y.trailingOf = y := by cases y; simp at hy; subst hy; rfl
          rw [List.cons_append, posOf_cons]
          simp only [unflattenThrow, this, h2, Option.bind_eq_bind, Option.bind_some]
          rw [g1]
          have e : opens (none :: s) = opens s := by simp [opens]
          rw [e]
        · rw [g3]
          simp only [AState.setWord]
          funext q; split <;> simp
        · rw [content_cons_trailing hy, g4]; cases n <;> simp [cut]

/-- Inserting a range does the same as building from its content, also when it is cut short. -/
theorem insertRangeThrow_eq (t x : Ptr) (a c r : List Iter) (htx : x ≠ t) :
    ∀ (S l : List Iter) (ps : List Ptr) (n : Nat) (D k : List Iter) (W : World T) (A : AState T), Inv W A →
      A.words t = some (a ++ (D ++ (k ++ c))) → A.words x = some (l ++ (S ++ r)) →
      (∀ x ∈ k, x.edge = .trailing) →
      Nested k.length (content A.val S) → ps.Nodup → (∀ p ∈ ps, W.heap p = none) →
      opens (content A.val S) ≤ ps.length →
      insertRangeThrow W t (posOf t (k ++ c)) (posOf x (S ++ r)) (posOf x r) ps n =
        unflattenThrow W t (posOf t (k ++ c)) ps n (content A.val S) := by
  intro S
  induction S with
  | nil => intro l ps n D k W A I _ _ _ _ _ _ _; rw [insertRangeThrow]; simp [content, unflattenThrow]
  | cons y S ih =>
    intro l ps n D k W A I hw hx hk hN hnd hfr hlen
    have hne := posOf_ne (I.rep x _ hx) (r := y :: S) (by simp)
    rw [List.cons_append, posOf_cons] at hne
    have hx' : A.words x = some ((l ++ [y]) ++ (S ++ r)) := by simpa using hx
    have hincr : ∀ (W1 : World T), Rep W1.heap x (l ++ (y :: S ++ r)) → incr W1.heap y = some (posOf x (S ++ r)) := by
      intro W1 R
      have R' : Rep W1.heap x ((l ++ [y]) ++ (S ++ r)) := by simpa using R
      have := R'.incr_split
      rwa [priorOf_concat] at this
    obtain ⟨v, hv1, hv2⟩ := I.val_some hx (x := y) (by simp)
    obtain ⟨m, e⟩ := y
    cases e with
    | leading =>
      simp only at hv1
      rw [content_cons_leading, hv1] at hN hlen ⊢
      cases ps with
      | nil => simp [opens] at hlen
      | cons p ps =>
        cases n with
        | zero =>
          rw [insertRangeThrow, List.cons_append, posOf_cons]
          simp [hne, hv2, insertThrow, unflattenThrow]
        | succ n =>
        obtain ⟨W1, h1, h2, I1, hpres⟩ := build_open I hw (hfr p (by simp)) v
        have hnd' := List.nodup_cons.mp hnd
        have hx1 : ((A.setWord t (a ++ ((D ++ [⟨p, .leading⟩]) ++ ((⟨p, .trailing⟩ :: k) ++ c)))).setVal p
            (some v)).words x = some ((l ++ [⟨m, .leading⟩]) ++ (S ++ r)) := by
          simp only [AState.setVal, AState.setWord, htx, if_false]; exact hx'
        have hcg : content ((A.setWord t (a ++ ((D ++ [⟨p, .leading⟩]) ++ ((⟨p, .trailing⟩ :: k) ++ c)))).setVal p
            (some v)).val S = content A.val S := by
          refine content_congr ?_
          intro z hz
          have : z.node ≠ p := by
            rintro rfl
            refine I.none_iff.mp (hfr z.node (by simp)) x _ hx ?_
            simp only [support, List.mem_cons, List.mem_map]
            exact Or.inr ⟨z, by simp [hz], rfl⟩
          simp [AState.setVal, AState.setWord, this]
        have key := ih (l ++ [⟨m, .leading⟩]) ps n (D ++ [⟨p, .leading⟩]) (⟨p, .trailing⟩ :: k) W1 _ I1
          (by simp [AState.setVal, AState.setWord]) hx1
          (by
            intro x hx
            rcases List.mem_cons.mp hx with rfl | hx
            · rfl
            · exact hk x hx)
          (by rw [hcg]; simpa [Nested] using hN) hnd'.2
          (fun q hq => hpres q (fun e => hnd'.1 (e ▸ hq)) (hfr q (by simp [hq])))
          (by rw [hcg]; simp only [opens, Option.isSome_some, List.filter_cons_of_pos, List.length_cons] at hlen ⊢; omega)
        rw [hcg] at key
        rw [insertRangeThrow, List.cons_append, posOf_cons]
        have hi := hincr W1 (by have := I1.rep x _ hx1; simpa using this)
        have e : (n + 1 != 0) = true := by simp
        simp only [hne, if_false, if_true, hv2, insertThrow, e, h1, Option.bind_eq_bind, Option.bind_some,
          unflattenThrow, h2, hi, pure, Nat.add_sub_cancel]
        exact key
    | trailing =>
      rw [content_cons_trailing rfl] at hN hlen ⊢
      cases k with
      | nil => simp [Nested] at hN
      | cons z k =>
        have hz : z.edge = .trailing := hk z (by simp)
        have h2 := build_close I hw
        have key := ih (l ++ [⟨m, .trailing⟩]) ps n (D ++ [z]) k W A I (by simpa using hw) hx'
          (fun x hx => hk x (by simp [hx])) (by simpa [Nested] using hN) hnd hfr
          (by simpa [opens] using hlen)
        have hi := hincr W (I.rep x _ hx)
        have hzz : z.trailingOf = z := by cases z; simp at hz; subst hz; rfl
        rw [insertRangeThrow, List.cons_append, posOf_cons, List.cons_append, posOf_cons]
        simp only [hne, if_false, reduceCtorEq, Option.bind_eq_bind, Option.bind_some,
          unflattenThrow, hzz, h2, hi]
        exact key

/-! ## The first nodes of a list of trees -/

/-- The first `n` nodes in preorder, with the same parents. -/
def firstNodes {α : Type} : Nat → List (Tree α) → List (Tree α)
  | _, [] => []
  | 0, _ :: _ => []
  | n + 1, .node v cs :: ts => .node v (firstNodes n cs) :: firstNodes (n - countTrees cs) ts

theorem cut_enc {α : Type} : ∀ (ts : List (Tree α)) (n d : Nat) (s : List (Option α)),
    cut n d (enc ts ++ s) =
      if countTrees ts ≤ n then enc ts ++ cut (n - countTrees ts) d s else enc (firstNodes n ts) ++ List.replicate d none
  | [], n, d, s => by simp [enc, countTrees]
  | .node v cs :: ts, 0, d, s => by simp [enc, countTrees, cut, firstNodes]
  | .node v cs :: ts, n + 1, d, s => by
    have h1 := cut_enc cs n (d + 1) (none :: (enc ts ++ s))
    have h2 := cut_enc ts (n - countTrees cs) d s
    simp only [enc, List.cons_append, List.append_assoc, cut, countTrees, firstNodes]
    rw [h1]
    by_cases hc : countTrees cs ≤ n
    · have e : ∀ m, cut m (d + 1) (none :: (enc ts ++ s)) = none :: cut m d (enc ts ++ s) := by
        intro m; cases m <;> simp [cut]
      rw [if_pos hc, e, h2]
      by_cases ht : countTrees ts ≤ n - countTrees cs
      · rw [if_pos ht, if_pos (by omega)]
        have : n - countTrees cs - countTrees ts = n + 1 - (1 + countTrees cs + countTrees ts) := by omega
        rw [this]
      · rw [if_neg ht, if_neg (by omega)]
        have : firstNodes n cs = cs := firstNodes_all cs n hc
        rw [this]
    · rw [if_neg hc, if_neg (by omega)]
      have : n - countTrees cs = 0 := by omega
      rw [this]
      have h0 : firstNodes 0 ts = [] := by cases ts <;> simp [firstNodes]
      rw [h0]
      simp [enc, List.replicate_succ]
where
  firstNodes_all : ∀ (ts : List (Tree α)) (n : Nat), countTrees ts ≤ n → firstNodes n ts = ts
  | [], n, _ => by simp [firstNodes]
  | .node v cs :: ts, 0, h => by simp [countTrees] at h
  | .node v cs :: ts, n + 1, h => by
    simp only [countTrees] at h
    simp only [firstNodes]
    rw [firstNodes_all cs n (by omega), firstNodes_all ts (n - countTrees cs) (by omega)]

theorem firstNodes_all {α : Type} {ts : List (Tree α)} {n : Nat} (h : countTrees ts ≤ n) : firstNodes n ts = ts :=
  cut_enc.firstNodes_all ts n h

theorem cut_firstNodes {α : Type} (ts : List (Tree α)) (n : Nat) : cut n 0 (enc ts) = enc (firstNodes n ts) := by
  have := cut_enc ts n 0 []
  simp only [List.append_nil, List.replicate_zero] at this
  rw [this]
  split
  · rename_i h
    rw [firstNodes_all h]; simp [cut]
  · rfl

theorem count_firstNodes {α : Type} : ∀ (ts : List (Tree α)) (n : Nat),
    countTrees (firstNodes n ts) = min n (countTrees ts)
  | [], n => by simp [firstNodes, countTrees]
  | .node v cs :: ts, 0 => by simp [firstNodes, countTrees]
  | .node v cs :: ts, n + 1 => by
    simp only [firstNodes, countTrees]
    rw [count_firstNodes cs n, count_firstNodes ts]
    omega

/-! ## Inserting a range, and the leak -/

variable {W : World T} {A : AState T}

theorem insertRangeThrow_refines (I : Inv W A) {t x : Ptr} {a c l S r : List Iter} {ps : List Ptr} (n : Nat)
    (htx : x ≠ t) (hw : A.words t = some (a ++ c)) (hx : A.words x = some (l ++ (S ++ r)))
    (hS : Balanced S) (hnd : ps.Nodup) (hfr : ∀ p ∈ ps, W.heap p = none)
    (hlen : (nodes S).length ≤ ps.length) :
    ∃ W' A' E, insertRangeThrow W t (posOf t c) (posOf x (S ++ r)) (posOf x r) ps n =
        some (W', if n < (nodes S).length then none else some (posOf t c)) ∧ Inv W' A' ∧
      A'.words = (A.setWord t (a ++ (E ++ c))).words ∧ content A'.val E = cut n 0 (content A.val S) ∧
      (∀ q, q ∉ ps → A'.val q = A.val q) ∧ (Reachable W → Reachable W') := by
  have hv : ∀ y ∈ S, ∃ v, A.val y.node = some v := fun y hy =>
    (I.val_some hx (x := y) (by simp [hy])).imp fun _ h => h.1
  have hN : Nested 0 (content A.val S) := by
    have := nested_content hS hv 0 []
    simp only [List.append_nil] at this
    exact this.mpr rfl
  have hop : opens (content A.val S) ≤ ps.length := by rw [opens_content hv]; exact hlen
  have e := insertRangeThrow_eq t x a c r htx S l ps n [] [] W A I (by simpa using hw) hx (by simp)
    hN hnd hfr hop
  obtain ⟨W', A', E, g1, g2, g3, g4, g5, g6⟩ := unflattenThrow_refines t a c (content A.val S) ps n [] [] W A I
    (by simpa using hw) (by simp) hN hnd hfr hop
  simp only [List.nil_append] at e g1 g3
  exact ⟨W', A', E, by rw [e, g1, opens_content hv], g2, by simpa using g3, g4, g5, g6⟩

/-- Forgetting the sentinel of a forest leaves the other forests alone and its nodes allocated. -/
theorem Inv.forget (I : Inv W A) {t : Ptr} {w : List Iter} (hw : A.words t = some w) {W' : World T}
    (hW' : W' = { W with heap := fun q => if q = t then none else W.heap q }) :
    (∀ q, IsForest W' q ↔ q ≠ t ∧ IsForest W q) ∧ (∀ q, q ≠ t → IsForest W q → Forest.order W' q = Forest.order W q) ∧
      (∀ q, W'.value q = W.value q) := by
  have hts : t ∈ support t w := by simp [support]
  subst hW'
  refine ⟨?_, ?_, ?_⟩
  · intro q
    by_cases hq : q = t
    · subst hq; simp [IsForest]
    · simp [IsForest, hq]
  · intro q hq hf
    obtain ⟨v, hv⟩ := I.isForest_iff.mp hf
    rw [I.order hv]
    have R : Rep (fun p => if p = t then none else W.heap p) q v := by
      refine (I.rep q v hv).congr ?_
      intro p hp
      have : p ≠ t := by
        rintro rfl
        exact hq (I.disj q v p w p hv hw hp hts)
      simp [this]
    simp [Forest.order, R.begin_posOf, full_walk R]
  · intro q
    by_cases hq : q = t
    · subst hq
      obtain ⟨m, h1, h2⟩ := (I.rep q w hw).tail_live
      simp [World.value, valueAt, h1, h2]
    · simp [World.value, valueAt, hq]

end Verif.Forest
