import Verif.Forest.Algo

/-! # Inserting a copy of a child range of the same forest (forest.hpp:1035-1043) -/

namespace Verif.Forest

variable {T : Type} {W : World T} {A : AState T}

/-- The first of the positions `S`, or what follows them. -/
def firstOr (S : List Iter) (last : Iter) : Iter := S.head?.getD last

theorem posOf_firstOr (t : Ptr) (S r : List Iter) : posOf t (S ++ r) = firstOr S (posOf t r) := by
  cases S <;> simp [firstOr, posOf_cons]

/-- Whatever is inserted between `a` and `c`, the positions `S` follow each other, and `last` follows them. -/
def Apart (t : Ptr) (a c S : List Iter) (last : Iter) : Prop :=
  ∀ X, ∃ l r, a ++ (X ++ c) = l ++ (S ++ r) ∧ posOf t r = last

theorem Apart.tail {t : Ptr} {a c S : List Iter} {y last : Iter} (h : Apart t a c (y :: S) last) : Apart t a c S last := by
  intro X
  obtain ⟨l, r, e, hr⟩ := h X
  exact ⟨l ++ [y], r, by simpa using e, hr⟩

/-- The position is before the range, or is its first one. -/
theorem apart_before (t : Ptr) (a m S r : List Iter) : Apart t a (m ++ (S ++ r)) S (posOf t r) :=
  fun X => ⟨a ++ (X ++ m), r, by simp, rfl⟩

/-- The position is after the one that follows the range. -/
theorem apart_after (t : Ptr) (l S m c : List Iter) (z : Iter) : Apart t (l ++ (S ++ z :: m)) c S z :=
  fun X => ⟨l, (z :: m) ++ (X ++ c), by simp, by rw [List.cons_append, posOf_cons]⟩

/-- `insert(pos, first, last)` does the same as building from the content of the range, as it was before. -/
theorem insertRangeLoop_own_eq (t : Ptr) (a c : List Iter) (last : Iter) :
    ∀ (S : List Iter) (ps : List Ptr) (D k : List Iter) (W : World T) (A : AState T), Inv W A →
      A.words t = some (a ++ (D ++ (k ++ c))) → Apart t a c S last →
      (∀ x ∈ k, x.edge = .trailing) →
      Nested k.length (content A.val S) → ps.Nodup → (∀ p ∈ ps, W.heap p = none) →
      opens (content A.val S) ≤ ps.length →
      insertRangeLoop W t (posOf t (k ++ c)) (firstOr S last) last ps =
        unflattenLoop W t (posOf t (k ++ c)) ps (content A.val S) := by
  intro S
  induction S with
  | nil => intro ps D k W A I _ _ _ _ _ _ _; rw [insertRangeLoop]; simp [content, unflattenLoop, firstOr]
  | cons y S ih =>
    intro ps D k W A I hw hx hk hN hnd hfr hlen
    have hsplit : ∀ D k, ∃ l r, a ++ (D ++ (k ++ c)) = l ++ (y :: S ++ r) ∧ posOf t r = last := by
      intro D k
      obtain ⟨l, r, e, hr⟩ := hx (D ++ k)
      exact ⟨l, r, by simpa using e, hr⟩
    have hne : y ≠ last := by
      obtain ⟨l, r, e, hr⟩ := hsplit D k
      have R := I.rep t _ hw
      rw [e] at R
      have := posOf_ne R (r := y :: S) (by simp)
      rwa [List.cons_append, posOf_cons, hr] at this
    have hincr : ∀ (W1 : World T) (D k : List Iter), Rep W1.heap t (a ++ (D ++ (k ++ c))) →
        incr W1.heap y = some (firstOr S last) := by
      intro W1 D k R
      obtain ⟨l, r, e, hr⟩ := hsplit D k
      have R' : Rep W1.heap t ((l ++ [y]) ++ (S ++ r)) := by rw [e] at R; simpa using R
      have := R'.incr_split
      rwa [priorOf_concat, posOf_firstOr, hr] at this
    have hmem : ∀ z ∈ y :: S, z ∈ a ++ (D ++ (k ++ c)) := by
      intro z hz
      obtain ⟨l, r, e, -⟩ := hsplit D k
      rw [e]
      exact List.mem_append_right _ (List.mem_append_left _ hz)
    obtain ⟨v, hv1, hv2⟩ := I.val_some hw (x := y) (hmem y (by simp))
    have hf : firstOr (y :: S) last = y := rfl
    obtain ⟨n, e⟩ := y
    cases e with
    | leading =>
      simp only at hv1
      rw [content_cons_leading, hv1] at hN hlen ⊢
      cases ps with
      | nil => simp [opens] at hlen
      | cons p ps =>
        obtain ⟨W1, h1, h2, I1, hpres⟩ := build_open I hw (hfr p (by simp)) v
        have hnd' := List.nodup_cons.mp hnd
        have hw1 : ((A.setWord t (a ++ ((D ++ [⟨p, .leading⟩]) ++ ((⟨p, .trailing⟩ :: k) ++ c)))).setVal p
            (some v)).words t = some (a ++ ((D ++ [⟨p, .leading⟩]) ++ ((⟨p, .trailing⟩ :: k) ++ c))) := by
          simp [AState.setVal, AState.setWord]
        have hcg : content ((A.setWord t (a ++ ((D ++ [⟨p, .leading⟩]) ++ ((⟨p, .trailing⟩ :: k) ++ c)))).setVal p
            (some v)).val S = content A.val S := by
          refine content_congr ?_
          intro z hz
          have : z.node ≠ p := by
            rintro rfl
            refine I.none_iff.mp (hfr z.node (by simp)) t _ hw ?_
            simp only [support, List.mem_cons, List.mem_map]
            exact Or.inr ⟨z, hmem z (by simp [hz]), rfl⟩
          simp [AState.setVal, AState.setWord, this]
        have key := ih ps (D ++ [⟨p, .leading⟩]) (⟨p, .trailing⟩ :: k) W1 _ I1 hw1 hx.tail
          (by
            intro x hx
            rcases List.mem_cons.mp hx with rfl | hx
            · rfl
            · exact hk x hx)
          (by rw [hcg]; simpa [Nested] using hN) hnd'.2
          (fun q hq => hpres q (fun e => hnd'.1 (e ▸ hq)) (hfr q (by simp [hq])))
          (by rw [hcg]; simp only [opens, Option.isSome_some, List.filter_cons_of_pos, List.length_cons] at hlen ⊢; omega)
        rw [hcg] at key
        rw [insertRangeLoop, hf]
        have hi := hincr W1 _ _ (I1.rep t _ hw1)
        simp only [hne, if_false, if_true, hv2, transcribeAssign, h1, Option.bind_eq_bind, Option.bind_some,
          unflattenLoop, h2, hi, pure]
        exact key
    | trailing =>
      rw [content_cons_trailing rfl] at hN hlen ⊢
      cases k with
      | nil => simp [Nested] at hN
      | cons z k =>
        have hz : z.edge = .trailing := hk z (by simp)
        have h2 := build_close I hw
        have key := ih ps (D ++ [z]) k W A I (by simpa using hw) hx.tail
          (fun x hx => hk x (by simp [hx])) (by simpa [Nested] using hN) hnd hfr
          (by simpa [opens] using hlen)
        have hi := hincr W _ _ (I.rep t _ hw)
        have hzz : z.trailingOf = z := by cases z; simp at hz; subst hz; rfl
        rw [insertRangeLoop, hf, List.cons_append, posOf_cons]
        simp only [hne, if_false, reduceCtorEq, Option.bind_eq_bind, Option.bind_some,
          unflattenLoop, hzz, h2, hi]
        exact key

/-- Inserting a copy of a child range of the same forest. -/
theorem insertRange_own_refines (I : Inv W A) {t : Ptr} {a c S : List Iter} {last : Iter} {ps : List Ptr}
    (hw : A.words t = some (a ++ c)) (hx : Apart t a c S last)
    (hS : Balanced S) (hnd : ps.Nodup) (hfr : ∀ p ∈ ps, W.heap p = none)
    (hlen : (nodes S).length ≤ ps.length) :
    ∃ W' A' E, insertRangeLoop W t (posOf t c) (firstOr S last) last ps =
        some (W', posOf t c) ∧ Inv W' A' ∧
      A'.words = (A.setWord t (a ++ (E ++ c))).words ∧ content A'.val E = content A.val S ∧
      (∀ q, q ∉ ps → A'.val q = A.val q) := by
  have hv : ∀ y ∈ S, ∃ v, A.val y.node = some v := fun y hy => by
    obtain ⟨l, r, e, -⟩ := hx []
    refine (I.val_some hw (x := y) ?_).imp fun _ h => h.1
    have e' : a ++ c = l ++ (S ++ r) := by simpa using e
    rw [e']
    exact List.mem_append_right _ (List.mem_append_left _ hy)
  have hN : Nested 0 (content A.val S) := by
    have := nested_content hS hv 0 []
    simp only [List.append_nil] at this
    exact this.mpr rfl
  have hop : opens (content A.val S) ≤ ps.length := by rw [opens_content hv]; exact hlen
  have e := insertRangeLoop_own_eq t a c last S ps [] [] W A I (by simpa using hw) hx (by simp)
    hN hnd hfr hop
  obtain ⟨W', A', E, g1, g2, g3, g4, g5⟩ := unflattenLoop_refines t a c (content A.val S) ps [] [] W A I
    (by simpa using hw) (by simp) hN hnd hfr hop
  simp only [List.nil_append] at e g1 g3
  exact ⟨W', A', E, by rw [e]; exact g1, g2, by simpa using g3, g4, g5⟩

/-- The depth after the edges `w`, if it does not get below 0. -/
def depthAfter : Nat → List Iter → Option Nat
  | d, [] => some d
  | d, ⟨_, .leading⟩ :: w => depthAfter (d + 1) w
  | 0, ⟨_, .trailing⟩ :: _ => none
  | d + 1, ⟨_, .trailing⟩ :: w => depthAfter d w

theorem depthAfter_append (w v : List Iter) : ∀ d, depthAfter d (w ++ v) = (depthAfter d w).bind (fun e => depthAfter e v) := by
  induction w with
  | nil => intro d; simp [depthAfter]
  | cons y w ih =>
    intro d
    obtain ⟨n, e⟩ := y
    cases e with
    | leading => simp [depthAfter, ih]
    | trailing => cases d <;> simp [depthAfter, ih]

theorem depthAfter_balanced {w : List Iter} (h : Balanced w) : ∀ d, depthAfter d w = some d := by
  induction h with
  | nil => intro d; rfl
  | cons n hb hc ihb ihc =>
    intro d
    simp [depthAfter, depthAfter_append, ihb, ihc]

/-- If the position is the end of the range, the loop never gets to the end: it reads the nodes it has inserted. -/
theorem insertRangeLoop_own_end (t : Ptr) (c : List Iter) :
    ∀ (N : Nat) (ps : List Ptr) (k l S : List Iter) (W : World T) (A : AState T), 2 * ps.length + k.length = N → Inv W A →
      A.words t = some (l ++ (S ++ (k ++ c))) → S ≠ [] → (∀ x ∈ k, x.edge = .trailing) → depthAfter k.length S = some k.length →
      ps.Nodup → (∀ p ∈ ps, W.heap p = none) →
      insertRangeLoop W t (posOf t (k ++ c)) (posOf t (S ++ (k ++ c))) (posOf t c) ps = none := by
  intro N
  induction N using Nat.strongRecOn with
  | ind N ih =>
    intro ps k l S W A hN I hw hS hk hd hnd hfr
    cases S with
    | nil => exact absurd rfl hS
    | cons y S =>
      have hne : y ≠ posOf t c := by
        have R : Rep W.heap t (l ++ ((y :: S ++ k) ++ c)) := by simpa using I.rep t _ hw
        have := posOf_ne R (r := y :: S ++ k) (by simp)
        simpa [posOf_cons] using this
      obtain ⟨v, hv1, hv2⟩ := I.val_some hw (x := y) (by simp)
      rw [insertRangeLoop, List.cons_append, posOf_cons, if_neg hne]
      obtain ⟨n, e⟩ := y
      cases e with
      | leading =>
        cases ps with
        | nil => simp [hv2]
        | cons p ps =>
          have hw' : A.words t = some (l ++ ((⟨n, .leading⟩ :: S) ++ (k ++ c))) := hw
          obtain ⟨W1, h1, h2, I1, hpres⟩ := build_open I hw' (hfr p (by simp)) v
          have hnd' := List.nodup_cons.mp hnd
          have hw1 : ((A.setWord t (l ++ (((⟨n, .leading⟩ :: S) ++ [⟨p, .leading⟩]) ++ ((⟨p, .trailing⟩ :: k) ++ c)))).setVal p
              (some v)).words t = some ((l ++ [⟨n, .leading⟩]) ++ ((S ++ [⟨p, .leading⟩]) ++ ((⟨p, .trailing⟩ :: k) ++ c))) := by
            simp [AState.setVal, AState.setWord]
          have hi : incr W1.heap ⟨n, .leading⟩ = some (posOf t ((S ++ [⟨p, .leading⟩]) ++ ((⟨p, .trailing⟩ :: k) ++ c))) := by
            have := (I1.rep t _ hw1).incr_split
            rwa [priorOf_concat] at this
          have key := ih (2 * ps.length + (k.length + 1)) (by simp at hN; omega) ps (⟨p, .trailing⟩ :: k) (l ++ [⟨n, .leading⟩])
            (S ++ [⟨p, .leading⟩]) W1 _ (by simp) I1 hw1 (by simp)
            (by
              intro x hx
              rcases List.mem_cons.mp hx with rfl | hx
              · rfl
              · exact hk x hx)
            (by
              simp only [depthAfter, depthAfter_append, List.length_cons] at hd ⊢
              rw [hd]
              rfl)
            hnd'.2 (fun q hq => hpres q (fun e => hnd'.1 (e ▸ hq)) (hfr q (by simp [hq])))
          simp only [if_true, hv2, h1, Option.bind_eq_bind, Option.bind_some, h2, hi, pure]
          exact key
      | trailing =>
        cases k with
        | nil => simp [depthAfter] at hd
        | cons z k =>
          have hz : z.edge = .trailing := hk z (by simp)
          have h2 : incr W.heap z = some (posOf t (k ++ c)) := build_close I (D := ⟨n, .trailing⟩ :: S) hw
          have hw1 : A.words t = some ((l ++ [⟨n, .trailing⟩]) ++ ((S ++ [z]) ++ (k ++ c))) := by simpa using hw
          have hi : incr W.heap ⟨n, .trailing⟩ = some (posOf t ((S ++ [z]) ++ (k ++ c))) := by
            have := (I.rep t _ hw1).incr_split
            rwa [priorOf_concat] at this
          have key := ih (2 * ps.length + k.length) (by simp at hN; omega) ps k (l ++ [⟨n, .trailing⟩]) (S ++ [z]) W A rfl I hw1
            (by simp) (fun x hx => hk x (by simp [hx]))
            (by
              simp only [depthAfter, depthAfter_append, List.length_cons] at hd ⊢
              rw [hd]
              obtain ⟨q, e⟩ := z
              simp only at hz
              subst hz
              rfl)
            hnd hfr
          simp only [if_false, reduceCtorEq, Option.bind_eq_bind, Option.bind_some, List.cons_append, posOf_cons, h2]
          have hi' : incr W.heap ⟨n, .trailing⟩ = some (posOf t (S ++ z :: (k ++ c))) := by simpa using hi
          simp only [hi', Option.bind_some]
          simpa using key

end Verif.Forest
