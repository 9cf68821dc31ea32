import Verif.Forest.Swap

/-! # Copying, transcribing, flattening, comparing -/

namespace Verif.Forest

variable {T : Type}

theorem content_cons_leading {val : Ptr → Option T} {n : Ptr} {w : List Iter} :
    content val (⟨n, .leading⟩ :: w) = val n :: content val w := by simp [content]

theorem content_cons_trailing {val : Ptr → Option T} {y : Iter} (hy : y.edge = .trailing) {w : List Iter} :
    content val (y :: w) = none :: content val w := by simp [content, hy]

theorem content_append {val : Ptr → Option T} {a b : List Iter} :
    content val (a ++ b) = content val a ++ content val b := by simp [content]

theorem content_length {val : Ptr → Option T} {a : List Iter} :
    (content val a).length = a.length := by simp [content]

theorem content_congr {val val' : Ptr → Option T} {w : List Iter}
    (h : ∀ x ∈ w, val' x.node = val x.node) : content val' w = content val w := by
  refine List.map_congr_left ?_
  intro x hx
  rw [h x hx]

/-- The content of a balanced word is properly nested. -/
theorem nested_content {val : Ptr → Option T} {w : List Iter} (hB : Balanced w)
    (hv : ∀ x ∈ w, ∃ v, val x.node = some v) (n : Nat) (s : List (Option T)) :
    Nested n (content val w ++ s) ↔ Nested n s := by
  induction hB generalizing n s with
  | nil => simp [content]
  | @cons m b c hb hc ihb ihc =>
    obtain ⟨v, hm⟩ := hv ⟨m, .leading⟩ (by simp)
    simp only at hm
    have e : content val (⟨m, .leading⟩ :: (b ++ ⟨m, .trailing⟩ :: c)) ++ s =
        some v :: (content val b ++ (none :: (content val c ++ s))) := by
      rw [content_cons_leading, content_append, content_cons_trailing rfl, hm]; simp
    rw [e, Nested, ihb (fun x hx => hv x (by simp [hx])), Nested, ihc (fun x hx => hv x (by simp [hx]))]

theorem nested_map {α β : Type} (f : α → β) : ∀ (s : List (Option α)) (n : Nat),
    Nested n (s.map (Option.map f)) ↔ Nested n s
  | [], n => by simp [Nested]
  | some _ :: s, n => by simp only [List.map_cons, Option.map_some, Nested]; exact nested_map f s _
  | none :: s, 0 => by simp [Nested]
  | none :: s, n + 1 => by simp only [List.map_cons, Option.map_none, Nested]; exact nested_map f s _

theorem Inv.val_some {W : World T} {A : AState T} (I : Inv W A) {t : Ptr} {w : List Iter}
    (hw : A.words t = some w) {x : Iter} (hx : x ∈ w) :
    ∃ v, A.val x.node = some v ∧ W.heap.deref x = some v := by
  obtain ⟨n, v, h1, h2⟩ := (I.rep t w hw).live x hx
  refine ⟨v, ?_, by simp [Heap.deref, h1, h2]⟩
  rw [← I.val]; simp [valueAt, h1, h2]

/-- One step of building: a new node is opened. -/
theorem build_open {W : World T} {A : AState T} (I : Inv W A) {t p : Ptr} {a D k c : List Iter}
    (hw : A.words t = some (a ++ (D ++ (k ++ c)))) (hp : W.heap p = none) (v : T) :
    ∃ W1, insert W t (posOf t (k ++ c)) v p = some (W1, ⟨p, .leading⟩) ∧
      incr W1.heap ⟨p, .leading⟩ = some (posOf t ((⟨p, .trailing⟩ :: k) ++ c)) ∧
      Inv W1 ((A.setWord t (a ++ ((D ++ [⟨p, .leading⟩]) ++ ((⟨p, .trailing⟩ :: k) ++ c)))).setVal p
        (some v)) ∧
      ∀ q, q ≠ p → W.heap q = none → W1.heap q = none := by
  have hw' : A.words t = some ((a ++ D) ++ (k ++ c)) := by simpa using hw
  obtain ⟨W1, h1, I1⟩ := insert_refines I hw' hp v
  have e : (a ++ D) ++ (([⟨p, .leading⟩, ⟨p, .trailing⟩] : List Iter) ++ (k ++ c)) =
      a ++ ((D ++ [⟨p, .leading⟩]) ++ ((⟨p, .trailing⟩ :: k) ++ c)) := by simp
  rw [e] at I1
  have R := I1.rep t (a ++ ((D ++ [⟨p, .leading⟩]) ++ ((⟨p, .trailing⟩ :: k) ++ c)))
    (by simp [AState.setVal, AState.setWord])
  refine ⟨W1, h1, ?_, I1, ?_⟩
  · have R' : Rep W1.heap t ((a ++ D ++ [⟨p, .leading⟩]) ++ ((⟨p, .trailing⟩ :: k) ++ c)) := by
      simpa using R
    have := R'.incr_split
    rwa [priorOf_concat] at this
  · intro q hqp hq
    refine I.none_of I1 hq ?_
    intro s u hu hm
    by_cases hs : s = t
    · subst hs
      refine ⟨s, _, hw, ?_⟩
      simp only [AState.setVal, AState.setWord, if_true, Option.some.injEq] at hu
      subst hu
      simp only [support, List.map_append, List.map_cons, List.map_nil, List.mem_cons, List.mem_append,
        List.not_mem_nil, or_false, hqp, false_or] at hm ⊢
      tauto
    · refine ⟨s, u, ?_, hm⟩
      simpa [AState.setVal, AState.setWord, hs] using hu

/-- One step of building: the innermost open node is closed. -/
theorem build_close {W : World T} {A : AState T} (I : Inv W A) {t : Ptr} {y : Iter} {a D k c : List Iter}
    (hw : A.words t = some (a ++ (D ++ ((y :: k) ++ c)))) :
    incr W.heap y = some (posOf t (k ++ c)) := by
  have R := I.rep t _ hw
  have R' : Rep W.heap t ((a ++ D ++ [y]) ++ (k ++ c)) := by simpa using R
  have := R'.incr_split
  rwa [priorOf_concat] at this

/-- The number of nodes a sequence of optionals describes. -/
def opens {α : Type} (s : List (Option α)) : Nat := (s.filter Option.isSome).length

theorem unflattenLoop_refines (t : Ptr) (a c : List Iter) :
    ∀ (s : List (Option T)) (ps : List Ptr) (D k : List Iter) (W : World T) (A : AState T), Inv W A →
      A.words t = some (a ++ (D ++ (k ++ c))) → (∀ x ∈ k, x.edge = .trailing) →
      Nested k.length s → ps.Nodup → (∀ p ∈ ps, W.heap p = none) → opens s ≤ ps.length →
      ∃ W' A' E, unflattenLoop W t (posOf t (k ++ c)) ps s = some (W', posOf t c) ∧ Inv W' A' ∧
        A'.words = (A.setWord t (a ++ (D ++ (E ++ c)))).words ∧ content A'.val E = s ∧
        (∀ q, q ∉ ps → A'.val q = A.val q) := by
  intro s
  induction s with
  | nil =>
    intro ps D k W A I hw hk hN _ _ _
    have : k = [] := by simpa [Nested] using hN
    subst this
    refine ⟨W, A, [], by simp [unflattenLoop], I, ?_, rfl, fun _ _ => rfl⟩
    have := AState.setWord_self hw
    simp only [List.nil_append] at this ⊢
    rw [this]
  | cons o s ih =>
    intro ps D k W A I hw hk hN hnd hfr hlen
    cases o with
    | some v =>
      cases ps with
      | nil => simp [opens] at hlen
      | cons p ps =>
        obtain ⟨W1, h1, h2, I1, hpres⟩ := build_open I hw (hfr p (by simp)) v
        have hnd' := List.nodup_cons.mp hnd
        obtain ⟨W', A', E, g1, g2, g3, g4, g5⟩ := ih ps (D ++ [⟨p, .leading⟩]) (⟨p, .trailing⟩ :: k) W1 _ I1
          (by simp [AState.setVal, AState.setWord])
          (by
            intro x hx
            rcases List.mem_cons.mp hx with rfl | hx
            · rfl
            · exact hk x hx)
          (by simpa [Nested] using hN) hnd'.2
          (fun q hq => hpres q (fun e => hnd'.1 (e ▸ hq)) (hfr q (by simp [hq])))
          (by simp only [opens, Option.isSome_some, List.filter_cons_of_pos, List.length_cons] at hlen ⊢; omega)
        refine ⟨W', A', ⟨p, .leading⟩ :: E, ?_, g2, ?_, ?_, ?_⟩
        · simp only [unflattenLoop, transcribeAssign, h1, Option.bind_eq_bind, Option.bind_some, h2]
          exact g1
        · rw [g3]
          simp only [AState.setWord, AState.setVal]
          funext q; split <;> simp
        · rw [content_cons_leading, g4, g5 p hnd'.1]; simp [AState.setVal]
        · intro q hq
          simp only [List.mem_cons, not_or] at hq
          rw [g5 q hq.2]; simp [AState.setVal, AState.setWord, hq.1]
    | none =>
      cases k with
      | nil => simp [Nested] at hN
      | cons y k =>
        have hy : y.edge = .trailing := hk y (by simp)
        have h2 := build_close I hw
        obtain ⟨W', A', E, g1, g2, g3, g4, g5⟩ := ih ps (D ++ [y]) k W A I (by simpa using hw)
          (fun x hx => hk x (by simp [hx])) (by simpa [Nested] using hN) hnd hfr
          (by simpa [opens] using hlen)
        refine ⟨W', A', y :: E, ?_, g2, ?_, ?_, g5⟩
        · have : y.trailingOf = y := by cases y; simp at hy; subst hy; rfl
          rw [List.cons_append, posOf_cons]
          simp only [unflattenLoop, this, h2, Option.bind_eq_bind, Option.bind_some]
          exact g1
        · rw [g3]
          simp only [AState.setWord]
          funext q; split <;> simp
        · rw [content_cons_trailing hy, g4]

/-- Building from a range of another forest does the same as building from its content. -/
theorem transcribeLoop_eq (proj : T → T) (t x : Ptr) (a c r : List Iter) (htx : x ≠ t) :
    ∀ (S l : List Iter) (ps : List Ptr) (D k : List Iter) (W : World T) (A : AState T), Inv W A →
      A.words t = some (a ++ (D ++ (k ++ c))) → A.words x = some (l ++ (S ++ r)) →
      (∀ x ∈ k, x.edge = .trailing) →
      Nested k.length (content A.val S) → ps.Nodup → (∀ p ∈ ps, W.heap p = none) →
      opens (content A.val S) ≤ ps.length →
      transcribeLoop proj W t (posOf x (S ++ r)) (posOf x r) (posOf t (k ++ c)) ps =
        unflattenLoop W t (posOf t (k ++ c)) ps ((content A.val S).map (Option.map proj)) := by
  intro S
  induction S with
  | nil => intro l ps D k W A I _ _ _ _ _ _ _; rw [transcribeLoop]; simp [content, unflattenLoop]
  | cons y S ih =>
    intro l ps D k W A I hw hx hk hN hnd hfr hlen
    have hne := posOf_ne (I.rep x _ hx) (r := y :: S) (by simp)
    rw [List.cons_append, posOf_cons] at hne
    have hx' : A.words x = some ((l ++ [y]) ++ (S ++ r)) := by simpa using hx
    have hincr : ∀ (W1 : World T), Rep W1.heap x (l ++ (y :: S ++ r)) → incr W1.heap y = some (posOf x (S ++ r)) := by
      intro W1 R
      have R' : Rep W1.heap x ((l ++ [y]) ++ (S ++ r)) := by simpa using R
      have := R'.incr_split
      rwa [priorOf_concat] at this
    obtain ⟨v, hv1, hv2⟩ := I.val_some hx (x := y) (by simp)
    obtain ⟨n, e⟩ := y
    cases e with
    | leading =>
      simp only at hv1
      rw [content_cons_leading, hv1] at hN hlen ⊢
      cases ps with
      | nil => simp [opens] at hlen
      | cons p ps =>
        obtain ⟨W1, h1, h2, I1, hpres⟩ := build_open I hw (hfr p (by simp)) (proj v)
        have hnd' := List.nodup_cons.mp hnd
        have hx1 : ((A.setWord t (a ++ ((D ++ [⟨p, .leading⟩]) ++ ((⟨p, .trailing⟩ :: k) ++ c)))).setVal p
            (some (proj v))).words x = some ((l ++ [⟨n, .leading⟩]) ++ (S ++ r)) := by
          simp only [AState.setVal, AState.setWord, htx, if_false]; exact hx'
        have hcg : content ((A.setWord t (a ++ ((D ++ [⟨p, .leading⟩]) ++ ((⟨p, .trailing⟩ :: k) ++ c)))).setVal p
            (some (proj v))).val S = content A.val S := by
          refine content_congr ?_
          intro z hz
          have : z.node ≠ p := by
            rintro rfl
            refine I.none_iff.mp (hfr z.node (by simp)) x _ hx ?_
            simp only [support, List.mem_cons, List.mem_map]
            exact Or.inr ⟨z, by simp [hz], rfl⟩
          simp [AState.setVal, AState.setWord, this]
        have key := ih (l ++ [⟨n, .leading⟩]) ps (D ++ [⟨p, .leading⟩]) (⟨p, .trailing⟩ :: k) W1 _ I1
          (by simp [AState.setVal, AState.setWord]) hx1
          (by
            intro x hx
            rcases List.mem_cons.mp hx with rfl | hx
            · rfl
            · exact hk x hx)
          (by rw [hcg]; simpa [Nested] using hN) hnd'.2
          (fun q hq => hpres q (fun e => hnd'.1 (e ▸ hq)) (hfr q (by simp [hq])))
          (by rw [hcg]; simp only [opens, Option.isSome_some, List.filter_cons_of_pos, List.length_cons] at hlen ⊢; omega)
        rw [hcg] at key
        rw [transcribeLoop, List.cons_append, posOf_cons]
        have hi := hincr W1 (by have := I1.rep x _ hx1; simpa using this)
        simp only [hne, if_false, if_true, hv2, transcribeAssign, h1, Option.bind_eq_bind, Option.bind_some,
          List.map_cons, Option.map_some, unflattenLoop, h2, hi, pure]
        exact key
    | trailing =>
      rw [content_cons_trailing rfl] at hN hlen ⊢
      cases k with
      | nil => simp [Nested] at hN
      | cons z k =>
        have hz : z.edge = .trailing := hk z (by simp)
        have h2 := build_close I hw
        have key := ih (l ++ [⟨n, .trailing⟩]) ps (D ++ [z]) k W A I (by simpa using hw) hx'
          (fun x hx => hk x (by simp [hx])) (by simpa [Nested] using hN) hnd hfr
          (by simpa [opens] using hlen)
        have hi := hincr W (I.rep x _ hx)
        have hzz : z.trailingOf = z := by cases z; simp at hz; subst hz; rfl
        rw [transcribeLoop, List.cons_append, posOf_cons, List.cons_append, posOf_cons]
        simp only [hne, if_false, reduceCtorEq, Option.bind_eq_bind, Option.bind_some,
          List.map_cons, Option.map_none, unflattenLoop, hzz, h2, hi]
        exact key

/-- `insert(pos, first, last)` does the same as building from the content of the range. -/
theorem insertRangeLoop_eq (t x : Ptr) (a c r : List Iter) (htx : x ≠ t) :
    ∀ (S l : List Iter) (ps : List Ptr) (D k : List Iter) (W : World T) (A : AState T), Inv W A →
      A.words t = some (a ++ (D ++ (k ++ c))) → A.words x = some (l ++ (S ++ r)) →
      (∀ x ∈ k, x.edge = .trailing) →
      Nested k.length (content A.val S) → ps.Nodup → (∀ p ∈ ps, W.heap p = none) →
      opens (content A.val S) ≤ ps.length →
      insertRangeLoop W t (posOf t (k ++ c)) (posOf x (S ++ r)) (posOf x r) ps =
        unflattenLoop W t (posOf t (k ++ c)) ps (content A.val S) := by
  intro S
  induction S with
  | nil => intro l ps D k W A I _ _ _ _ _ _ _; rw [insertRangeLoop]; simp [content, unflattenLoop]
  | cons y S ih =>
    intro l ps D k W A I hw hx hk hN hnd hfr hlen
    have hne := posOf_ne (I.rep x _ hx) (r := y :: S) (by simp)
    rw [List.cons_append, posOf_cons] at hne
    have hx' : A.words x = some ((l ++ [y]) ++ (S ++ r)) := by simpa using hx
    have hincr : ∀ (W1 : World T), Rep W1.heap x (l ++ (y :: S ++ r)) → incr W1.heap y = some (posOf x (S ++ r)) := by
      intro W1 R
      have R' : Rep W1.heap x ((l ++ [y]) ++ (S ++ r)) := by simpa using R
      have := R'.incr_split
      rwa [priorOf_concat] at this
    obtain ⟨v, hv1, hv2⟩ := I.val_some hx (x := y) (by simp)
    obtain ⟨n, e⟩ := y
    cases e with
    | leading =>
      simp only at hv1
      rw [content_cons_leading, hv1] at hN hlen ⊢
      cases ps with
      | nil => simp [opens] at hlen
      | cons p ps =>
        obtain ⟨W1, h1, h2, I1, hpres⟩ := build_open I hw (hfr p (by simp)) v
        have hnd' := List.nodup_cons.mp hnd
        have hx1 : ((A.setWord t (a ++ ((D ++ [⟨p, .leading⟩]) ++ ((⟨p, .trailing⟩ :: k) ++ c)))).setVal p
            (some v)).words x = some ((l ++ [⟨n, .leading⟩]) ++ (S ++ r)) := by
          simp only [AState.setVal, AState.setWord, htx, if_false]; exact hx'
        have hcg : content ((A.setWord t (a ++ ((D ++ [⟨p, .leading⟩]) ++ ((⟨p, .trailing⟩ :: k) ++ c)))).setVal p
            (some v)).val S = content A.val S := by
          refine content_congr ?_
          intro z hz
          have : z.node ≠ p := by
            rintro rfl
            refine I.none_iff.mp (hfr z.node (by simp)) x _ hx ?_
            simp only [support, List.mem_cons, List.mem_map]
            exact Or.inr ⟨z, by simp [hz], rfl⟩
          simp [AState.setVal, AState.setWord, this]
        have key := ih (l ++ [⟨n, .leading⟩]) ps (D ++ [⟨p, .leading⟩]) (⟨p, .trailing⟩ :: k) W1 _ I1
          (by simp [AState.setVal, AState.setWord]) hx1
          (by
            intro x hx
            rcases List.mem_cons.mp hx with rfl | hx
            · rfl
            · exact hk x hx)
          (by rw [hcg]; simpa [Nested] using hN) hnd'.2
          (fun q hq => hpres q (fun e => hnd'.1 (e ▸ hq)) (hfr q (by simp [hq])))
          (by rw [hcg]; simp only [opens, Option.isSome_some, List.filter_cons_of_pos, List.length_cons] at hlen ⊢; omega)
        rw [hcg] at key
        rw [insertRangeLoop, List.cons_append, posOf_cons]
        have hi := hincr W1 (by have := I1.rep x _ hx1; simpa using this)
        simp only [hne, if_false, if_true, hv2, transcribeAssign, h1, Option.bind_eq_bind, Option.bind_some,
          unflattenLoop, h2, hi, pure]
        exact key
    | trailing =>
      rw [content_cons_trailing rfl] at hN hlen ⊢
      cases k with
      | nil => simp [Nested] at hN
      | cons z k =>
        have hz : z.edge = .trailing := hk z (by simp)
        have h2 := build_close I hw
        have key := ih (l ++ [⟨n, .trailing⟩]) ps (D ++ [z]) k W A I (by simpa using hw) hx'
          (fun x hx => hk x (by simp [hx])) (by simpa [Nested] using hN) hnd hfr
          (by simpa [opens] using hlen)
        have hi := hincr W (I.rep x _ hx)
        have hzz : z.trailingOf = z := by cases z; simp at hz; subst hz; rfl
        rw [insertRangeLoop, List.cons_append, posOf_cons, List.cons_append, posOf_cons]
        simp only [hne, if_false, reduceCtorEq, Option.bind_eq_bind, Option.bind_some,
          unflattenLoop, hzz, h2, hi]
        exact key

theorem opens_content {val : Ptr → Option T} {w : List Iter} (hv : ∀ x ∈ w, ∃ v, val x.node = some v) :
    opens (content val w) = (nodes w).length := by
  induction w with
  | nil => rfl
  | cons y w ih =>
    obtain ⟨n, e⟩ := y
    have := ih (fun x hx => hv x (by simp [hx]))
    cases e with
    | leading =>
      obtain ⟨v, hn⟩ := hv ⟨n, .leading⟩ (by simp)
      simp only at hn
      rw [content_cons_leading, nodes_cons_leading, hn]
      simp only [opens, Option.isSome_some, List.filter_cons_of_pos, List.length_cons] at this ⊢
      omega
    | trailing =>
      rw [content_cons_trailing rfl, nodes_cons_trailing]
      simpa [opens] using this

/-- `flatten` of a range of positions yields its content. -/
theorem flatten_eq {W : World T} {A : AState T} (I : Inv W A) {t : Ptr} {c : List Iter} :
    ∀ {r a : List Iter}, A.words t = some (a ++ (r ++ c)) →
      flatten W.heap (posOf t (r ++ c)) (posOf t c) = some (content A.val r) := by
  intro r
  induction r with
  | nil => intro a _; rw [flatten]; simp [content]
  | cons y r ih =>
    intro a hw
    have R := I.rep t _ hw
    have hne := posOf_ne R (r := y :: r) (by simp)
    rw [List.cons_append, posOf_cons] at hne ⊢
    have R' : Rep W.heap t ((a ++ [y]) ++ (r ++ c)) := by simpa using R
    have hi := R'.incr_split
    rw [priorOf_concat] at hi
    have key := ih (a := a ++ [y]) (by simpa using hw)
    obtain ⟨v, hv1, hv2⟩ := I.val_some hw (x := y) (by simp)
    obtain ⟨n, e⟩ := y
    rw [flatten]
    cases e with
    | leading =>
      simp only at hv1
      simp [hne, hv2, hi, key, content_cons_leading, hv1]
    | trailing => simp [hne, hi, key, content_cons_trailing]

/-- The loop of `operator==` on words of equal length. -/
theorem eqLoop_eq [DecidableEq T] {W : World T} {A : AState T} (I : Inv W A) {x y : Ptr} :
    ∀ {b1 a1 a2 b2 : List Iter}, A.words x = some (a1 ++ b1) → A.words y = some (a2 ++ b2) →
      b1.length = b2.length →
      eqLoop W.heap (posOf x b1) (end_ x) (posOf y b2) =
        some (decide (content A.val b1 = content A.val b2)) := by
  intro b1
  induction b1 with
  | nil =>
    intro a1 a2 b2 _ _ hl
    have : b2 = [] := by simpa using hl.symm
    subst this
    rw [posOf_nil, eqLoop]; simp [content]
  | cons z1 b1 ih =>
    intro a1 a2 b2 hx hy hl
    cases b2 with
    | nil => simp at hl
    | cons z2 b2 =>
      have Rx := I.rep x _ hx
      have Ry := I.rep y _ hy
      have hne : z1 ≠ end_ x := Rx.ne_end (by simp)
      have Rx' : Rep W.heap x ((a1 ++ [z1]) ++ b1) := by simpa using Rx
      have Ry' : Rep W.heap y ((a2 ++ [z2]) ++ b2) := by simpa using Ry
      have hi1 := Rx'.incr_split
      have hi2 := Ry'.incr_split
      rw [priorOf_concat] at hi1 hi2
      have key := ih (a1 := a1 ++ [z1]) (a2 := a2 ++ [z2]) (b2 := b2) (by simpa using hx) (by simpa using hy)
        (by simpa using hl)
      obtain ⟨v1, hv1, hd1⟩ := I.val_some hx (x := z1) (by simp)
      obtain ⟨v2, hv2, hd2⟩ := I.val_some hy (x := z2) (by simp)
      rw [posOf_cons, posOf_cons, eqLoop]
      obtain ⟨n1, e1⟩ := z1
      obtain ⟨n2, e2⟩ := z2
      simp only at hv1 hv2
      cases e1 <;> cases e2
      · simp only [hne, if_false, ne_eq, not_true_eq_false, reduceCtorEq, Option.bind_eq_bind,
          Option.bind_some, Bool.false_eq_true, hi1, hi2]
        rw [key, content_cons_trailing rfl, content_cons_trailing rfl]
        simp
      · simp only [hne, if_false, ne_eq, reduceCtorEq, not_false_eq_true, if_true]
        rw [content_cons_trailing rfl, content_cons_leading, hv2]
        simp
      · simp only [hne, if_false, ne_eq, reduceCtorEq, not_false_eq_true, if_true]
        rw [content_cons_leading, content_cons_trailing rfl, hv1]
        simp
      · simp only [hne, if_false, ne_eq, not_true_eq_false, if_true, Option.bind_eq_bind,
          Option.bind_some, hd1, hd2, pure, content_cons_leading, hv1, hv2]
        by_cases hvv : v1 = v2
        · simp [hvv, hi1, hi2, key]
        · simp [hvv]

theorem Balanced.length_nodes {w : List Iter} (h : Balanced w) : w.length = 2 * (nodes w).length := by
  induction h with
  | nil => rfl
  | cons n hb hc ihb ihc =>
    simp only [List.length_cons, List.length_append, nodes_cons_leading, nodes_append,
      nodes_cons_trailing, ihb, ihc]
    omega

/-- `operator==` decides equality of shape and values; forests are unchanged. -/
theorem equal_refines [DecidableEq T] {W : World T} {A : AState T} (I : Inv W A) {x y : Ptr}
    {v w : List Iter} (hx : A.words x = some v) (hy : A.words y = some w) :
    ∃ W', equal W x y = some (W', decide (content A.val v = content A.val w)) ∧ Inv W' A := by
  obtain ⟨W1, h1, I1, -⟩ := size_refines I hx
  obtain ⟨W2, h2, I2, -⟩ := size_refines I1 hy
  refine ⟨W2, ?_, I2⟩
  have Bx := (I.rep x v hx).balanced
  have By := (I.rep y w hy).balanced
  by_cases hl : (nodes v).length = (nodes w).length
  · have hlen : v.length = w.length := by rw [Bx.length_nodes, By.length_nodes, hl]
    have key := eqLoop_eq I2 (a1 := []) (a2 := []) (b1 := v) (b2 := w) (by simpa using hx)
      (by simpa using hy) hlen
    simp [equal, h1, h2, hl, (I2.rep x v hx).begin_posOf, (I2.rep y w hy).begin_posOf, key]
  · have : content A.val v ≠ content A.val w := by
      intro he
      have := congrArg List.length he
      rw [content_length, content_length, Bx.length_nodes, By.length_nodes] at this
      omega
    simp [equal, h1, h2, hl, this]

/-- The shape of a word: the sequence of edge kinds. -/
def shape (w : List Iter) : List Edge := w.map (·.edge)

/-- The loop of `equal_shape` compares up to the end of the first word. -/
theorem shapeLoop_eq {h : Heap T} {x y : Ptr} :
    ∀ {b1 a1 a2 b2 : List Iter}, Rep h x (a1 ++ b1) → Rep h y (a2 ++ b2) →
      (shape a1 = shape a2) →
      shapeLoop h (posOf x b1) (end_ x) (posOf y b2) = some (decide (shape b1 <+: shape b2)) := by
  intro b1
  induction b1 with
  | nil => intro a1 a2 b2 _ _ _; rw [posOf_nil, shapeLoop]; simp [shape]
  | cons z1 b1 ih =>
    intro a1 a2 b2 Rx Ry ha
    have hne : z1 ≠ end_ x := Rx.ne_end (by simp)
    have Rx' : Rep h x ((a1 ++ [z1]) ++ b1) := by simpa using Rx
    have hi1 := Rx'.incr_split
    rw [priorOf_concat] at hi1
    rw [posOf_cons, shapeLoop]
    cases b2 with
    | nil =>
      -- the second word is exhausted; the first cannot continue with a trailing edge
      have hz : z1.edge = .leading := by
        by_contra hc
        have hc' : z1.edge = .trailing := by cases h' : z1.edge <;> simp_all
        have hcount : ∀ {w : List Iter}, Balanced w → ∀ b s, shape w ++ b = shape s →
            (shape s).length = w.length + b.length := by
          intro w _ b s h; rw [← h]; simp [shape]
        have hB2 : Balanced a2 := by simpa using Ry.balanced
        have hB1 := Rx.balanced
        -- count edges
        have cnt2 : (shape a2).count .leading = (shape a2).count .trailing := by
          clear * - hB2
          induction hB2 with
          | nil => rfl
          | cons n _ _ ihb ihc =>
            simp only [shape, List.map_cons, List.map_append, List.count_cons, List.count_append] at *
            simp; omega
        have hpre : ∀ (s : List Ptr) (a : List Iter) (s' : List Ptr), run s a = some s' →
            s'.length + (shape a).count .trailing = s.length + (shape a).count .leading := by
          intro s a
          induction a generalizing s with
          | nil => intro s' h; simp [run] at h; subst h; simp [shape]
          | cons q a ihq =>
            intro s' h
            obtain ⟨n, e⟩ := q
            cases e with
            | leading =>
              simp only [run] at h
              have := ihq _ _ h
              simp only [shape, List.map_cons, List.count_cons, List.length_cons] at this ⊢
              simp; omega
            | trailing =>
              cases s with
              | nil => simp [run] at h
              | cons m s =>
                simp only [run] at h
                split at h
                · have := ihq _ _ h
                  simp only [shape, List.map_cons, List.count_cons, List.length_cons] at this ⊢
                  simp; omega
                · simp at h
        rw [balanced_iff_run, run_append] at hB1
        cases hr : run [] a1 with
        | none => simp [hr] at hB1
        | some s =>
          have h3 := hpre [] a1 s hr
          rw [ha] at h3
          have : s = [] := by
            have : s.length = 0 := by simp at h3; omega
            simpa using this
          subst this
          rw [hr] at hB1
          obtain ⟨n, e⟩ := z1
          simp only at hc'
          subst hc'
          simp [run] at hB1
      rw [posOf_nil]
      rw [if_neg hne]
      simp [hz, end_, shape]
    | cons z2 b2 =>
      have Ry' : Rep h y ((a2 ++ [z2]) ++ b2) := by simpa using Ry
      have hi2 := Ry'.incr_split
      rw [priorOf_concat] at hi2
      rw [posOf_cons]
      by_cases he : z1.edge = z2.edge
      · have key := ih Rx' Ry' (by simp only [shape, List.map_append] at ha ⊢; rw [ha]; simp [he])
        simp only [hne, if_false, he, ne_eq, not_true_eq_false, hi1, hi2, Option.bind_eq_bind,
          Option.bind_some, key]
        simp only [Option.some.injEq, decide_eq_decide]
        simp [shape, he]
      · simp [hne, he, shape]

end Verif.Forest
