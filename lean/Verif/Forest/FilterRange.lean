import Verif.Forest.Props3

/-!
# Filter iterators over part of a forest, and `base()` of reverse iterators (C17, C18)

A `filter_fullorder_iterator(f, l, p)` over `[f, l)` filters between `f` and `l` only: moved on past `l`, or
coming from before `f`, it shows everything.
-/

namespace Verif.Forest

variable {T : Type} {h : Heap T} {t : Ptr}

/-- `x` is one of the two edges, or inside, of a node that fails and begins in the range `r`. -/
def Hidden (ok : Ptr → Prop) (w r : List Iter) (x : Iter) : Prop :=
  ∃ n u s v, w = u ++ (⟨n, .leading⟩ :: (s ++ ⟨n, .trailing⟩ :: v)) ∧ (⟨n, .leading⟩ : Iter) ∈ r ∧ ¬ ok n ∧
    x ∈ (⟨n, .leading⟩ :: (s ++ [⟨n, .trailing⟩]) : List Iter)

/-- What the range `r` of `w` shows. -/
noncomputable def shownIn (ok : Ptr → Prop) (w r : List Iter) : List Iter := by
  classical exact r.filter fun x => ¬ Hidden ok w r x

/-- No node that fails begins in `r` and ends after it. -/
def Inside (ok : Ptr → Prop) (r : List Iter) : Prop :=
  ∀ n, ¬ ok n → (⟨n, .leading⟩ : Iter) ∈ r → (⟨n, .trailing⟩ : Iter) ∈ r

/-- No node that fails begins before `r` and ends in it. -/
def InsideBack (ok : Ptr → Prop) (r : List Iter) : Prop :=
  ∀ n, ¬ ok n → (⟨n, .trailing⟩ : Iter) ∈ r → (⟨n, .leading⟩ : Iter) ∈ r

theorem Balanced.inside {ok : Ptr → Prop} {r : List Iter} (hb : Balanced r) : Inside ok r ∧ InsideBack ok r :=
  ⟨fun n _ hn => hb.mem_edge hn .trailing, fun n _ hn => hb.mem_edge hn .leading⟩

/-- The relation `FS` between a range and what it shows, from the definition of what is hidden. -/
theorem FS.of_range {ok : Ptr → Prop} {w : List Iter} (hB : Balanced w) (hN : w.Nodup) :
    ∀ {r a c : List Iter}, w = a ++ (r ++ c) → Inside ok r → FS ok r (shownIn ok w r) := by
  classical
  intro r
  induction hn : r.length using Nat.strong_induction_on generalizing r with
  | _ k ih =>
  intro a c hw hI
  cases r with
  | nil => simpa [shownIn] using FS.nil
  | cons x r =>
    have hx : x ∉ r := by
      rw [hw, List.nodup_append] at hN
      exact (List.nodup_cons.1 (List.nodup_append.1 hN.2.1).1).1
    have hxc : x ∉ c := by
      rw [hw] at hN
      intro hc
      exact disjoint_of_nodup (List.nodup_append.1 hN).2.1 (z := x) (by simp) hc
    obtain ⟨n, e⟩ := x
    cases e with
    | trailing =>
      have e1 : shownIn ok w (⟨n, .trailing⟩ :: r) = ⟨n, .trailing⟩ :: shownIn ok w r := by
        have hh : ∀ y, Hidden ok w (⟨n, .trailing⟩ :: r) y ↔ Hidden ok w r y := by
          intro y
          simp [Hidden]
        have hno : ¬ Hidden ok w r ⟨n, .trailing⟩ := by
          rintro ⟨m, u, s, v, h1, h2, -, h4⟩
          obtain ⟨r1, r2, rfl⟩ := List.append_of_mem h2
          have e2 : w = (a ++ ⟨n, .trailing⟩ :: r1) ++ ⟨m, .leading⟩ :: (r2 ++ c) := by rw [hw]; simp
          rw [e2] at h1 hN
          obtain ⟨h5, h6⟩ := append_cons_inj hN h1
          simp only [List.mem_cons, List.mem_append, Iter.mk.injEq, reduceCtorEq, and_false, false_or, and_true,
            List.not_mem_nil, or_false] at h4
          refine disjoint_of_nodup hN (z := ⟨n, .trailing⟩) (by simp) ?_
          rw [List.mem_cons, h6]
          rcases h4 with h4 | rfl
          · exact Or.inr (by simp [h4])
          · exact Or.inr (by simp)
        simp only [shownIn, hh, List.filter_cons, hno, not_false_eq_true, decide_true, if_true]
      rw [e1]
      refine .trail n (ih r.length (by simp [← hn]) rfl (a := a ++ [⟨n, .trailing⟩]) (c := c) (by simp [hw]) ?_)
      intro m hm h1
      have := hI m hm (by simp [h1])
      simp only [List.mem_cons, Iter.mk.injEq, and_true] at this
      rcases this with rfl | h2
      · exfalso
        obtain ⟨u, s, v, h3, -⟩ := hB.split (n := m) (e := .leading) (by rw [hw]; simp [h1])
        obtain ⟨r1, r2, rfl⟩ := List.append_of_mem h1
        have e2 : w = (a ++ ⟨m, .trailing⟩ :: r1) ++ ⟨m, .leading⟩ :: (r2 ++ c) := by rw [hw]; simp
        rw [e2] at h3 hN
        obtain ⟨h5, h6⟩ := append_cons_inj hN h3
        exact disjoint_of_nodup hN (z := ⟨m, .trailing⟩) (by simp) (by rw [List.mem_cons, h6]; simp)
      · exact h2
    | leading =>
      by_cases hok : ok n
      · have hh : ∀ y, Hidden ok w (⟨n, .leading⟩ :: r) y ↔ Hidden ok w r y := by
          intro y
          constructor
          · rintro ⟨m, u, s, v, h1, h2, h3, h4⟩
            simp only [List.mem_cons, Iter.mk.injEq, and_true] at h2
            rcases h2 with rfl | h2
            · exact absurd hok h3
            · exact ⟨m, u, s, v, h1, h2, h3, h4⟩
          · rintro ⟨m, u, s, v, h1, h2, h3, h4⟩
            exact ⟨m, u, s, v, h1, by simp [h2], h3, h4⟩
        have hno : ¬ Hidden ok w r ⟨n, .leading⟩ := by
          rintro ⟨m, u, s, v, h1, h2, -, h4⟩
          obtain ⟨r1, r2, rfl⟩ := List.append_of_mem h2
          have e2 : w = (a ++ ⟨n, .leading⟩ :: r1) ++ ⟨m, .leading⟩ :: (r2 ++ c) := by rw [hw]; simp
          rw [e2] at h1 hN
          obtain ⟨h5, h6⟩ := append_cons_inj hN h1
          refine disjoint_of_nodup hN (z := ⟨n, .leading⟩) (by simp) ?_
          rw [List.mem_cons, h6]
          simp only [List.mem_cons, List.mem_append] at h4 ⊢
          rcases h4 with h4 | h4 | h4 | h4
          · exact Or.inl h4
          · exact Or.inr (Or.inl h4)
          · exact Or.inr (Or.inr (Or.inl h4))
          · simp at h4
        have e1 : shownIn ok w (⟨n, .leading⟩ :: r) = ⟨n, .leading⟩ :: shownIn ok w r := by
          simp only [shownIn, hh, List.filter_cons, hno, not_false_eq_true, decide_true, if_true]
        rw [e1]
        refine .keep n hok (ih r.length (by simp [← hn]) rfl (a := a ++ [⟨n, .leading⟩]) (c := c) (by simp [hw]) ?_)
        intro m hm h1
        have := hI m hm (by simp [h1])
        simpa using this
      · have h0 := hI n hok (by simp)
        simp only [List.mem_cons, Iter.mk.injEq, reduceCtorEq, and_false, false_or] at h0
        obtain ⟨s, r2, rfl⟩ := List.append_of_mem h0
        have hw' : w = a ++ (⟨n, .leading⟩ :: (s ++ ⟨n, .trailing⟩ :: (r2 ++ c))) := by rw [hw]; simp
        have hs : Balanced s := hB.bracket hN hw'
        have hT := Balanced.tree n hs
        -- what is hidden in `r2`
        have hdis : ∀ y ∈ r2, y ∉ (⟨n, .leading⟩ :: (s ++ [⟨n, .trailing⟩]) : List Iter) := by
          intro y hy hy'
          have e2 : w = (a ++ ⟨n, .leading⟩ :: (s ++ [⟨n, .trailing⟩])) ++ (r2 ++ c) := by rw [hw]; simp
          rw [e2] at hN
          exact disjoint_of_nodup hN (z := y) (List.mem_append_right _ hy') (by simp [hy])
        have hin : ∀ m u' s' v', w = u' ++ (⟨m, .leading⟩ :: (s' ++ ⟨m, .trailing⟩ :: v')) →
            (⟨m, .leading⟩ : Iter) ∈ (⟨n, .leading⟩ :: (s ++ [⟨n, .trailing⟩]) : List Iter) →
            ∀ y ∈ (⟨m, .leading⟩ :: (s' ++ [⟨m, .trailing⟩]) : List Iter),
              y ∈ (⟨n, .leading⟩ :: (s ++ [⟨n, .trailing⟩]) : List Iter) := by
          intro m u' s' v' h1 h2 y hy
          obtain ⟨c1, s2, c2, h3, -⟩ := hT.split h2
          have e2 : w = (a ++ c1) ++ (⟨m, .leading⟩ :: (s2 ++ ⟨m, .trailing⟩ :: (c2 ++ (r2 ++ c)))) := by
            have e3 : w = a ++ ((⟨n, .leading⟩ :: (s ++ [⟨n, .trailing⟩])) ++ (r2 ++ c)) := by rw [hw]; simp
            rw [e3, h3]; simp
          rw [e2] at h1 hN
          obtain ⟨-, h5⟩ := append_cons_inj hN h1
          obtain ⟨h6, -⟩ := append_cons_inj (List.nodup_append.mp hN).2.1.tail h5
          rw [h3, h6]
          simp only [List.mem_cons, List.mem_append, List.not_mem_nil, or_false] at hy ⊢
          tauto
        have hh : ∀ y ∈ r2, (Hidden ok w (⟨n, .leading⟩ :: (s ++ ⟨n, .trailing⟩ :: r2)) y ↔ Hidden ok w r2 y) := by
          intro y hy
          constructor
          · rintro ⟨m, u', s', v', h1, h2, h3, h4⟩
            have h2' : (⟨m, .leading⟩ : Iter) ∈ (⟨n, .leading⟩ :: (s ++ [⟨n, .trailing⟩]) : List Iter) ∨
                (⟨m, .leading⟩ : Iter) ∈ r2 := by
              simp only [List.mem_cons, List.mem_append] at h2 ⊢
              tauto
            rcases h2' with h2' | h2'
            · exact absurd (hin m u' s' v' h1 h2' y h4) (hdis y hy)
            · exact ⟨m, u', s', v', h1, h2', h3, h4⟩
          · rintro ⟨m, u', s', v', h1, h2, h3, h4⟩
            exact ⟨m, u', s', v', h1, by simp [h2], h3, h4⟩
        have hhid : ∀ y ∈ (⟨n, .leading⟩ :: (s ++ [⟨n, .trailing⟩]) : List Iter),
            Hidden ok w (⟨n, .leading⟩ :: (s ++ ⟨n, .trailing⟩ :: r2)) y :=
          fun y hy => ⟨n, a, s, r2 ++ c, hw', by simp, hok, hy⟩
        have e1 : shownIn ok w (⟨n, .leading⟩ :: (s ++ ⟨n, .trailing⟩ :: r2)) = shownIn ok w r2 := by
          have e3 : (⟨n, .leading⟩ :: (s ++ ⟨n, .trailing⟩ :: r2) : List Iter) =
            (⟨n, .leading⟩ :: (s ++ [⟨n, .trailing⟩])) ++ r2 := by simp
          unfold shownIn
          conv_lhs => rw [e3]
          rw [List.filter_append, List.filter_eq_nil_iff.2, List.nil_append]
          · refine List.filter_congr fun y hy => ?_
            rw [← e3]
            simp [hh y hy]
          · intro y hy
            rw [← e3]
            simp [hhid y hy]
        rw [e1]
        refine .drop n hok hs (ih r2.length ?_ rfl
          (a := a ++ ⟨n, .leading⟩ :: (s ++ [⟨n, .trailing⟩])) (c := c) (by simp [hw]) ?_)
        · simp [← hn]; omega
        · intro m hm h1
          have h2 := hI m hm (by simp [h1])
          have h2' : (⟨m, .trailing⟩ : Iter) ∈ (⟨n, .leading⟩ :: (s ++ [⟨n, .trailing⟩]) : List Iter) ∨
              (⟨m, .trailing⟩ : Iter) ∈ r2 := by
            simp only [List.mem_cons, List.mem_append] at h2 ⊢
            tauto
          rcases h2' with h2' | h2'
          · exact absurd (hT.mem_edge h2' .leading) (hdis _ h1)
          · exact h2'

/-- The order of the two edges of a node. -/
def Ordered (r : List Iter) : Prop := ∀ r1 r2 n, r = r1 ++ ⟨n, .trailing⟩ :: r2 → (⟨n, .leading⟩ : Iter) ∉ r2

theorem Balanced.ordered {w a r c : List Iter} (hB : Balanced w) (hN : w.Nodup) (hw : w = a ++ (r ++ c)) : Ordered r := by
  rintro r1 r2 n rfl hn
  obtain ⟨u, s, v, h1, -⟩ := hB.split (n := n) (e := .leading) (by rw [hw]; simp [hn])
  obtain ⟨r3, r4, rfl⟩ := List.append_of_mem hn
  have e : w = (a ++ (r1 ++ ⟨n, .trailing⟩ :: r3)) ++ ⟨n, .leading⟩ :: (r4 ++ c) := by rw [hw]; simp
  rw [e] at h1 hN
  obtain ⟨-, h2⟩ := append_cons_inj hN h1
  exact disjoint_of_nodup hN (z := ⟨n, .trailing⟩) (by simp) (by rw [List.mem_cons, h2]; simp)

theorem FS.ps {ok : Ptr → Prop} {r r' : List Iter} (hf : FS ok r r') : r.Nodup → Ordered r → InsideBack ok r →
    ∀ {q q' : List Iter}, PS ok q q' → PS ok (q ++ r) (q' ++ r') := by
  induction hf with
  | nil => intro _ _ _ q q' h; simpa using h
  | @trail n r r' hf ih =>
    intro hN hO hI q q' h
    have hok : ok n := by
      by_contra hk
      have := hI n hk (by simp)
      simp only [List.mem_cons, Iter.mk.injEq, reduceCtorEq, and_false, false_or] at this
      exact hO [] r n rfl this
    have := ih (List.nodup_cons.1 hN).2 (fun r1 r2 m e => hO (⟨n, .trailing⟩ :: r1) r2 m (by simp [e]))
      (fun m hm h1 => by simpa using hI m hm (by simp [h1])) (PS.keep n hok h)
    simpa using this
  | @keep n r r' hok hf ih =>
    intro hN hO hI q q' h
    have := ih (List.nodup_cons.1 hN).2 (fun r1 r2 m e => hO (⟨n, .leading⟩ :: r1) r2 m (by simp [e]))
      (fun m hm h1 => by
        have := hI m hm (by simp [h1])
        simp only [List.mem_cons, Iter.mk.injEq, and_true] at this
        rcases this with rfl | h2
        · exact absurd hok hm
        · exact h2) (PS.lead n h)
    simpa using this
  | @drop n b r r' hok hb hf ih =>
    intro hN hO hI q q' h
    have e : (⟨n, .leading⟩ :: (b ++ ⟨n, .trailing⟩ :: r) : List Iter) = (⟨n, .leading⟩ :: (b ++ [⟨n, .trailing⟩])) ++ r := by
      simp
    have := ih (by rw [e] at hN; exact hN.of_append_right)
      (fun r1 r2 m e' => hO (⟨n, .leading⟩ :: (b ++ ⟨n, .trailing⟩ :: r1)) r2 m (by simp [e']))
      (fun m hm h1 => by
        have h2 := hI m hm (by simp [h1])
        rw [e, List.mem_append] at h2
        rcases h2 with h2 | h2
        · have h3 := (Balanced.tree n hb).mem_edge h2 .trailing
          rw [e] at hN
          exact (disjoint_of_nodup hN h3 h1).elim
        · exact h2) (PS.drop n hok hb h)
    simpa using this

theorem Rep.posOf_ne_of_mem {w u v : List Iter} (R : Rep h t w) (hw : w = u ++ v) {x : Iter} (hx : x ∈ u) : posOf t v ≠ x := by
  have hN := R.nodup_end
  rw [hw, List.append_assoc] at hN
  rintro rfl
  refine disjoint_of_nodup hN hx ?_
  cases v <;> simp [posOf]

theorem skipForward_range {p : T → Bool} {c r r' : List Iter} (hf : FS (okNode h p) r r') :
    ∀ {a : List Iter}, Rep h t (a ++ (r ++ c)) →
      skipForward h p (posOf t (r ++ c)) (posOf t c) = some (posOf t (r' ++ c)) := by
  induction hf with
  | nil => intro a R; rw [skipForward]; simp
  | trail n _ _ => intro a R; rw [List.cons_append, List.cons_append, posOf_cons, posOf_cons, skipForward]; simp
  | @keep n r r' hn _ _ =>
    intro a R
    obtain ⟨v, hv⟩ := R.deref_some (x := ⟨n, .leading⟩) (by simp)
    have hp := (okNode_of_deref hv).mp hn
    rw [List.cons_append, List.cons_append, posOf_cons, posOf_cons, skipForward]
    simp [hv, hp]
  | @drop n b r r' hn hb _ ih =>
    intro a R
    obtain ⟨v, hv⟩ := R.deref_some (x := ⟨n, .leading⟩) (by simp)
    have hp : p v = false := by
      rw [← Bool.not_eq_true]; exact fun h' => hn ((okNode_of_deref hv).mpr h')
    have R1 : Rep h t ((a ++ (⟨n, .leading⟩ :: b) ++ [⟨n, .trailing⟩]) ++ (r ++ c)) := by simpa using R
    have hi := R1.incr_split
    rw [priorOf_concat] at hi
    have hl : (⟨n, .leading⟩ : Iter) ≠ posOf t c :=
      (R.posOf_ne_of_mem (u := a ++ (⟨n, .leading⟩ :: (b ++ ⟨n, .trailing⟩ :: r))) (v := c) (by simp) (by simp)).symm
    rw [List.cons_append, posOf_cons, skipForward]
    simp [hl, hv, hp, Iter.trailingOf, hi]
    exact ih R1

theorem skipBackward_range {p : T → Bool} {w a r r' : List Iter} {f : Iter} (hf : PS (okNode h p) r r') :
    ∀ {c : List Iter}, Rep h t w → w = a ++ (r ++ c) → f = posOf t (r ++ c) →
      r' ≠ [] → skipBackward h p f (priorOf t (a ++ r)) = some (priorOf t r') := by
  induction hf with
  | nil => intro c R hw hf hr; exact absurd rfl hr
  | lead n _ _ => intro c R hw _ _; rw [← List.append_assoc, priorOf_concat, priorOf_concat, skipBackward]; simp
  | @keep n r r' hn _ _ =>
    intro c R hw _ _
    obtain ⟨v, hv⟩ := R.deref_some (x := ⟨n, .trailing⟩) (by simp [hw])
    have hp := (okNode_of_deref hv).mp hn
    rw [← List.append_assoc, priorOf_concat, priorOf_concat, skipBackward]
    simp [hv, hp]
  | @drop n b r r' hn hb _ ih =>
    intro c R hw hf hr
    obtain ⟨v, hv⟩ := R.deref_some (x := ⟨n, .trailing⟩) (by simp [hw])
    have hp : p v = false := by
      rw [← Bool.not_eq_true]; exact fun h' => hn ((okNode_of_deref hv).mpr h')
    have hb' : f ≠ ⟨n, .trailing⟩ := by
      have hm : f ∈ r ++ ⟨n, .leading⟩ :: b := by
        rw [hf]
        cases r <;> simp [posOf]
      rintro rfl
      have hN := R.nodup_word
      have e : w = a ++ ((r ++ ⟨n, .leading⟩ :: b) ++ (⟨n, .trailing⟩ :: c)) := by rw [hw]; simp
      rw [e] at hN
      exact disjoint_of_nodup hN.of_append_right hm (by simp)
    have R1 : Rep h t ((a ++ r) ++ (⟨n, .leading⟩ :: (b ++ [⟨n, .trailing⟩] ++ c))) := by rw [hw] at R; simpa using R
    have hd := R1.decr_split
    rw [posOf_cons] at hd
    have e : a ++ (r ++ ⟨n, .leading⟩ :: b ++ [⟨n, .trailing⟩]) = (a ++ r ++ ⟨n, .leading⟩ :: b) ++ [⟨n, .trailing⟩] := by simp
    rw [e, priorOf_concat, skipBackward]
    simp [hb', hv, hp, Iter.leadingOf, hd]
    exact ih R (c := ⟨n, .leading⟩ :: (b ++ ⟨n, .trailing⟩ :: c)) (by rw [hw]; simp) (by rw [hf]; simp) hr

/-- A filter iterator over the range from `f` to `l`. -/
def FIt.at (f l : Iter) (b : Bool) (x : Iter) : FIt := ⟨x, b, f, l⟩

/-- All that an iterator over the range `r` of `a ++ (r ++ c)` goes through, coming from before the range and moving on
beyond it: what is before unfiltered, what the range shows, the end of the range, and what is after it unfiltered. -/
def FIt.journey (t : Ptr) (a r r' c : List Iter) : List FIt :=
  let f := posOf t (r ++ c)
  let l := posOf t c
  a.map (FIt.at f l false) ++ (r'.map (FIt.at f l true) ++ FIt.at f l true l :: ((c ++ [end_ t]).tail).map (FIt.at f l false))

theorem filterIncr_plain {p : T → Bool} {w u v : List Iter} {f l x : Iter} (R : Rep h t w) (hw : w = u ++ x :: v)
    (hf : posOf t v ≠ f) : filterIncr h p (FIt.at f l false x) = some (FIt.at f l false (posOf t v)) := by
  have R1 : Rep h t ((u ++ [x]) ++ v) := by rw [hw] at R; simpa using R
  have hi := R1.incr_split
  rw [priorOf_concat] at hi
  by_cases hx : x = l
  · subst hx; simp [filterIncr, FIt.at, hi, hf]
  · simp [filterIncr, FIt.at, hi, hf, hx]

theorem filterIncr_in {p : T → Bool} {w u v : List Iter} {f l x : Iter} (R : Rep h t w) (hw : w = u ++ x :: v)
    (hl : x ≠ l) {y : Iter} (hs : skipForward h p (posOf t v) l = some y) :
    filterIncr h p (FIt.at f l true x) = some (FIt.at f l true y) := by
  have R1 : Rep h t ((u ++ [x]) ++ v) := by rw [hw] at R; simpa using R
  have hi := R1.incr_split
  rw [priorOf_concat] at hi
  simp [filterIncr, FIt.at, hi, hl, hs]

theorem journey_incr {p : T → Bool} {w a r r' c : List Iter} (R : Rep h t w) (hw : w = a ++ (r ++ c))
    (hf : FS (okNode h p) r r') :
    List.IsChain (fun x y => filterIncr h p x = some y) (FIt.journey t a r r' c) := by
  unfold FIt.journey
  generalize hF : posOf t (r ++ c) = f
  generalize hL : posOf t c = l
  -- after the range
  have hafter : ∀ c2 c1, w = a ++ (r ++ (c1 ++ c2)) → (c1 ++ c2 = c) → c1 ≠ [] →
      List.IsChain (fun x y => filterIncr h p x = some y) ((c2 ++ [end_ t]).map (FIt.at f l false)) := by
    intro c2
    induction c2 with
    | nil => intro c1 _ _ _; simp
    | cons y c2 ih =>
      intro c1 h1 h2 h3
      simp only [List.cons_append, List.map_cons]
      rw [List.isChain_cons]
      refine ⟨?_, ih (c1 ++ [y]) (by simp [h1]) (by simp [h2]) (by simp)⟩
      intro z hz
      have e : w = (a ++ (r ++ c1)) ++ y :: c2 := by simp [h1]
      have hne : posOf t c2 ≠ f := by
        refine R.posOf_ne_of_mem (u := a ++ (r ++ c1) ++ [y]) (by simp [e]) ?_
        rw [← hF, ← h2]
        cases r with
        | nil => cases c1 with
          | nil => exact absurd rfl h3
          | cons _ _ => simp [posOf]
        | cons _ _ => simp [posOf]
      rw [filterIncr_plain R e hne]
      cases c2 <;> simpa [posOf] using hz
  -- the end of the range
  have hend : List.IsChain (fun x y => filterIncr h p x = some y)
      (FIt.at f l true l :: ((c ++ [end_ t]).tail).map (FIt.at f l false)) := by
    cases c with
    | nil => simp
    | cons y c =>
      rw [List.cons_append, List.tail_cons, List.isChain_cons]
      refine ⟨?_, hafter c [y] (by simp [hw]) rfl (by simp)⟩
      intro z hz
      have hl : y = l := by rw [← hL]; rfl
      subst hl
      have R1 : Rep h t ((a ++ r ++ [y]) ++ c) := by rw [hw] at R; simpa using R
      have hi := R1.incr_split
      rw [priorOf_concat] at hi
      have hne : posOf t c ≠ f := by
        refine R.posOf_ne_of_mem (u := a ++ r ++ [y]) (by simp [hw]) ?_
        rw [← hF]
        cases r <;> simp [posOf]
      have : FIt.at f y false (posOf t c) = z := by cases c <;> simpa [posOf] using hz
      rw [← this]
      simp [filterIncr, FIt.at, hi, hne]
  -- the head of what comes next
  have hhead : ∀ {r' : List Iter} {z : FIt}, z ∈ (r'.map (FIt.at f l true) ++
      FIt.at f l true l :: ((c ++ [end_ t]).tail).map (FIt.at f l false)).head? → z = FIt.at f l true (posOf t (r' ++ c)) := by
    intro r' z hz
    cases r' with
    | nil => rw [List.nil_append, hL]; simpa using hz.symm
    | cons y r' => simpa [posOf] using hz.symm
  -- in the range
  have hin : ∀ {r2 r2' : List Iter}, FS (okNode h p) r2 r2' → ∀ r1, r = r1 ++ r2 →
      List.IsChain (fun x y => filterIncr h p x = some y) (r2'.map (FIt.at f l true) ++
        FIt.at f l true l :: ((c ++ [end_ t]).tail).map (FIt.at f l false)) := by
    have step : ∀ {x : Iter} {r2 r2' r1 : List Iter}, FS (okNode h p) r2 r2' → r = r1 ++ x :: r2 →
        filterIncr h p (FIt.at f l true x) = some (FIt.at f l true (posOf t (r2' ++ c))) := by
      intro x r2 r2' r1 hf hr
      have e : w = (a ++ r1) ++ x :: (r2 ++ c) := by rw [hw, hr]; simp
      have hl : x ≠ l := by
        rw [← hL]
        exact (R.posOf_ne_of_mem (u := a ++ r) (by simp [hw]) (by simp [hr])).symm
      refine filterIncr_in R e hl ?_
      rw [← hL]
      refine skipForward_range hf (a := a ++ r1 ++ [x]) ?_
      rw [e] at R
      simpa using R
    intro r2 r2' hf
    induction hf with
    | nil => intro r1 hr; simpa using hend
    | trail n hf ih =>
      intro r1 hr
      rw [List.map_cons, List.cons_append, List.isChain_cons]
      refine ⟨fun z hz => ?_, ih (r1 ++ [⟨n, .trailing⟩]) (by simp [hr])⟩
      rw [hhead hz]
      exact step hf hr
    | keep n hn hf ih =>
      intro r1 hr
      rw [List.map_cons, List.cons_append, List.isChain_cons]
      refine ⟨fun z hz => ?_, ih (r1 ++ [⟨n, .leading⟩]) (by simp [hr])⟩
      rw [hhead hz]
      exact step hf hr
    | @drop n b r2 r2' hn hb _ ih =>
      intro r1 hr
      exact ih (r1 ++ (⟨n, .leading⟩ :: b) ++ [⟨n, .trailing⟩]) (by simp [hr])
  -- before the range
  have hbef : ∀ a2 a1, a = a1 ++ a2 → List.IsChain (fun x y => filterIncr h p x = some y)
      (a2.map (FIt.at f l false) ++ (r'.map (FIt.at f l true) ++
        FIt.at f l true l :: ((c ++ [end_ t]).tail).map (FIt.at f l false))) := by
    intro a2
    induction a2 with
    | nil => intro a1 _; exact hin hf [] rfl
    | cons x a2 ih =>
      intro a1 ha
      rw [List.map_cons, List.cons_append, List.isChain_cons]
      refine ⟨fun z hz => ?_, ih (a1 ++ [x]) (by simp [ha])⟩
      have e : w = a1 ++ x :: (a2 ++ (r ++ c)) := by rw [hw, ha]; simp
      cases a2 with
      | nil =>
        rw [List.map_nil, List.nil_append] at hz
        rw [hhead hz]
        have R1 : Rep h t ((a1 ++ [x]) ++ (r ++ c)) := by rw [e] at R; simpa using R
        have hi := R1.incr_split
        rw [priorOf_concat, hF] at hi
        have hs := skipForward_range hf R1
        rw [hF, hL] at hs
        simp [filterIncr, FIt.at, hi, hs]
      | cons y a2 =>
        have hz' : FIt.at f l false y = z := by simpa using hz
        rw [← hz', filterIncr_plain R e]
        · simp [posOf]
        · rw [← hF]
          have := R.posOf_ne_of_mem (u := a) (v := r ++ c) (by simp [hw]) (x := y) (by simp [ha])
          simpa [posOf] using this.symm
  exact hbef a [] rfl

theorem filterDecr_plain {p : T → Bool} {w u v : List Iter} {f l x : Iter} (R : Rep h t w) (hw : w = u ++ x :: v)
    (hl : x ≠ l) {b : Bool} (hb : b = true → posOf t v = f) :
    filterDecr h p (FIt.at f l b (posOf t v)) = some (FIt.at f l false x) := by
  have R1 : Rep h t ((u ++ [x]) ++ v) := by rw [hw] at R; simpa using R
  have hd := R1.decr_split
  rw [priorOf_concat] at hd
  by_cases hx : posOf t v = f
  · subst hx; simp [filterDecr, FIt.at, hd, hl]
  · have : b = false := by
      cases b
      · rfl
      · exact absurd (hb rfl) hx
    simp [filterDecr, FIt.at, hd, hl, hx, this]

theorem journey_decr {p : T → Bool} {w a r r' c : List Iter} (R : Rep h t w) (hw : w = a ++ (r ++ c))
    (hf : PS (okNode h p) r r') (hl : c = [] ∨ (posOf t c).edge = .leading)
    (ha : a = [] ∨ posOf t (r' ++ c) = posOf t (r ++ c)) :
    List.IsChain (fun x y => filterDecr h p y = some x) (FIt.journey t a r r' c) := by
  unfold FIt.journey
  generalize hF : posOf t (r ++ c) = f at ha
  generalize hL : posOf t c = l at hl
  -- after the range
  have hafter : ∀ c2 c1, w = a ++ (r ++ (c1 ++ c2)) → (c1 ++ c2 = c) → c1 ≠ [] →
      List.IsChain (fun x y => filterDecr h p y = some x) ((c2 ++ [end_ t]).map (FIt.at f l false)) := by
    intro c2
    induction c2 with
    | nil => intro c1 _ _ _; simp
    | cons y c2 ih =>
      intro c1 h1 h2 h3
      simp only [List.cons_append, List.map_cons]
      rw [List.isChain_cons]
      refine ⟨?_, ih (c1 ++ [y]) (by simp [h1]) (by simp [h2]) (by simp)⟩
      intro z hz
      have e : w = (a ++ (r ++ c1)) ++ y :: c2 := by simp [h1]
      have hne : y ≠ l := by
        have := R.posOf_ne_of_mem (u := a ++ (r ++ c1)) (v := y :: c2) (by simp [e]) (x := l) (by
          rw [← hL, ← h2]
          cases c1 with
          | nil => exact absurd rfl h3
          | cons _ _ => simp [posOf])
        simpa [posOf] using this
      have hz' : z = FIt.at f l false (posOf t c2) := by cases c2 <;> simpa [posOf] using hz.symm
      rw [hz']
      exact filterDecr_plain R e hne (by simp)
  -- the end of the range
  have hend : List.IsChain (fun x y => filterDecr h p y = some x)
      (FIt.at f l true l :: ((c ++ [end_ t]).tail).map (FIt.at f l false)) := by
    cases c with
    | nil => simp
    | cons y c =>
      rw [List.cons_append, List.tail_cons, List.isChain_cons]
      refine ⟨?_, hafter c [y] (by simp [hw]) rfl (by simp)⟩
      intro z hz
      have hy : y = l := by rw [← hL]; rfl
      subst hy
      have R1 : Rep h t ((a ++ r ++ [y]) ++ c) := by rw [hw] at R; simpa using R
      have hd := R1.decr_split
      rw [priorOf_concat] at hd
      have hz' : FIt.at f y false (posOf t c) = z := by cases c <;> simpa [posOf] using hz
      have hy : y.edge = .leading := hl.resolve_left (by simp)
      have hs : skipBackward h p f y = some y := by rw [skipBackward]; simp [hy]
      rw [← hz']
      simp [filterDecr, FIt.at, hd, hs]
  -- a step back into what the range shows
  have step : ∀ {y : Iter} {r1 r1' d : List Iter}, PS (okNode h p) r1 r1' → w = a ++ (r1 ++ d) → posOf t (r1 ++ d) = f →
      posOf t d = y → r1' ≠ [] →
      filterDecr h p (FIt.at f l true y) = some (FIt.at f l true (priorOf t r1')) := by
    intro y r1 r1' d hp hw hf hy hr
    have hr1 : r1 ≠ [] := fun e => hr (hp.nil_left e)
    have hs := skipBackward_range hp R hw hf.symm hr
    have R1 : Rep h t ((a ++ r1) ++ d) := by rw [hw] at R; simpa using R
    have hd := R1.decr_split
    have hne : y ≠ f := by
      rw [← hy, ← hf]
      exact (posOf_ne (by rw [hw] at R; exact R) hr1).symm
    rw [hy] at hd
    simp [filterDecr, FIt.at, hd, hne, hs]
  have hprior : ∀ {x : Iter} {r1' : List Iter}, x ∈ r1'.getLast? → r1' ≠ [] ∧ priorOf t r1' = x := by
    intro x r1' hx
    refine ⟨by rintro rfl; simp at hx, ?_⟩
    rw [priorOf, Option.mem_def.1 hx]; rfl
  -- in the range
  have hin : ∀ {r1 r1' : List Iter}, PS (okNode h p) r1 r1' → ∀ r2, r = r1 ++ r2 →
      List.IsChain (fun x y => filterDecr h p y = some x) (r1'.map (FIt.at f l true)) := by
    intro r1 r1' hp
    have last : ∀ {n : Ptr} {e : Edge} {r1 r1' r2 : List Iter}, PS (okNode h p) r1 r1' → r = (r1 ++ [⟨n, e⟩]) ++ r2 →
        ∀ x ∈ (r1'.map (FIt.at f l true)).getLast?, filterDecr h p (FIt.at f l true ⟨n, e⟩) = some x := by
      intro n e r1 r1' r2 hp hr x hx
      rw [List.getLast?_map, Option.mem_def, Option.map_eq_some_iff] at hx
      obtain ⟨z, hz, rfl⟩ := hx
      obtain ⟨h1, h2⟩ := hprior hz
      rw [← h2]
      exact step hp (d := ⟨n, e⟩ :: (r2 ++ c)) (by rw [hw, hr]; simp) (by rw [← hF, hr]; simp) (by simp [posOf]) h1
    induction hp with
    | nil => intro r2 _; simp
    | @lead n r1 r1' hp ih =>
      intro r2 hr
      rw [List.map_append, List.map_cons, List.map_nil, isChain_concat]
      exact ⟨ih (⟨n, .leading⟩ :: r2) (by simp [hr]), last hp hr⟩
    | @keep n r1 r1' hn hp ih =>
      intro r2 hr
      rw [List.map_append, List.map_cons, List.map_nil, isChain_concat]
      exact ⟨ih (⟨n, .trailing⟩ :: r2) (by simp [hr]), last hp hr⟩
    | @drop n b r1 r1' hn hb hp ih =>
      intro r2 hr
      exact ih (⟨n, .leading⟩ :: (b ++ ⟨n, .trailing⟩ :: r2)) (by simp [hr])
  -- before the range
  have hbef : ∀ a2 a1, a = a1 ++ a2 → List.IsChain (fun x y => filterDecr h p y = some x) (a2.map (FIt.at f l false)) := by
    intro a2
    induction a2 with
    | nil => intro a1 _; simp
    | cons x a2 ih =>
      intro a1 ha
      rw [List.map_cons, List.isChain_cons]
      refine ⟨fun z hz => ?_, ih (a1 ++ [x]) (by simp [ha])⟩
      cases a2 with
      | nil => simp at hz
      | cons y a2 =>
        have e : w = a1 ++ x :: (y :: a2 ++ (r ++ c)) := by rw [hw, ha]; simp
        have hz' : z = FIt.at f l false y := by simpa using hz.symm
        have hxl : x ≠ l := by
          rw [← hL]
          exact (R.posOf_ne_of_mem (u := a ++ r) (by simp [hw]) (by simp [ha])).symm
        have := filterDecr_plain (p := p) (f := f) (l := l) (b := false) R e hxl (by simp)
        rw [hz']
        simpa [posOf] using this
  rw [List.isChain_append]
  refine ⟨hbef a [] rfl, ?_, ?_⟩
  · rw [List.isChain_append]
    refine ⟨hin hf [] (by simp), hend, ?_⟩
    intro x hx y hy
    rw [List.getLast?_map, Option.mem_def, Option.map_eq_some_iff] at hx
    obtain ⟨z, hz, rfl⟩ := hx
    have hy' : y = FIt.at f l true l := by simpa using hy.symm
    obtain ⟨h1, h2⟩ := hprior hz
    rw [hy', ← h2]
    exact step hf hw hF hL h1
  · intro x hx y hy
    rw [List.getLast?_map, Option.mem_def, Option.map_eq_some_iff] at hx
    obtain ⟨z, hz, rfl⟩ := hx
    have hne : a ≠ [] := by rintro rfl; simp at hz
    have hq := ha.resolve_left hne
    have hy' : y = FIt.at f l true f := by
      cases r' with
      | nil =>
        have e : l = f := by rw [← hL, ← hq]; rfl
        subst e
        simpa using hy.symm
      | cons y r' =>
        have e : y = f := by rw [← hq]; simp [posOf]
        subst e
        simpa using hy.symm
    obtain ⟨a1, z', rfl⟩ := (List.eq_nil_or_concat a).resolve_left hne
    rw [List.concat_eq_append] at hz hw
    have : z' = z := by simpa using hz
    subst this
    have hxl : z' ≠ l := by
      rw [← hL]
      exact (R.posOf_ne_of_mem (u := a1 ++ [z'] ++ r) (by simp [hw]) (by simp)).symm
    have e : w = a1 ++ z' :: (r ++ c) := by rw [hw]; simp
    have := filterDecr_plain (p := p) (f := f) (l := l) (b := true) R e hxl (fun _ => hF)
    rw [hF] at this
    rw [hy']
    exact this

variable {W : World T}

/-- **C17** for a part of a forest. `filter_fullorder_iterator(f, l, p)` with `[f, l)` any range of positions, such that
no node that fails the predicate begins in it and ends after it (so for all ranges of siblings): from `f` to `l` it
shows the positions of the range except for the nodes failing the predicate and all inside of them (`xs`). Beyond the
range it shows everything (`zs`), and coming from before the range (`ys`) it shows everything until it enters the range.
Where nodes that fail have both their edges in the range or none, `l` is `end()` or a leading edge (as the comment at
forest.hpp:314 says) and the first position of the range is shown, `--` retraces all of it. -/
theorem c17_range (hW : Reachable W) (hf : IsForest W t) {a r c : List Iter} (ho : order W t = some (a ++ (r ++ c)))
    (pr : T → Bool) (hI : Inside (fun m => ∃ v, W.value m = some v ∧ pr v = true) r) :
    ∃ i e ys xs zs, filterMk W.heap pr (posOf t (r ++ c)) (posOf t c) = some i ∧
      filterMk W.heap pr (posOf t c) (posOf t c) = some e ∧
      walk filterEq (filterIncr W.heap pr) i e = some xs ∧
      xs.map (·.x) = shownIn (fun m => ∃ v, W.value m = some v ∧ pr v = true) (a ++ (r ++ c)) r ∧
      ys.map (·.x) = a ∧ (∀ y ∈ ys, y = { i with x := y.x, inside := false }) ∧ zs.map (·.x) = c ++ [end_ t] ∧
      (xs ++ zs).head? = some i ∧
      List.IsChain (fun y z => filterIncr W.heap pr y = some z) (ys ++ (xs ++ zs)) ∧
      (InsideBack (fun m => ∃ v, W.value m = some v ∧ pr v = true) r → c = [] ∨ (posOf t c).edge = .leading →
        a = [] ∨ i.x = posOf t (r ++ c) →
        List.IsChain (fun y z => filterDecr W.heap pr z = some y) (ys ++ (xs ++ zs))) := by
  obtain ⟨A, I⟩ := hW.inv
  have Rp := I.rep t _ (I.words_of_order hf ho)
  have hfs := FS.of_range (ok := okNode W.heap pr) Rp.balanced Rp.nodup_word rfl hI
  have hs := skipForward_range hfs Rp
  have hse : skipForward W.heap pr (posOf t c) (posOf t c) = some (posOf t c) := by rw [skipForward]; simp
  have hch := journey_incr Rp rfl hfs
  have hsub : ∀ x ∈ shownIn (okNode W.heap pr) (a ++ (r ++ c)) r, x ∈ r := fun x hx => (List.mem_filter.1 hx).1
  generalize hS : shownIn (okNode W.heap pr) (a ++ (r ++ c)) r = S at *
  have hmap : ∀ (b : Bool) (l : List Iter), (l.map (FIt.at (posOf t (r ++ c)) (posOf t c) b)).map (·.x) = l := by
    intro b l
    rw [List.map_map]
    have e1 : ((fun y : FIt => y.x) ∘ FIt.at (posOf t (r ++ c)) (posOf t c) b) = id := rfl
    rw [e1, List.map_id]
  refine ⟨FIt.at (posOf t (r ++ c)) (posOf t c) true (posOf t (S ++ c)), FIt.at (posOf t c) (posOf t c) true (posOf t c),
    a.map (FIt.at (posOf t (r ++ c)) (posOf t c) false), S.map (FIt.at (posOf t (r ++ c)) (posOf t c) true),
    FIt.at (posOf t (r ++ c)) (posOf t c) true (posOf t c) ::
      ((c ++ [end_ t]).tail).map (FIt.at (posOf t (r ++ c)) (posOf t c) false), ?_, ?_, ?_, ?_, hmap _ _, ?_, ?_, ?_, hch, ?_⟩
  · simp [filterMk, hs, FIt.at]
  · simp [filterMk, hse, FIt.at]
  · have h1 := (List.isChain_append.1 hch).2.1
    refine walk_eq' (z := FIt.at (posOf t (r ++ c)) (posOf t c) true (posOf t c)) (by simp [filterEq, FIt.at]) ?_ ?_ ?_
    · intro x hx
      obtain ⟨y, hy, rfl⟩ := List.mem_map.mp hx
      have := Rp.posOf_ne_of_mem (u := a ++ r) (v := c) (by simp) (x := y) (by simp [hsub y hy])
      simp [filterEq, FIt.at, this.symm]
    · rw [List.append_cons] at h1
      exact (List.isChain_append.1 h1).1
    · cases S <;> simp [posOf]
  · rw [hmap]; exact hS.symm
  · intro y hy
    obtain ⟨x, -, rfl⟩ := List.mem_map.mp hy
    rfl
  · rw [List.map_cons, hmap]
    cases c <;> simp [FIt.at, posOf]
  · cases S <;> simp [posOf]
  · intro hB hl ha
    refine journey_decr Rp rfl ?_ hl ha
    have h1 : r.Nodup := Rp.nodup_word.of_append_right.of_append_left
    simpa using hfs.ps h1 (Rp.balanced.ordered Rp.nodup_word rfl) hB PS.nil

/-! The forest `1 (2 3) 4` of `demo`, the range of the siblings 2 and 3, of which 3 (with value 30) fails. -/

example : ∃ W : World Nat, Reachable W ∧ IsForest W 0 ∧
    order W 0 = some ([L 1] ++ ([L 2, R 2, L 3, R 3] ++ [R 1, L 4, R 4])) ∧
    Inside (fun m => ∃ v, W.value m = some v ∧ (v != 30) = true) [L 2, R 2, L 3, R 3] ∧
    InsideBack (fun m => ∃ v, W.value m = some v ∧ (v != 30) = true) [L 2, R 2, L 3, R 3] ∧
    ¬ (fun m => ∃ v, W.value m = some v ∧ (v != 30) = true) 3 := by
  obtain ⟨W, h, I⟩ := demo
  have hb : Balanced [L 2, R 2, L 3, R 3] := .cons 2 (b := []) .nil (.cons 3 (b := []) .nil .nil)
  refine ⟨W, h, I.isForest_iff.mpr ⟨_, rfl⟩, I.order rfl, hb.inside.1, hb.inside.2, ?_⟩
  rintro ⟨v, hv, h1⟩
  have h3 : valueAt W.heap 3 = some 30 := I.val 3
  rw [World.value, h3, Option.some.injEq] at hv
  subst hv
  simp at h1

/-- Without the condition on the range its end is missed: for `[L 1, L 3)` in the same forest, with node 1 failing, the
iterator made for the range is at node 4 already, and visits what is after the range. -/
theorem c17_range_counterexample :
    ∃ (W : World Nat) (pr : Nat → Bool), Reachable W ∧ IsForest W 0 ∧
      order W 0 = some ([] ++ ([L 1, L 2, R 2] ++ [L 3, R 3, R 1, L 4, R 4])) ∧
      filterMk W.heap pr (L 1) (L 3) = some ⟨L 4, true, L 1, L 3⟩ := by
  obtain ⟨W, h, I⟩ := demo
  have Rp := I.rep 0 demoWord rfl
  have R1 : Rep W.heap 0 ([L 1, L 2, R 2, L 3, R 3, R 1] ++ [L 4, R 4]) := Rp
  have hi : incr W.heap (R 1) = some (L 4) := R1.incr_split
  have h1 : W.heap.deref (L 1) = some 10 := I.val 1
  have h4 : W.heap.deref (L 4) = some 40 := I.val 4
  refine ⟨W, fun v => v != 10, h, I.isForest_iff.mpr ⟨_, rfl⟩, I.order rfl, ?_⟩
  have e4 : skipForward W.heap (fun v => v != 10) (L 4) (L 3) = some (L 4) := by
    rw [skipForward]; simp [h4]
  have e1 : skipForward W.heap (fun v => v != 10) (L 1) (L 3) = some (L 4) := by
    rw [skipForward]; simp [h1, Iter.trailingOf, hi, e4]
  simp [filterMk, e1]

/-- **C18**, `base()`: the reverse iterator made from any position gives that position back, and shows the position
before it with the other edge. -/
theorem c18_base (hW : Reachable W) (hf : IsForest W t) {a c : List Iter} {x : Iter} (ho : order W t = some (a ++ x :: c)) :
    ∃ i, revMk W.heap (posOf t c) = some i ∧ i.shows = x.pivot ∧ revBase W.heap i = some (posOf t c) := by
  obtain ⟨A, I⟩ := hW.inv
  have Rp := I.rep t _ (I.words_of_order hf ho)
  have R1 : Rep W.heap t ((a ++ [x]) ++ c) := by simpa using Rp
  have hd := R1.decr_split
  have hi := R1.incr_split
  rw [priorOf_concat] at hd hi
  exact ⟨⟨x, x.edge.pivot⟩, by simp [revMk, hd], rfl, by simp [revBase, hi]⟩

/-- **C18**, converting constructor: of an iterator that was made from a position it is an equal one. Missing: iterators of which the edge was changed
(see the counterexample). -/
theorem c18_convert_partial (hW : Reachable W) (hf : IsForest W t) {a c : List Iter} {x : Iter} (ho : order W t = some (a ++ x :: c)) {i : RIt}
    (hi : revMk W.heap (posOf t c) = some i) : ∃ j, revConvert W.heap i = some j ∧ revEq j i = true := by
  obtain ⟨i', h1, -, h3⟩ := c18_base hW hf ho
  rw [h1] at hi
  cases hi
  exact ⟨i, by simp [revConvert, h3, h1], by simp [revEq]⟩

/-- ... and the conversion always undoes a change of the edge, for every position of every forest. -/
theorem c18_convert_counterexample (hW : Reachable W) (hf : IsForest W t) {a c : List Iter} {x : Iter} (ho : order W t = some (a ++ x :: c)) {i : RIt}
    (hi : revMk W.heap (posOf t c) = some i) :
    revConvert W.heap (revSetEdge i i.edge.pivot) = some i ∧ i.shows ≠ (revSetEdge i i.edge.pivot).shows := by
  obtain ⟨i', h1, -, h3⟩ := c18_base hW hf ho
  rw [h1] at hi
  cases hi
  refine ⟨?_, ?_⟩
  · have h3' : revBase W.heap (revSetEdge i i.edge.pivot) = some (posOf t c) := h3
    simp [revConvert, h3', h1]
  · obtain ⟨b, e⟩ := i
    cases e <;> simp [RIt.shows, revSetEdge, Edge.pivot]

/-- The hypotheses hold at the third position of the forest of the examples. -/
example : ∃ (W : World Nat) (i : RIt), Reachable W ∧ IsForest W 0 ∧ order W 0 = some ([L 1, L 2] ++ R 2 :: [L 3, R 3, R 1, L 4, R 4]) ∧
    revMk W.heap (posOf 0 [L 3, R 3, R 1, L 4, R 4]) = some i ∧ i.shows = L 2 := by
  obtain ⟨W, h, I⟩ := demo
  obtain ⟨i, h1, h2, -⟩ := c18_base (t := 0) (a := [L 1, L 2]) (x := R 2) (c := [L 3, R 3, R 1, L 4, R 4]) h (I.isForest_iff.mpr ⟨_, rfl⟩) (I.order rfl)
  exact ⟨W, i, h, I.isForest_iff.mpr ⟨_, rfl⟩, I.order rfl, h1, h2⟩

end Verif.Forest
