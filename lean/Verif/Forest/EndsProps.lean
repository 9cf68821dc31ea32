import Verif.Forest.Ends
import Verif.Forest.Props3

/-!
# C89: the ends of a forest

Stated over the list of trees that a forest holds.
-/

namespace Verif.Forest

variable {T : Type} {W : World T} {t p : Ptr} {v : T} {ts cs : List (Tree T)}

/-- The forest object `t` exists and holds the trees `ts`. -/
def Holds (W : World T) (t : Ptr) (ts : List (Tree T)) : Prop :=
  IsForest W t ∧ ∃ w, order W t = some w ∧ Denotes W.value w ts

/-- Every forest of a reachable world holds some trees. -/
theorem holds_exists (hW : Reachable W) (hf : IsForest W t) : ∃ ts, Holds W t ts := by
  obtain ⟨A, I⟩ := hW.inv
  obtain ⟨w, hw⟩ := I.forest hf
  obtain ⟨ts, h⟩ := (I.rep t w hw).balanced.denotes (val := W.value)
    (fun x hx => by
      obtain ⟨u, hu, -⟩ := I.val_some hw hx
      exact ⟨u, by rw [World.value, I.val]; exact hu⟩)
  exact ⟨ts, hf, w, I.order hw, h⟩

theorem Denotes.snoc {val : Ptr → Option T} : ∀ {ts : List (Tree T)} {w : List Iter},
    Denotes val w (ts ++ [.node v cs]) → ∃ a n b, w = a ++ ⟨n, .leading⟩ :: (b ++ [⟨n, .trailing⟩]) ∧
      val n = some v ∧ Denotes val a ts ∧ Denotes val b cs
  | [], w, h => by
    cases h with
    | cons n hv hb hc =>
      cases hc
      exact ⟨[], n, _, rfl, hv, .nil, hb⟩
  | _ :: ts, w, h => by
    cases h with
    | @cons m _ b' _ _ _ hv hb hc =>
      obtain ⟨a, n, b, rfl, e1, e2, e3⟩ := Denotes.snoc (ts := ts) hc
      exact ⟨⟨m, .leading⟩ :: (b' ++ ⟨m, .trailing⟩ :: a), n, b, by simp, e1, .cons m hv hb e2, e3⟩

theorem assertNonempty_eq {w : List Iter} (R : Rep W.heap t w) (h : w ≠ []) :
    assertNonempty W.heap t = some () := by
  obtain ⟨x, r, rfl⟩ := List.exists_cons_of_ne_nil h
  have hb := R.begin_posOf
  have hne : x ≠ end_ t := by
    rintro rfl
    have := R.balanced
    cases this
  simp [assertNonempty, isEmpty, hb, posOf, hne]

theorem assertNonempty_nil (R : Rep W.heap t []) : assertNonempty W.heap t = none := by
  have hb := R.begin_posOf
  simp [assertNonempty, isEmpty, hb, posOf]

/-- The facts about a held list of trees used below. -/
theorem Holds.open (hW : Reachable W) (hh : Holds W t ts) :
    ∃ w, order W t = some w ∧ Denotes W.value w ts ∧ Rep W.heap t w := by
  obtain ⟨hf, w, ho, hd⟩ := hh
  obtain ⟨A, I⟩ := hW.inv
  exact ⟨w, ho, hd, I.rep t w (I.words_of_order hf ho)⟩

theorem fresh_congr {W' : World T} {w : List Iter} (R : Rep W.heap t w) (hp : W.heap p = none)
    (hs : SameValues [p] W W') (hd : Denotes W.value w ts) : Denotes W'.value w ts := by
  refine hd.congr fun x hx => hs _ ?_
  obtain ⟨n, u, h, -⟩ := R.live x hx
  simp only [List.mem_singleton]
  rintro rfl
  rw [hp] at h
  cases h

theorem Rep.node_ne {w a b c : List Iter} {n : Ptr} {x : Iter} (R : Rep W.heap t w)
    (hw : w = a ++ ⟨n, .leading⟩ :: (b ++ ⟨n, .trailing⟩ :: c)) (hx : x ∈ a ++ b ++ c) : x.node ≠ n := by
  subst hw
  have hn := R.nodup_word
  rintro rfl
  obtain ⟨m, e⟩ := x
  have hp : ((⟨m, .leading⟩ : Iter) :: ⟨m, .trailing⟩ :: (a ++ b ++ c)).Nodup := by
    refine (List.Perm.nodup_iff ?_).mp hn
    simp only [List.append_assoc]
    refine List.perm_middle.trans (.cons _ ?_)
    have e1 : a ++ (b ++ (⟨m, .trailing⟩ :: c)) = (a ++ b) ++ ⟨m, .trailing⟩ :: c := by simp
    rw [e1]
    exact List.perm_middle.trans (by simp)
  simp only [List.nodup_cons, List.mem_cons, not_or] at hp
  cases e
  · exact hp.2.1 hx
  · exact hp.1.2 hx

/-- Addresses outside those named stay free. -/
theorem free_of_same {W' : World T} {ps ts : List Ptr} {q : Ptr} (hv : SameValues ps W W')
    (hf : SameForests ts W W') (hq : W.heap q = none) (h1 : q ∉ ps) (h2 : q ∉ ts) : W'.heap q = none := by
  have e1 := hv q h1
  have e2 := (hf q h2).1
  simp only [World.value, valueAt, hq] at e1
  cases h : W'.heap q with
  | none => rfl
  | some m =>
    have hd : m.data = none := by simpa [h] using e1
    obtain ⟨k, hk, -⟩ := e2.mp ⟨m, h, hd⟩
    rw [hq] at hk; cases hk

/-! ## The property theorems -/

/-- C89. `push_back(v)` adds a tree of one node behind all others, and changes nothing else. -/
theorem c89_push_back (hW : Reachable W) (hh : Holds W t ts) (hp : W.heap p = none) (v : T) :
    ∃ W', forestPushBack W t v p = some W' ∧ Holds W' t (ts ++ [.node v []]) ∧
      SameForests [t] W W' ∧ SameValues [p] W W' ∧ Reachable W' := by
  obtain ⟨w, ho, hd, R⟩ := hh.open hW
  obtain ⟨W', e1, e2, e3, e4, e5, e6, e7⟩ := c02_insert hW hh.1 (a := w) (b := []) (by simpa using ho) hp v
  refine ⟨W', by simp only [posOf_nil] at e1; simp [forestPushBack, e1], ⟨e2, _, e3, ?_⟩, e6, e5, e7⟩
  have h1 := fresh_congr R hp e5 hd
  have h2 : Denotes W'.value [⟨p, .leading⟩, ⟨p, .trailing⟩] [.node v []] :=
    .cons p (b := []) (c := []) e4 .nil .nil
  simpa using h1.append h2

/-- C89. `push_front(v)` adds a tree of one node before all others, and changes nothing else. -/
theorem c89_push_front (hW : Reachable W) (hh : Holds W t ts) (hp : W.heap p = none) (v : T) :
    ∃ W', forestPushFront W t v p = some W' ∧ Holds W' t (.node v [] :: ts) ∧
      SameForests [t] W W' ∧ SameValues [p] W W' ∧ Reachable W' := by
  obtain ⟨w, ho, hd, R⟩ := hh.open hW
  obtain ⟨W', e1, e2, e3, e4, e5, e6, e7⟩ := c02_insert hW hh.1 (a := []) (b := w) (by simpa using ho) hp v
  refine ⟨W', by simp [forestPushFront, R.begin_posOf, e1], ⟨e2, _, e3, ?_⟩, e6, e5, e7⟩
  have h1 := fresh_congr R hp e5 hd
  exact .cons p (b := []) e4 .nil h1

/-- C89. On a nonempty forest, `front()` is the value of the first root; `pop_front()` removes that node alone,
its children taking its place. -/
theorem c89_front (hW : Reachable W) (hh : Holds W t (.node v cs :: ts)) :
    front W.heap t = some v ∧
    ∃ W' n, forestPopFront W t = some W' ∧ Holds W' t (cs ++ ts) ∧ W.value n = some v ∧ W'.heap n = none ∧
      SameForests [t] W W' ∧ SameValues [n] W W' ∧ Reachable W' := by
  obtain ⟨w, ho, hd, R⟩ := hh.open hW
  cases hd with
  | @cons n _ b c _ _ hv hb hc =>
    have hA := assertNonempty_eq R (by simp)
    have hbeg : begin_ W.heap t = some ⟨n, .leading⟩ := by rw [R.begin_posOf]; rfl
    obtain ⟨W', e1, e2, e3, e4, e5, e6, e7⟩ := c03_erase hW hh.1 (a := []) (by simpa using ho) .leading
    refine ⟨?_, W', n, by simp [forestPopFront, hA, hbeg, e1], ⟨e2, _, e3, ?_⟩, hv, e4, e6, e5, e7⟩
    · simp only [front, hA, hbeg, Option.bind_eq_bind, Option.bind_some]
      exact hv
    · have hn : ∀ x ∈ b ++ c, W'.value x.node = W.value x.node := by
        intro x hx
        refine e5 _ ?_
        simp only [List.mem_singleton]
        exact R.node_ne (a := []) rfl hx
      exact (hb.append hc).congr hn

/-- C89. On a nonempty forest, `back()` is the value of the last root; `pop_back()` removes that node alone, its
children taking its place. -/
theorem c89_back (hW : Reachable W) (hh : Holds W t (ts ++ [.node v cs])) :
    back W.heap t = some v ∧
    ∃ W' n, forestPopBack W t = some W' ∧ Holds W' t (ts ++ cs) ∧ W.value n = some v ∧ W'.heap n = none ∧
      SameForests [t] W W' ∧ SameValues [n] W W' ∧ Reachable W' := by
  obtain ⟨w, ho, hd, R⟩ := hh.open hW
  obtain ⟨a, n, b, rfl, hv, ha, hb⟩ := hd.snoc
  have hA := assertNonempty_eq R (by simp)
  have hend : decr W.heap (end_ t) = some ⟨n, .trailing⟩ := by
    have R' : Rep W.heap t ((a ++ ⟨n, .leading⟩ :: b ++ [⟨n, .trailing⟩]) ++ []) := by simpa using R
    have := R'.decr_split
    rw [priorOf_concat] at this
    exact this
  obtain ⟨W', e1, e2, e3, e4, e5, e6, e7⟩ := c03_erase hW hh.1 (a := a) (b := b) (c := [])
    (by simpa using ho) .trailing
  refine ⟨?_, W', n, by simp [forestPopBack, hA, hend, e1], ⟨e2, _, e3, ?_⟩, hv, e4, e6, e5, e7⟩
  · simp only [back, hA, hend, Option.bind_eq_bind, Option.bind_some]
    exact hv
  · have hn : ∀ x ∈ a ++ b, W'.value x.node = W.value x.node := by
      intro x hx
      refine e5 _ ?_
      simp only [List.mem_singleton]
      exact R.node_ne (c := []) rfl (by simpa using hx)
    simpa using (ha.append hb).congr hn

/-- C89. On an empty forest the four members that need an element fail their assertion. -/
theorem c89_empty (hW : Reachable W) (hh : Holds W t []) :
    front W.heap t = none ∧ back W.heap t = none ∧ forestPopFront W t = none ∧ forestPopBack W t = none := by
  obtain ⟨w, ho, hd, R⟩ := hh.open hW
  cases hd
  have hA := assertNonempty_nil R
  simp [front, back, forestPopFront, forestPopBack, hA]

/-- What a sequence of calls does to a list of trees. -/
def endsOf : List (Tree T) → List (EndOp T) → Option (List (Tree T))
  | ts, [] => some ts
  | ts, .pushFront v _ :: os => endsOf (.node v [] :: ts) os
  | ts, .pushBack v _ :: os => endsOf (ts ++ [.node v []]) os
  | .node _ cs :: ts, .popFront :: os => endsOf (cs ++ ts) os
  | [], .popFront :: _ => none
  | ts, .popBack :: os =>
    match ts.getLast? with
    | some (.node _ cs) => endsOf (ts.dropLast ++ cs) os
    | none => none

/-- The addresses `new` returns in a sequence of calls. -/
def addresses (os : List (EndOp T)) : List Ptr :=
  os.filterMap fun | .pushFront _ p => some p | .pushBack _ p => some p | _ => none

/-- C89. A sequence of pushes and pops acts on the forest as on its list of trees, whatever the sequence, and fails
exactly when it pops from an empty list. -/
theorem c89_sequence : ∀ (os : List (EndOp T)) {W : World T} {ts : List (Tree T)}, Reachable W → Holds W t ts →
    (addresses os).Nodup → (∀ p ∈ addresses os, W.heap p = none) →
    (∀ us, endsOf ts os = some us → ∃ W', runEnds W t os = some W' ∧ Holds W' t us ∧ SameForests [t] W W' ∧
      Reachable W') ∧
    (endsOf ts os = none → runEnds W t os = none) := by
  intro os
  induction os with
  | nil =>
    intro W ts hW hh _ _
    refine ⟨fun us h => ?_, fun h => by simp [endsOf] at h⟩
    simp only [endsOf, Option.some.injEq] at h
    subst h
    exact ⟨W, rfl, hh, fun _ _ => ⟨Iff.rfl, fun _ => rfl⟩, hW⟩
  | cons o os ih =>
    intro W ts hW hh hnd hfr
    have key : ∀ {W1 : World T} {ts1 : List (Tree T)} {ps : List Ptr}, runEnd W t o = some W1 → Holds W1 t ts1 →
        SameForests [t] W W1 → SameValues ps W W1 → Reachable W1 → (addresses os).Nodup →
        (∀ p ∈ addresses os, W.heap p = none ∧ p ∉ ps) → endsOf ts (o :: os) = endsOf ts1 os →
        (∀ us, endsOf ts (o :: os) = some us → ∃ W', runEnds W t (o :: os) = some W' ∧ Holds W' t us ∧
          SameForests [t] W W' ∧ Reachable W') ∧
        (endsOf ts (o :: os) = none → runEnds W t (o :: os) = none) := by
      intro W1 ts1 ps h1 h2 h3 h4 h5 h6 h7 h8
      have hfr1 : ∀ p ∈ addresses os, W1.heap p = none := by
        intro p hp
        refine free_of_same h4 h3 (h7 p hp).1 (h7 p hp).2 ?_
        simp only [List.mem_singleton]
        rintro rfl
        obtain ⟨k, hk, -⟩ := hh.1
        rw [(h7 p hp).1] at hk; cases hk
      obtain ⟨i1, i2⟩ := ih h5 h2 h6 hfr1
      rw [h8]
      simp only [runEnds, h1, Option.bind_eq_bind, Option.bind_some]
      refine ⟨fun us hu => ?_, i2⟩
      obtain ⟨W', j1, j2, j3, j4⟩ := i1 us hu
      refine ⟨W', j1, j2, fun q hq => ⟨(j3 q hq).1.trans (h3 q hq).1, fun hf => ?_⟩, j4⟩
      rw [(j3 q hq).2 ((h3 q hq).1.mpr hf), (h3 q hq).2 hf]
    cases o with
    | pushFront v p =>
      simp only [addresses, List.filterMap_cons, List.nodup_cons, List.mem_cons] at hnd hfr
      obtain ⟨W1, e1, e2, e3, e4, e5⟩ := c89_push_front hW hh (hfr p (Or.inl rfl)) v
      refine key e1 e2 e3 e4 e5 hnd.2 (fun q hq => ⟨hfr q (Or.inr hq), ?_⟩) (by simp [endsOf])
      simp only [List.mem_singleton]; rintro rfl; exact hnd.1 hq
    | pushBack v p =>
      simp only [addresses, List.filterMap_cons, List.nodup_cons, List.mem_cons] at hnd hfr
      obtain ⟨W1, e1, e2, e3, e4, e5⟩ := c89_push_back hW hh (hfr p (Or.inl rfl)) v
      refine key e1 e2 e3 e4 e5 hnd.2 (fun q hq => ⟨hfr q (Or.inr hq), ?_⟩) (by simp [endsOf])
      simp only [List.mem_singleton]; rintro rfl; exact hnd.1 hq
    | popFront =>
      simp only [addresses, List.filterMap_cons] at hnd hfr
      match ts, hh with
      | [], hh =>
        refine ⟨fun us h => by simp [endsOf] at h, fun _ => ?_⟩
        simp [runEnds, runEnd, (c89_empty hW hh).2.2.1]
      | .node v cs :: ts, hh =>
        obtain ⟨-, W1, n, e1, e2, e3, -, e4, e5, e6⟩ := c89_front hW hh
        refine key e1 e2 e4 e5 e6 hnd (fun q hq => ⟨hfr q hq, ?_⟩) (by simp [endsOf])
        simp only [List.mem_singleton]; rintro rfl
        have := hfr q hq
        simp [World.value, valueAt, this] at e3
    | popBack =>
      simp only [addresses, List.filterMap_cons] at hnd hfr
      rcases List.eq_nil_or_concat' ts with rfl | ⟨us, ⟨v, cs⟩, rfl⟩
      · refine ⟨fun us h => by simp [endsOf] at h, fun _ => ?_⟩
        simp [runEnds, runEnd, (c89_empty hW hh).2.2.2]
      · obtain ⟨-, W1, n, e1, e2, e3, -, e4, e5, e6⟩ := c89_back hW hh
        refine key e1 e2 e4 e5 e6 hnd (fun q hq => ⟨hfr q hq, ?_⟩) (by simp [endsOf])
        simp only [List.mem_singleton]; rintro rfl
        have := hfr q hq
        simp [World.value, valueAt, this] at e3

-- the hypotheses above, at the demo forest and the empty forest 200
example : ∃ W : World Nat, Reachable W ∧ Holds W 0 demoTrees ∧ Holds W 200 [] ∧ W.heap 7 = none ∧ W.heap 8 = none ∧
    (∃ v cs ts, demoTrees = .node v cs :: ts ∧ cs ≠ []) ∧
    endsOf demoTrees [.popFront, .pushBack 70 7, .pushFront 80 8, .popBack] =
      some [.node 80 [], .node 20 [], .node 30 [], .node 40 []] := by
  obtain ⟨W, h, I⟩ := demo
  exact ⟨W, h, ⟨I.isForest_iff.mpr ⟨_, rfl⟩, _, I.order rfl, demo_denotes I⟩,
    ⟨I.isForest_iff.mpr ⟨_, rfl⟩, _, I.order rfl, .nil⟩, demo_free I (by simp), demo_free I (by simp),
    ⟨_, _, _, rfl, by simp⟩, rfl⟩

end Verif.Forest
