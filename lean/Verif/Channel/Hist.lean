import Verif.Channel.Net

/-!
# What is taken out of the queues, in any network and with any buffer sizes

The messages taken out of a slot are those sent to it, in order and each once; and the strategies take them as they
should.
-/

namespace Verif.Channel

/-- The messages of slot `k` in a sequence of arguments. -/
def fromSlot (k : Nat) (ps : List Args) : List Msg := (ps.flatten.filter fun x => x.1 = k).map (·.2)

theorem fromSlot_append (k : Nat) (ps qs : List Args) : fromSlot k (ps ++ qs) = fromSlot k ps ++ fromSlot k qs := by
  simp [fromSlot]

theorem fromSlot_popMsg {ks : List Nat} {q : Nat → List Msg} (nd : ks.Nodup) (k : Nat) :
    fromSlot k [popMsg ks q] = if k ∈ ks then (q k).head?.toList else [] := by
  simp only [fromSlot, popMsg, List.flatten_cons, List.flatten_nil, List.append_nil]
  induction ks with
  | nil => simp
  | cons a ks ih =>
    obtain ⟨ha, nd⟩ := List.nodup_cons.1 nd
    replace ih := ih nd
    rw [List.filterMap_cons]
    cases hq : q a with
    | nil =>
      simp only [List.head?_nil, Option.map_none, ih, List.mem_cons]
      by_cases hk : k = a
      · subst hk; simp [ha, hq]
      · simp [hk]
    | cons m ms =>
      simp only [List.head?_cons, Option.map_some, List.mem_cons]
      by_cases hk : k = a
      · subst hk
        simp only [List.filter_cons_of_pos, decide_true, List.map_cons, ih, ha, ↓reduceIte, true_or, hq, List.head?_cons,
          Option.toList_some]
      · have : ¬a = k := fun h => hk h.symm
        simp [hk, this, ih]

/-- The queue popped is not empty where it is popped. -/
theorem popSlots_spec {st : Strat} {n idx : Nat} {q : Nat → List Msg} (hd : st = .dflt → n = 1) (hi : st = .rr → idx < n)
    (h : emptyQ st n idx q = false) :
    (popSlots st n idx q).Nodup ∧ (∀ k ∈ popSlots st n idx q, k < n ∧ q k ≠ []) ∧
      (st = .dflt → popSlots st n idx q = [0]) ∧ (st = .zip → popSlots st n idx q = List.range n) ∧
      (st = .rr → popSlots st n idx q = [idx]) ∧ (st = .unord → ∃ k, popSlots st n idx q = [k]) := by
  cases st with
  | dflt => simp_all [popSlots, emptyQ]
  | zip =>
    simp only [emptyQ, List.any_eq_false, List.mem_range] at h
    simp only [popSlots, List.nodup_range, List.mem_range]
    simp_all
  | rr => simp_all [popSlots, emptyQ]
  | unord =>
    simp only [emptyQ, List.all_eq_false, List.mem_range] at h
    obtain ⟨k, hk, hq⟩ := h
    cases hf : (List.range n).find? fun k => q k ≠ [] with
    | none =>
      rw [List.find?_eq_none] at hf
      have := hf k (List.mem_range.2 hk)
      simp_all
    | some a =>
      have h1 := List.find?_some hf
      have h2 := List.mem_of_find?_eq_some hf
      have hp : popSlots .unord n idx q = [a] := by simp only [popSlots]; rw [hf]; rfl
      rw [hp]
      simp_all

/-- All slots popped have a message in the arguments. -/
theorem popMsg_slots {ks : List Nat} {q : Nat → List Msg} (h : ∀ k ∈ ks, q k ≠ []) : (popMsg ks q).map (·.1) = ks := by
  induction ks with
  | nil => rfl
  | cons a ks ih =>
    simp only [popMsg, List.filterMap_cons] at *
    cases hq : q a with
    | nil => simp_all
    | cons m ms => simp_all

/-- The slots of the `n`-th invocation of a strategy with `c` slots. -/
def Takes (st : Strat) (c n : Nat) (m : Args) : Prop :=
  match st with
  | .dflt => m.map (·.1) = [0]
  | .zip => m.map (·.1) = List.range c
  | .rr => m.map (·.1) = [n % c]
  | .unord => ∃ k < c, m.map (·.1) = [k]

structure Hist (G : Net) (s : St) : Prop where
  inp : ∀ i k, s.inp i k = fromSlot k (s.pops i) ++ s.q i k
  takes : ∀ i n m, (s.pops i)[n]? = some m → Takes (G.strat i) (G.slots i) n m
  idx : ∀ i, G.strat i = .rr → s.idx i = (s.pops i).length % G.slots i

theorem Hist.init (G : Net) : Hist G (init G) := by
  constructor <;> intros <;> simp_all [Channel.init, fromSlot]

/-- Steps that do not touch the queues. -/
theorem Hist.same {G : Net} {s s' : St} (H : Hist G s) (h1 : s'.inp = s.inp) (h2 : s'.q = s.q) (h3 : s'.pops = s.pops)
    (h4 : s'.idx = s.idx) : Hist G s' := by
  constructor
  · intro i k; rw [h1, h2, h3]; exact H.inp i k
  · intro i n m h; rw [h3] at h; exact H.takes i n m h
  · intro i h; rw [h3, h4]; exact H.idx i h

theorem Hist.enqueue {G : Net} {s : St} (H : Hist G s) (i k : Nat) (m : Msg) : Hist G (enqueue i k m s) := by
  unfold Channel.enqueue
  simp only []
  suffices h : Hist G { s with
      q := upd s.q i (upd (s.q i) k (s.q i k ++ [m])), inp := upd s.inp i (upd (s.inp i) k (s.inp i k ++ [m])) } by
    split
    · exact h.same rfl rfl rfl rfl
    · exact h
  constructor
  · intro i' k'
    by_cases hi : i' = i
    · subst hi
      by_cases hk : k' = k
      · subst hk; simp [upd, H.inp i' k']
      · simp [upd, hk, H.inp i' k']
    · simp [upd, hi, H.inp i' k']
  · exact H.takes
  · exact H.idx

theorem Hist.pop {G : Net} (W : G.Wf) {s : St} (H : Hist G s) (j i : Nat) : Hist G (popCrit G j i s) := by
  unfold popCrit
  split
  · exact H.same rfl rfl rfl rfl
  · rename_i he
    have he : emptyQ (G.strat i) (G.slots i) (s.idx i) (s.q i) = false := by simpa [isEmpty] using he
    have hidx : G.strat i = .rr → s.idx i < G.slots i := by
      intro h; rw [H.idx i h]; exact Nat.mod_lt _ (W.slots i)
    obtain ⟨nd, hks, h1, h2, h3, h4⟩ := popSlots_spec (W.dflt i) hidx he
    have hm := popMsg_slots (fun k hk => (hks k hk).2)
    simp only []
    generalize popSlots (G.strat i) (G.slots i) (s.idx i) (s.q i) = ks at *
    constructor
    · intro i' k'
      by_cases hi : i' = i
      · subst hi
        simp only [goto, upd, ↓reduceIte, fromSlot_append, fromSlot_popMsg nd, popQ]
        rw [H.inp i' k']
        split
        · rename_i hk
          have := (hks k' hk).2
          cases hq : s.q i' k' with
          | nil => contradiction
          | cons a as => simp
        · simp
      · simp [goto, upd, hi, H.inp i' k']
    · intro i' n m hn
      by_cases hi : i' = i
      · subst hi
        simp only [goto, upd, ↓reduceIte] at hn
        rw [List.getElem?_append] at hn
        split at hn
        · exact H.takes _ _ _ hn
        · rename_i hlt
          have hn0 : n = (s.pops i').length := by
            have : n - (s.pops i').length = 0 := by
              refine Classical.byContradiction fun h => ?_
              cases hd : n - (s.pops i').length with
              | zero => exact h hd
              | succ x => simp [hd] at hn
            omega
          subst hn0
          simp only [Nat.sub_self, List.getElem?_cons_zero, Option.some.injEq] at hn
          subst hn
          unfold Takes
          cases hst : G.strat i' with
          | dflt => simp only []; rw [hm, h1 hst]
          | zip => simp only []; rw [hm, h2 hst]
          | rr => simp only []; rw [hm, h3 hst, H.idx _ hst]
          | unord =>
            simp only []
            obtain ⟨k, hk⟩ := h4 hst
            exact ⟨k, (hks k (by simp [hk])).1, by rw [hm, hk]⟩
      · simp only [goto, upd, hi, ↓reduceIte] at hn
        exact H.takes _ _ _ hn
    · intro i' hst
      by_cases hi : i' = i
      · subst hi
        have hlt := hidx hst
        have hi' := H.idx _ hst
        simp only [goto, upd, ↓reduceIte, popIdx, hst, List.length_append, List.length_cons, List.length_nil]
        rw [Nat.add_mod, ← hi']
        have hc := W.slots i'
        split
        · rename_i heq
          by_cases h1 : G.slots i' = 1
          · rw [h1]; omega
          · rw [Nat.mod_eq_of_lt (a := 0 + 1) (by omega), Nat.zero_add, heq, Nat.mod_self]
        · by_cases h1 : G.slots i' = 1
          · omega
          · rw [Nat.mod_eq_of_lt (a := 0 + 1) (by omega), Nat.zero_add, Nat.mod_eq_of_lt (by omega)]
      · simp only [goto, upd, hi, ↓reduceIte]
        exact H.idx _ hst

theorem Hist.step {G : Net} (W : G.Wf) {s s' : St} (H : Hist G s) {a : Act} (e : step G s a = some s') : Hist G s' := by
  have hr : ∀ i (s : St), Hist G s → Hist G (run i s) := fun i s h => h.same rfl rfl rfl rfl
  have hg : ∀ j p (s : St), Hist G s → Hist G (goto j p s) := fun j p s h => h.same rfl rfl rfl rfl
  have hc : ∀ i c (s : St), Hist G s → Hist G (ctsCrit G i c s) := by
    intro i c s h
    unfold ctsCrit
    simp only []
    split
    · split
      · exact hr _ _ (h.same rfl rfl rfl rfl)
      · exact h.same rfl rfl rfl rfl
    · exact h.same rfl rfl rfl rfl
  cases a with
  | job j =>
    simp only [Channel.step, stepJob] at e
    split at e <;> (try (cases e; done)) <;> (repeat' split at e) <;> cases e
    all_goals first
      | exact H.pop W _ _
      | exact hg _ _ _ (H.enqueue _ _ _)
      | exact hg _ _ _ (hc _ _ _ H)
      | exact hg _ _ _ (hc _ _ _ (H.same rfl rfl rfl rfl))
      | exact hg _ _ _ (hr _ _ (H.same rfl rfl rfl rfl))
      | exact H.same rfl rfl rfl rfl
      | skip
    · unfold taskDone
      simp only []
      split <;> split <;> exact H.same rfl rfl rfl rfl
  | ret j r =>
    simp only [Channel.step] at e
    split at e <;> cases e
    exact H.same rfl rfl rfl rfl
  | send i n m =>
    simp only [Channel.step] at e
    split at e <;> cases e
    exact H.enqueue _ _ _
  | _ =>
    simp only [Channel.step] at e
    (repeat' split at e) <;> cases e <;> exact H.same rfl rfl rfl rfl

theorem Reachable.hist {G : Net} (W : G.Wf) {s : St} : Reachable G s → Hist G s := by
  rintro ⟨as, e⟩
  have H := Hist.init G
  generalize Channel.init G = s0 at *
  induction as generalizing s0 with
  | nil => simp only [exec, Option.some.injEq] at e; exact e ▸ H
  | cons a as ih =>
    simp only [exec] at e
    cases h : Channel.step G s0 a with
    | none => simp [h] at e
    | some s1 => simp only [h, Option.bind_some] at e; exact ih _ e (H.step W h)

end Verif.Channel
