import Verif.Channel.InvAll

/-!
# Every message is handled at most once, in any network, with any buffer sizes and with errors
-/

namespace Verif.Channel

/-- How often the thread at `p` is about to call the function of process `i` with `m`. -/
def Pc.holds (i : Nat) (m : Args) (p : Pc) : Nat := if p.of = some i then p.tocall.count m else 0

/-- The same of all threads below `n`. -/
def held (i : Nat) (m : Args) (pc : Nat → Pc) (n : Nat) : Nat := ((List.range n).map fun j => (pc j).holds i m).sum

theorem held_goto {i : Nat} {m : Args} {pc : Nat → Pc} {n j : Nat} {p : Pc} (h : j < n) :
    held i m (upd pc j p) n + (pc j).holds i m = held i m pc n + p.holds i m := by
  unfold held
  induction n with
  | zero => omega
  | succ n ih =>
    simp only [List.range_succ, List.map_append, List.sum_append, List.map_cons, List.map_nil, List.sum_cons, List.sum_nil]
    by_cases hj : j = n
    · subst hj
      have : (List.range j).map (fun x => (upd pc j p x).holds i m) = (List.range j).map fun x => (pc x).holds i m := by
        refine List.map_congr_left fun a ha => ?_
        have : a ≠ j := by have := List.mem_range.1 ha; omega
        simp [upd, this]
      rw [this]
      simp [upd]
      omega
    · have := ih (by omega)
      have hn : upd pc j p n = pc n := by simp [upd, Ne.symm hj]
      rw [hn]
      omega

theorem held_new {i : Nat} {m : Args} {pc : Nat → Pc} {n : Nat} {p : Pc} (h : p.tocall = []) :
    held i m (upd pc n p) (n + 1) = held i m pc n := by
  unfold held
  have : (List.range n).map (fun x => (upd pc n p x).holds i m) = (List.range n).map fun x => (pc x).holds i m := by
    refine List.map_congr_left fun a ha => ?_
    have : a ≠ n := by have := List.mem_range.1 ha; omega
    simp [upd, this]
  rw [List.range_succ, List.map_append, this]
  simp [upd, Pc.holds, h]

structure Once (s : St) : Prop where
  fr : ∀ j, s.next ≤ j → s.pc j = .none
  le : ∀ i m, (s.calls i).count m + held i m s.pc s.next ≤ (s.pops i).count m

/-- Steps that neither take anything out of a queue nor call a function. -/
structure Drop (s s' : St) : Prop where
  calls : s'.calls = s.calls
  pops : s'.pops = s.pops
  fr : (∀ j, s.next ≤ j → s.pc j = .none) → ∀ j, s'.next ≤ j → s'.pc j = .none
  le : (∀ j, s.next ≤ j → s.pc j = .none) → ∀ i m, held i m s'.pc s'.next ≤ held i m s.pc s.next
  pc : ∀ j, j < s.next → s'.pc j = s.pc j
  nx : s.next ≤ s'.next

theorem Drop.rfl' {s s' : St} (h1 : s'.calls = s.calls) (h2 : s'.pops = s.pops) (h3 : s'.pc = s.pc) (h4 : s'.next = s.next) :
    Drop s s' := by
  constructor <;> simp_all

theorem Drop.run (i : Nat) {s s1 : St} (D : Drop s s1) : Drop s (run i s1) where
  calls := D.calls
  pops := D.pops
  fr h j hj := by
    simp only [Channel.run] at hj ⊢
    have : j ≠ s1.next := by omega
    simp only [upd, this, ↓reduceIte]
    exact D.fr h j (by omega)
  le h i' m := by
    simp only [Channel.run]
    rw [held_new rfl]
    exact D.le h i' m
  pc j hj := by
    have := D.nx
    have : j ≠ s1.next := by omega
    simp only [Channel.run, upd, this, ↓reduceIte]
    exact D.pc j hj
  nx := by have := D.nx; simp only [Channel.run]; omega

theorem Drop.new {s s1 : St} (D : Drop s s1) {p : Pc} (h1 : s1.next = s.next) (hp : p.tocall = []) {s2 : St}
    (h3 : s2.calls = s1.calls) (h4 : s2.pops = s1.pops) (h5 : s2.pc = upd s1.pc s1.next p) (h6 : s2.next = s1.next + 1) : Drop s s2 where
  calls := h3.trans D.calls
  pops := h4.trans D.pops
  fr h j hj := by
    rw [h5]
    have : j ≠ s1.next := by omega
    simp only [upd, this, ↓reduceIte]
    exact D.fr h j (by omega)
  le h i' m := by
    rw [h5, h6, held_new hp]
    exact D.le h i' m
  pc j hj := by
    rw [h5]
    have : j ≠ s1.next := by omega
    simp only [upd, this, ↓reduceIte]
    exact D.pc j hj
  nx := by have := D.nx; omega

/-- The thread goes on and is not about to call the function more often. -/
theorem Once.goto {s s1 : St} (O : Once s) (D : Drop s s1) {j : Nat} (hj : s.pc j ≠ .none) {p : Pc}
    (hp : ∀ i m, p.holds i m ≤ (s.pc j).holds i m) : Once (goto j p s1) := by
  have hjn : j < s.next := by
    refine Classical.byContradiction fun h => hj (O.fr j (by omega))
  have hn := D.nx
  constructor
  · intro j' hj'
    simp only [Channel.goto] at hj' ⊢
    have : j' ≠ j := by omega
    simp only [upd, this, ↓reduceIte]
    exact D.fr O.fr j' hj'
  · intro i m
    simp only [Channel.goto, D.calls, D.pops]
    have h1 := held_goto (i := i) (m := m) (pc := s1.pc) (p := p) (show j < s1.next by omega)
    have h2 := D.le O.fr i m
    have h3 := O.le i m
    have h4 := hp i m
    rw [D.pc j hjn] at h1
    omega

theorem Once.drop {s s1 : St} (O : Once s) (D : Drop s s1) : Once s1 := by
  constructor
  · exact D.fr O.fr
  · intro i m
    rw [D.calls, D.pops]
    have h2 := D.le O.fr i m
    have h3 := O.le i m
    omega

theorem Drop.enqueue (i k : Nat) (m : Msg) (s : St) : Drop s (enqueue i k m s) := by
  unfold Channel.enqueue
  dsimp only
  split
  · exact Drop.run _ (Drop.rfl' rfl rfl rfl rfl)
  · exact Drop.rfl' rfl rfl rfl rfl

theorem Drop.cts (G : Net) (i : Nat) (c : Credit) {s s1 : St} (h1 : s1.calls = s.calls) (h2 : s1.pops = s.pops) (h3 : s1.pc = s.pc)
    (h4 : s1.next = s.next) : Drop s (ctsCrit G i c s1) := by
  unfold ctsCrit
  dsimp only
  split
  · split
    · exact Drop.run _ (Drop.rfl' h1 h2 h3 h4)
    · exact Drop.rfl' h1 h2 h3 h4
  · exact Drop.rfl' h1 h2 h3 h4

theorem holds_le {p p' : Pc} (h : p'.tocall = []) (i : Nat) (m : Args) : p'.holds i m ≤ p.holds i m := by
  simp [Pc.holds, h]

theorem holds_eq {p p' : Pc} (h1 : p'.of = p.of) (h2 : p'.tocall = p.tocall) (i : Nat) (m : Args) : p'.holds i m ≤ p.holds i m := by
  simp [Pc.holds, h1, h2]

theorem Once.pop {G : Net} {s : St} (O : Once s) {j i : Nat} (h : s.pc j = .pop i) : Once (popCrit G j i s) := by
  have hjn : j < s.next := by
    refine Classical.byContradiction fun h' => ?_
    have := O.fr j (by omega)
    rw [h] at this; cases this
  unfold popCrit
  split
  · exact O.goto (by exact Drop.rfl' rfl rfl rfl rfl) (by rw [h]; simp) (by exact holds_le rfl)
  · constructor
    · intro j' hj'
      simp only [Channel.goto] at hj' ⊢
      have : j' ≠ j := by omega
      simp only [upd, this, ↓reduceIte]
      exact O.fr j' hj'
    · intro i' m
      simp only [Channel.goto]
      have h1 := held_goto (i := i') (m := m) (pc := s.pc)
        (p := .cts1 i (ctsSlots (G.strat i) (G.slots i) (G.buf i) (popSlots (G.strat i) (G.slots i) (s.idx i) (s.q i)) (G.up i)
          (popQ (popSlots (G.strat i) (G.slots i) (s.idx i) (s.q i)) (s.q i)))
          (some (popMsg (popSlots (G.strat i) (G.slots i) (s.idx i) (s.q i)) (s.q i)))) hjn
      have h3 := O.le i' m
      rw [h] at h1
      by_cases hi : i' = i
      · subst hi
        simp only [Pc.holds, Pc.of, Pc.tocall, ↓reduceIte, List.count_nil] at h1
        simp only [upd, ↓reduceIte, List.count_append] at h1 ⊢
        omega
      · have : ¬i = i' := fun h => hi h.symm
        simp only [Pc.holds, Pc.of, Option.some.injEq, this, ↓reduceIte] at h1
        simp only [upd, hi, ↓reduceIte] at h1 ⊢
        omega

theorem Once.call {s : St} (O : Once s) {j i : Nat} {m : Args} (h : s.pc j = .call i m) :
    Once (Channel.goto j (.busy i) { s with calls := upd s.calls i (s.calls i ++ [m]) }) := by
  have hjn : j < s.next := by
    refine Classical.byContradiction fun h' => ?_
    have := O.fr j (by omega)
    rw [h] at this; cases this
  constructor
  · intro j' hj'
    simp only [Channel.goto] at hj' ⊢
    have : j' ≠ j := by omega
    simp only [upd, this, ↓reduceIte]
    exact O.fr j' hj'
  · intro i' m'
    simp only [Channel.goto]
    have h1 := held_goto (i := i') (m := m') (pc := s.pc) (p := .busy i) hjn
    have h3 := O.le i' m'
    rw [h] at h1
    by_cases hi : i' = i
    · subst hi
      simp only [Pc.holds, Pc.of, Pc.tocall, ↓reduceIte, List.count_nil] at h1
      simp only [upd, ↓reduceIte, List.count_append] at h1 ⊢
      omega
    · have : ¬i = i' := fun h => hi h.symm
      simp only [Pc.holds, Pc.of, Option.some.injEq, this, ↓reduceIte] at h1
      simp only [upd, hi, ↓reduceIte] at h1 ⊢
      omega

theorem Once.taskDone {G : Net} {s : St} (O : Once s) {j i : Nat} (h : s.pc j = .taskDone i) : Once (Channel.taskDone G j i s) := by
  unfold Channel.taskDone
  dsimp only
  split <;> split
  all_goals first
    | exact O.goto (j := j) (by exact Drop.rfl' rfl rfl rfl rfl) (by rw [h]; simp) (by exact holds_le rfl)
    | exact O.goto (j := j) (by exact Drop.run _ (Drop.rfl' rfl rfl rfl rfl)) (by rw [h]; simp) (by exact holds_le rfl)
    | skip
  · refine O.goto (j := j) (s1 := { Channel.run i { s with running := _, main := _ } with down := _, clr := _ }) ?_ (by rw [h]; simp) (by exact holds_le rfl)
    have := Drop.run i (s := s) (s1 := { s with running := upd s.running i (decide (isEmpty G s i = false ∨ s.closeQ i = true)), main := upd s.main i none })
      (Drop.rfl' rfl rfl rfl rfl)
    exact ⟨this.calls, this.pops, this.fr, this.le, this.pc, this.nx⟩

theorem Once.step {G : Net} {s s' : St} (O : Once s) {a : Act} (e : step G s a = some s') : Once s' := by
  cases a with
  | job j =>
    simp only [Channel.step, stepJob] at e
    split at e <;> (try (cases e; done))
    case h_2 h => cases e; exact O.pop h
    case h_3 h =>
      cases e
      split <;> exact O.goto (by exact Drop.rfl' rfl rfl rfl rfl) (by rw [h]; simp) (by exact holds_eq (by rw [h]; rfl) (by rw [h]; rfl))
    case h_4 h => cases e; exact O.goto (by exact Drop.rfl' rfl rfl rfl rfl) (by rw [h]; simp) (by exact holds_le rfl)
    case h_5 i k ks m h =>
      have hx : ∀ ks', (Pc.cts1 i ks' m).tocall = (s.pc j).tocall := by intro ks'; rw [h]; cases m <;> rfl
      have hy : ∀ ks', (Pc.cts2 i ks' m).tocall = (s.pc j).tocall := by intro ks'; rw [h]; cases m <;> rfl
      split at e <;> cases e
      · split
        · exact O.goto (by exact Drop.rfl' rfl rfl rfl rfl) (by rw [h]; simp) (by exact holds_eq (by rw [h]; rfl) (hx _))
        · exact O.goto (by exact Drop.rfl' rfl rfl rfl rfl) (by rw [h]; simp) (by exact holds_eq (by rw [h]; rfl) (hy _))
      · exact O.goto (by exact Drop.rfl' rfl rfl rfl rfl) (by rw [h]; simp) (by exact holds_eq (by rw [h]; rfl) (hx _))
    case h_6 i k ks m h =>
      have hx : ∀ ks', (Pc.cts1 i ks' m).tocall = (s.pc j).tocall := by intro ks'; rw [h]; cases m <;> rfl
      split at e <;> cases e
      · exact O.goto (by exact Drop.cts _ _ _ rfl rfl rfl rfl) (by rw [h]; simp) (by exact holds_eq (by rw [h]; rfl) (hx _))
      · exact O.goto (by exact Drop.rfl' rfl rfl rfl rfl) (by rw [h]; simp) (by exact holds_eq (by rw [h]; rfl) (hx _))
    case h_7 i m h =>
      have hx : ∀ ks', (Pc.cts1 i ks' m).tocall = (s.pc j).tocall := by intro ks'; rw [h]; cases m <;> rfl
      cases e
      exact O.goto (by exact Drop.rfl' rfl rfl rfl rfl) (by rw [h]; simp) (by exact holds_eq (by rw [h]; rfl) (hx _))
    case h_8 h => cases e; exact O.call h
    case h_10 h =>
      cases e
      split <;> exact O.goto (by exact Drop.rfl' rfl rfl rfl rfl) (by rw [h]; simp) (by exact holds_le rfl)
    case h_11 h => cases e; exact O.goto (by exact Drop.rfl' rfl rfl rfl rfl) (by rw [h]; simp) (by exact holds_le rfl)
    case h_12 h => cases e; exact O.goto (by exact Drop.rfl' rfl rfl rfl rfl) (by rw [h]; simp) (by exact holds_le rfl)
    case h_13 h => cases e; exact O.goto (by exact Drop.rfl' rfl rfl rfl rfl) (by rw [h]; simp) (by exact holds_le rfl)
    case h_14 h => cases e; exact O.goto (by exact Drop.enqueue _ _ _ _) (by rw [h]; simp) (by exact holds_le rfl)
    case h_15 h => cases e; exact O.goto (by exact Drop.rfl' rfl rfl rfl rfl) (by rw [h]; simp) (by exact holds_le rfl)
    case h_16 h =>
      cases e
      split <;> exact O.goto (by exact Drop.rfl' rfl rfl rfl rfl) (by rw [h]; simp) (by exact holds_le rfl)
    case h_17 h => cases e; exact O.goto (by exact Drop.cts _ _ _ rfl rfl rfl rfl) (by rw [h]; simp) (by exact holds_le rfl)
    case h_18 h => cases e; exact O.taskDone h
    case h_19 h => cases e; exact O.goto (by exact Drop.rfl' rfl rfl rfl rfl) (by rw [h]; simp) (by exact holds_le rfl)
    case h_20 h =>
      split at e <;> cases e <;> exact O.goto (by exact Drop.rfl' rfl rfl rfl rfl) (by rw [h]; simp) (by exact holds_le rfl)
    case h_21 h =>
      cases e
      split
      · exact O.goto (by exact Drop.run _ (Drop.rfl' rfl rfl rfl rfl)) (by rw [h]; simp) (by exact holds_le rfl)
      · exact O.goto (by exact Drop.rfl' rfl rfl rfl rfl) (by rw [h]; simp) (by exact holds_le rfl)
    case h_22 h =>
      cases e
      split
      · exact O.goto (by exact Drop.run _ (Drop.rfl' rfl rfl rfl rfl)) (by rw [h]; simp) (by exact holds_le rfl)
      · exact O.goto (by exact Drop.rfl' rfl rfl rfl rfl) (by rw [h]; simp) (by exact holds_le rfl)
  | ret j r =>
    simp only [Channel.step] at e
    split at e <;> cases e
    rename_i h
    exact O.goto (by exact Drop.rfl' rfl rfl rfl rfl) (by rw [h]; simp) (by exact holds_le rfl)
  | send i n m =>
    simp only [Channel.step] at e
    split at e <;> cases e
    exact O.drop (Drop.enqueue _ _ _ _)
  | copySender =>
    simp only [Channel.step] at e
    split at e <;> cases e
    exact O.drop (Drop.rfl' rfl rfl rfl rfl)
  | copyRecv =>
    simp only [Channel.step] at e
    split at e <;> cases e
    exact O.drop (Drop.rfl' rfl rfl rfl rfl)
  | dropSender i n =>
    simp only [Channel.step] at e
    split at e
    · split at e <;> cases e
      · exact O.drop (Drop.new (p := .close2 i []) (Drop.rfl' (s := s) rfl rfl rfl rfl) rfl rfl rfl rfl rfl rfl)
      · exact O.drop (Drop.rfl' rfl rfl rfl rfl)
    · cases e
  | dropRecv i =>
    simp only [Channel.step] at e
    split at e
    · split at e <;> cases e
      · exact O.drop (Drop.new (p := .ready2 i) (Drop.rfl' (s := s) rfl rfl rfl rfl) rfl rfl rfl rfl rfl rfl)
      · exact O.drop (Drop.rfl' rfl rfl rfl rfl)
    · cases e

theorem Once.init (G : Net) : Once (init G) := by
  constructor <;> intros <;> simp [Channel.init, held]

theorem Reachable.once {G : Net} {s : St} : Reachable G s → Once s := by
  rintro ⟨as, e⟩
  have H := Once.init G
  generalize Channel.init G = s0 at *
  induction as generalizing s0 with
  | nil => simp only [exec, Option.some.injEq] at e; exact e ▸ H
  | cons a as ih =>
    simp only [exec] at e
    cases h : Channel.step G s0 a with
    | none => simp [h] at e
    | some s1 => simp only [h, Option.bind_some] at e; exact ih _ e (H.step h)

end Verif.Channel
