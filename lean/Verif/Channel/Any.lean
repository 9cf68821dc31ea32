import Verif.Channel.Term

/-!
# Networks with any buffer sizes: nothing is left behind

As long as there is a sender for each process and no error to be handled, the threads of a network stop only when all that the
queues give out was handled, for all buffer sizes. With sizes other than 1 several threads may be in the same process, so that the invariant
of `Inv.lean` does not hold. This one does: what a process waits for (`owed`) is always on its way.
-/

namespace Verif.Channel

variable {G : Net} {s s' : St}

/-- Destroying senders. -/
def Pc.closing : Pc → Bool
  | .clear _ | .close2 _ _ => true
  | _ => false

structure Flow (G : Net) (s : St) : Prop where
  fr : ∀ j, s.next ≤ j → s.pc j = .none
  cq : ∀ i, s.closeQ i = false
  fi : ∀ i, s.final i = false
  dn : ∀ i, s.down i = G.down i
  sn : ∀ i, s.snd i = (s.sown i).length
  nc : ∀ j, (s.pc j).closing = false
  wk : ∀ i, s.running i = false → s.rcv i = 0 → isEmpty G s i = true ∨ ∃ j, (s.pc j).readies = some i
  rn : ∀ i, s.running i = true → (∃ j, (s.pc j).of = some i) ∨ 0 < s.susp i
  sl : ∀ i, s.susp i ≤ (s.owed i).length
  nd : ∀ i, (s.owed i).Nodup
  own : ∀ i, .own ∈ s.owed i → ∃ j, (s.pc j).of = some i ∧ (s.pc j).post = true
  ed : ∀ i d k, .edge d k ∈ s.owed i → (d, k) ∈ G.down i ∧
    (s.q d k ≠ [] ∨ (∃ j, (s.pc j).of = some d ∧ k ∈ (s.pc j).pend) ∨ ∃ j, (s.pc j).of = some i ∧ (d, k) ∈ (s.pc j).unsent)

theorem Flow.lt (F : Flow G s) {j : Nat} (h : s.pc j ≠ .none) : j < s.next :=
  Nat.lt_of_not_le fun h1 => h (F.fr j h1)

theorem Flow.init (W : G.Wf) : Flow G (init G) := by
  have I := Inv.init W
  constructor
  case wk =>
    intro i _ _
    have := I.wk i
    cases h : isEmpty G (Channel.init G) i with
    | true => exact .inl rfl
    | false =>
      rw [h] at this
      have := this (.inl rfl)
      simp_all [Channel.init]
  all_goals intros
  all_goals simp_all [Channel.init, Pc.closing, Pc.of, Pc.tocall, Pc.fresh, Pc.sending]

/-- Nothing is changed that the invariant speaks about. -/
theorem Flow.same (F : Flow G s) (h1 : s'.pc = s.pc) (h2 : s'.next = s.next) (h3 : s'.closeQ = s.closeQ) (h4 : s'.final = s.final)
    (h5 : s'.down = s.down) (h6 : s'.snd = s.snd) (h7 : s'.sown = s.sown) (h8 : s'.running = s.running) (h9 : s'.rcv = s.rcv)
    (h10 : s'.q = s.q) (h11 : s'.idx = s.idx) (h12 : s'.susp = s.susp) (h13 : s'.owed = s.owed) : Flow G s' := by
  have he : ∀ i, isEmpty G s' i = isEmpty G s i := by intro i; unfold isEmpty; rw [h10, h11]
  constructor
  all_goals
    obtain ⟨a, b, c, d, e, f, g, h, i, j, k, l⟩ := F
    simp_all

/-- A new thread. -/
theorem Flow.run (F : Flow G s) (i : Nat) : Flow G (run i s) := by
  have hn := F.fr s.next (Nat.le_refl _)
  have ex : ∀ {P : Pc → Prop}, ¬ P .none → (∃ j, P (s.pc j)) → ∃ j, P ((Channel.run i s).pc j) := by
    rintro P h0 ⟨j, hj⟩
    refine ⟨j, ?_⟩
    have : j ≠ s.next := by rintro rfl; rw [hn] at hj; exact h0 hj
    simpa [Channel.run, upd, this] using hj
  have he : ∀ i', isEmpty G (Channel.run i s) i' = isEmpty G s i' := fun _ => rfl
  constructor
  case fr =>
    intro j hj
    simp only [Channel.run] at hj ⊢
    simp only [upd]
    split
    · omega
    · exact F.fr j (by omega)
  case cq => exact F.cq
  case fi => exact F.fi
  case dn => exact F.dn
  case sn => exact F.sn
  case nc => intro j; simp only [Channel.run, upd]; split; rfl; exact F.nc j
  case wk =>
    intro i' h1 h2
    rw [he]
    exact (F.wk i' h1 h2).imp id (ex (P := fun p => p.readies = some i') (by simp [Pc.readies]))
  case rn => intro i' h1; exact (F.rn i' h1).imp (ex (P := fun p => p.of = some i') (by simp [Pc.of])) id
  case sl => exact F.sl
  case nd => exact F.nd
  case own => intro i' h; exact ex (P := fun p => p.of = some i' ∧ p.post = true) (by simp [Pc.of]) (F.own i' h)
  case ed =>
    intro i' d k h
    obtain ⟨h1, h2⟩ := F.ed i' d k h
    refine ⟨h1, h2.imp id (Or.imp (ex (P := fun p => p.of = some d ∧ k ∈ p.pend) (by simp [Pc.of]))
      (ex (P := fun p => p.of = some i' ∧ (d, k) ∈ p.unsent) (by simp [Pc.of])))⟩

/-- Thread `j` goes on. -/
theorem Flow.goto (F : Flow G s) {j : Nat} {p : Pc} (hj : s.pc j ≠ .none)
    (h1 : ∀ i, (s.pc j).of = some i → p.of = some i ∨ s.running i = false ∨ 0 < s.susp i ∨ ∃ x, x ≠ j ∧ (s.pc x).of = some i)
    (h2 : ∀ i, (s.pc j).of = some i → (s.pc j).post = true → (p.of = some i ∧ p.post = true) ∨ .own ∉ s.owed i)
    (h3 : ∀ i d k, (s.pc j).of = some d → k ∈ (s.pc j).pend → .edge d k ∈ s.owed i → (p.of = some d ∧ k ∈ p.pend))
    (h4 : ∀ i d k, (s.pc j).of = some i → (d, k) ∈ (s.pc j).unsent → (p.of = some i ∧ (d, k) ∈ p.unsent) ∨ s.q d k ≠ [])
    (h5 : ∀ i, (s.pc j).readies = some i → p.readies = some i ∨ s.running i = true ∨ isEmpty G s i = true)
    (h6 : p.closing = false) : Flow G (goto j p s) := by
  have hjn := F.lt hj
  have ex : ∀ {P : Pc → Prop}, (∃ x, P (s.pc x)) → (P (s.pc j) → P p) → ∃ x, P ((Channel.goto j p s).pc x) := by
    rintro P ⟨x, hx⟩ h
    refine ⟨x, ?_⟩
    simp only [Channel.goto, upd]
    split
    · rename_i e; subst e; exact h hx
    · exact hx
  have he : ∀ i', isEmpty G (Channel.goto j p s) i' = isEmpty G s i' := fun _ => rfl
  constructor
  case fr =>
    intro x hx
    simp only [Channel.goto] at hx ⊢
    simp only [upd]
    split
    · omega
    · exact F.fr x hx
  case cq => exact F.cq
  case fi => exact F.fi
  case dn => exact F.dn
  case sn => exact F.sn
  case nc => intro x; simp only [Channel.goto, upd]; split; exact h6; exact F.nc x
  case wk =>
    intro i a b
    rw [he]
    rcases F.wk i a b with h | ⟨x, hx⟩
    · exact .inl h
    · by_cases e : x = j
      · subst e
        rcases h5 i hx with h | h | h
        · exact .inr ⟨x, by simpa [Channel.goto, upd] using h⟩
        · rw [show s.running i = false from a] at h; cases h
        · exact .inl h
      · exact .inr ⟨x, by simpa [Channel.goto, upd, e] using hx⟩
  case rn =>
    intro i a
    rcases F.rn i a with ⟨x, hx⟩ | h
    · by_cases e : x = j
      · subst e
        rcases h1 i hx with h | h | h | ⟨y, hy, hyi⟩
        · exact .inl ⟨x, by simpa [Channel.goto, upd] using h⟩
        · rw [show s.running i = true from a] at h; cases h
        · exact .inr h
        · exact .inl ⟨y, by simpa [Channel.goto, upd, hy] using hyi⟩
      · exact .inl ⟨x, by simpa [Channel.goto, upd, e] using hx⟩
    · exact .inr h
  case sl => exact F.sl
  case nd => exact F.nd
  case own =>
    intro i h
    refine ex (P := fun p => p.of = some i ∧ p.post = true) (F.own i h) fun hx => ?_
    exact (h2 i hx.1 hx.2).resolve_right fun hn => hn h
  case ed =>
    intro i d k h
    obtain ⟨a, b⟩ := F.ed i d k h
    refine ⟨a, ?_⟩
    rcases b with b | b | ⟨x, b⟩
    · exact .inl b
    · exact .inr (.inl (ex (P := fun p => p.of = some d ∧ k ∈ p.pend) b fun hx => h3 i d k hx.1 hx.2 h))
    · by_cases e : x = j
      · subst e
        rcases h4 i d k b.1 b.2 with h' | h'
        · exact .inr (.inr ⟨x, by simpa [Channel.goto, upd] using h'⟩)
        · exact .inl h'
      · exact .inr (.inr ⟨x, by simpa [Channel.goto, upd, e] using b⟩)

/-- The same, where the thread was at `p0`. -/
theorem Flow.goto' (F : Flow G s) {j : Nat} {p0 p : Pc} (hp : s.pc j = p0) (hj : p0 ≠ .none)
    (h1 : ∀ i, p0.of = some i → p.of = some i ∨ s.running i = false ∨ 0 < s.susp i ∨ ∃ x, x ≠ j ∧ (s.pc x).of = some i)
    (h2 : ∀ i, p0.of = some i → p0.post = true → (p.of = some i ∧ p.post = true) ∨ .own ∉ s.owed i)
    (h3 : ∀ i d k, p0.of = some d → k ∈ p0.pend → .edge d k ∈ s.owed i → (p.of = some d ∧ k ∈ p.pend))
    (h4 : ∀ i d k, p0.of = some i → (d, k) ∈ p0.unsent → (p.of = some i ∧ (d, k) ∈ p.unsent) ∨ s.q d k ≠ [])
    (h5 : ∀ i, p0.readies = some i → p.readies = some i ∨ s.running i = true ∨ isEmpty G s i = true)
    (h6 : p.closing = false) : Flow G (Channel.goto j p s) := by
  subst hp
  exact F.goto hj h1 h2 h3 h4 h5 h6

/-- There is a thread, so the process may be marked as running. -/
theorem Flow.mark (F : Flow G s) {i : Nat} (h : ∃ j, (s.pc j).of = some i) : Flow G { s with running := upd s.running i true } := by
  obtain ⟨a, b, c, d, e, f, g, h', i', j, k', l⟩ := F
  refine ⟨a, b, c, d, e, f, ?_, ?_, i', j, k', l⟩
  · intro x h1 h2
    simp only [upd] at h1
    split at h1
    · cases h1
    · exact g x h1 h2
  · intro x h1
    simp only [upd] at h1
    split at h1
    · rename_i e; subst e; exact .inl h
    · exact h' x h1

theorem run_of (i : Nat) (s : St) : ∃ j, ((run i s).pc j).of = some i := ⟨s.next, by simp [run, upd, Pc.of]⟩

theorem Flow.start (F : Flow G s) (i : Nat) : Flow G (Channel.run i { s with running := upd s.running i true }) :=
  (F.run i).mark (run_of i s)

/-- A message arrives. -/
theorem Flow.append (F : Flow G s) {i k : Nat} {m : Msg} (hr : s.rcv i = 0 → s.running i = true) : Flow G { s with
    q := upd s.q i (upd (s.q i) k (s.q i k ++ [m])), inp := upd s.inp i (upd (s.inp i) k (s.inp i k ++ [m])) } := by
  obtain ⟨a, b, c, d, e, f, g, h, i', j, k', l⟩ := F
  refine ⟨a, b, c, d, e, f, ?_, h, i', j, k', ?_⟩
  · intro x h1 h2
    by_cases hx : x = i
    · subst hx
      rw [show s.running x = false from h1] at hr
      cases hr h2
    · have := g x h1 h2
      simpa [isEmpty, upd, hx] using this
  · intro x d' k'' hx
    refine ⟨(l x d' k'' hx).1, (l x d' k'' hx).2.imp ?_ id⟩
    simp only [upd]
    intro hq
    split
    · rename_i e; subst e
      by_cases e2 : k'' = k
      · simp [e2, upd]
      · simpa [e2, upd] using hq
    · exact hq

theorem Flow.enqueue (F : Flow G s) {i k : Nat} {m : Msg} : Flow G (enqueue i k m s) := by
  unfold Channel.enqueue
  dsimp only
  split
  · exact (F.start i).append fun _ => by simp [Channel.run, upd]
  · rename_i hc
    refine F.append fun h0 => ?_
    cases hb : s.running i with
    | true => rfl
    | false => exact absurd ⟨h0, hb⟩ hc

theorem Flow.credit (F : Flow G s) {i : Nat} {c : Credit} {r : Nat → Bool} (hr1 : ∀ x, x ≠ i → r x = s.running x)
    (hr2 : r i = false → isEmpty G s i = true ∨ s.running i = false) (hr3 : r i = true → (∃ j, (s.pc j).of = some i) ∨ 0 < s.susp i - 1) :
    Flow G { s with susp := upd s.susp i (s.susp i - 1), owed := upd s.owed i ((s.owed i).erase c), running := r } := by
  have hmem : ∀ x c', c' ∈ upd s.owed i ((s.owed i).erase c) x → c' ∈ s.owed x := by
    intro x c' h
    simp only [upd] at h
    split at h
    · rename_i e; subst e; exact List.mem_of_mem_erase h
    · exact h
  obtain ⟨a, b, c', d, e, f, g, h', i', j, k', l⟩ := F
  refine ⟨a, b, c', d, e, f, ?_, ?_, ?_, ?_, ?_, ?_⟩
  · intro x (h1 : r x = false) h2
    by_cases hx : x = i
    · subst hx
      rcases hr2 h1 with h | h
      · exact .inl h
      · exact g x h h2
    · rw [hr1 x hx] at h1; exact g x h1 h2
  · intro x (h1 : r x = true)
    by_cases hx : x = i
    · subst hx; simpa [upd] using hr3 h1
    · rw [hr1 x hx] at h1
      simpa [upd, hx] using h' x h1
  · intro x
    have := i' x
    simp only [upd]
    split
    · rename_i e; subst e
      by_cases hx : c ∈ s.owed x
      · rw [List.length_erase_of_mem hx]; omega
      · rw [List.erase_of_not_mem hx]; omega
    · exact this
  · intro x
    simp only [upd]
    split
    · rename_i e; subst e; exact (j x).erase c
    · exact j x
  · intro x h; exact k' x (hmem x _ h)
  · intro x d k h; exact l x d k (hmem x _ h)

/-- `clear_to_send`: the process runs on, or is not marked as running, or waits for more. -/
theorem Flow.cts (F : Flow G s) (i : Nat) (c : Credit) : Flow G (ctsCrit G i c s) ∧ (∀ x, c ∈ (ctsCrit G i c s).owed x → x ≠ i) ∧
    (∀ x c', c' ∈ (ctsCrit G i c s).owed x → c' ∈ s.owed x) ∧
    ((ctsCrit G i c s).running i = false ∨ 0 < (ctsCrit G i c s).susp i ∨ (ctsCrit G i c s).pc s.next = .pop i) := by
  have hmem : ∀ x c', c' ∈ upd s.owed i ((s.owed i).erase c) x → c' ∈ s.owed x := by
    intro x c' h
    simp only [upd] at h
    split at h
    · rename_i e; subst e; exact List.mem_of_mem_erase h
    · exact h
  have hc : ∀ x, c ∈ upd s.owed i ((s.owed i).erase c) x → x ≠ i := by
    rintro x h rfl
    simp only [upd, if_true] at h
    exact (List.Nodup.not_mem_erase (F.nd x)) h
  unfold ctsCrit
  dsimp only
  split
  · rename_i h0
    simp only [upd, if_true] at h0
    split
    · rename_i hr
      refine ⟨?_, hc, hmem, .inr (.inr (by simp [Channel.run, upd]))⟩
      exact (F.run i).credit (r := s.running) (fun _ _ => rfl) .inr fun _ => .inl (run_of i s)
    · rename_i hr
      refine ⟨?_, hc, hmem, .inl (by simp [upd])⟩
      refine F.credit (r := upd s.running i false) (fun x hx => by simp [upd, hx]) (fun _ => .inl ?_) (fun h => by simp [upd] at h)
      cases he : isEmpty G s i with
      | true => rfl
      | false => exact absurd (.inl he) hr
  · rename_i h0
    simp only [upd, if_true] at h0
    refine ⟨?_, hc, hmem, .inr (.inl (by simp only [upd, if_true]; omega))⟩
    exact F.credit (r := s.running) (fun _ _ => rfl) .inr fun _ => .inr (by omega)

/-- The messages taken out of the queue. -/
theorem Flow.pop (F : Flow G s) (W : G.Wf) (H : Hist G s) {j i : Nat} (hj : s.pc j = .pop i) : Flow G (popCrit G j i s) := by
  have hjn := F.lt (j := j) (by rw [hj]; simp)
  unfold popCrit
  split
  · rename_i he
    refine Flow.goto (s := { s with closeQ := upd s.closeQ i false, final := upd s.final i (s.closeQ i) }) ?_ (by simp [hj]) ?_ ?_ ?_ ?_ ?_ rfl
    · have h1 : upd s.closeQ i false = s.closeQ := by funext x; simp only [upd]; split <;> simp [F.cq]
      have h2 : upd s.final i (s.closeQ i) = s.final := by funext x; simp only [upd]; split <;> simp [F.cq, F.fi]
      rw [h1, h2]; exact F
    all_goals simp [hj, Pc.of, Pc.post, Pc.pend, Pc.unsent, Pc.readies, Pc.tocall, Pc.fresh, Pc.sending]
  · rename_i he
    have he : emptyQ (G.strat i) (G.slots i) (s.idx i) (s.q i) = false := by simpa [isEmpty] using he
    obtain ⟨nd, hk, -⟩ := popSlots_spec (W.dflt i) (fun h => by rw [H.idx i h]; exact Nat.mod_lt _ (W.slots i)) he
    dsimp only
    generalize popSlots (G.strat i) (G.slots i) (s.idx i) (s.q i) = ks at *
    have hq : ∀ x k, upd s.q i (popQ ks (s.q i)) x k = if x = i ∧ k ∈ ks then (s.q x k).tail else s.q x k := by
      intro x k
      simp only [upd]
      by_cases hx : x = i
      · subst hx; simp [popQ]
      · simp [hx]
    have hpend : ∀ k, k ∈ ks → popQ ks (s.q i) k = [] → G.up i k ≠ none →
        k ∈ ctsSlots (G.strat i) (G.slots i) (G.buf i) ks (G.up i) (popQ ks (s.q i)) := by
      intro k h1 h2 h3
      simp only [ctsSlots, List.mem_filter, List.mem_range, decide_eq_true_eq]
      refine ⟨(hk k h1).1, ?_, h3⟩
      rw [if_pos (.inr (.inr h1)), h2]
      exact Nat.zero_le _
    obtain ⟨a, b, c, d, e, f, g, h', i', jj, k', l⟩ := F
    refine ⟨?_, b, c, d, e, ?_, ?_, ?_, i', jj, ?_, ?_⟩
    · intro x hx
      have : x ≠ j := by
        rintro rfl
        simp only [Channel.goto] at hx
        omega
      simpa [Channel.goto, upd, this] using a x hx
    · intro x
      simp only [Channel.goto, upd]
      split
      · rfl
      · exact f x
    · intro x h1 h2
      have h3 := g x h1 h2
      by_cases hx : x = i
      · subst hx
        right
        rcases h3 with h3 | ⟨y, hy⟩
        · rw [isEmpty, he] at h3; cases h3
        · refine ⟨y, ?_⟩
          have : y ≠ j := by rintro rfl; rw [hj] at hy; cases hy
          simpa [Channel.goto, upd, this] using hy
      · refine h3.imp (fun h => by simpa [Channel.goto, isEmpty, upd, hx] using h) ?_
        rintro ⟨y, hy⟩
        refine ⟨y, ?_⟩
        have : y ≠ j := by rintro rfl; rw [hj] at hy; cases hy
        simpa [Channel.goto, upd, this] using hy
    · intro x h1
      refine (h' x h1).imp ?_ id
      rintro ⟨y, hy⟩
      refine ⟨y, ?_⟩
      simp only [Channel.goto, upd]
      split
      · rename_i e; subst e; rw [hj] at hy; exact hy
      · exact hy
    · intro x h1
      obtain ⟨y, hy⟩ := k' x h1
      refine ⟨y, ?_⟩
      have : y ≠ j := by rintro rfl; rw [hj] at hy; cases hy.2
      simpa [Channel.goto, upd, this] using hy
    · intro x dd k h1
      obtain ⟨h2, h3⟩ := l x dd k h1
      refine ⟨h2, ?_⟩
      rcases h3 with h3 | ⟨y, hy⟩ | ⟨y, hy⟩
      · simp only [Channel.goto]
        by_cases hz : upd s.q i (popQ ks (s.q i)) dd k = []
        · right; left
          rw [hq] at hz
          split at hz
          · rename_i hc
            obtain ⟨rfl, hc⟩ := hc
            refine ⟨j, ?_⟩
            simp only [upd, if_true, Pc.of, Pc.pend, true_and]
            refine hpend k hc ?_ ?_
            · simpa [popQ, hc] using hz
            · rw [((W.edges x dd k).1 h2).1]; simp
          · exact absurd hz h3
        · exact .inl hz
      · right; left
        refine ⟨y, ?_⟩
        have : y ≠ j := by rintro rfl; rw [hj] at hy; cases hy.2
        simpa [Channel.goto, upd, this] using hy
      · right; right
        refine ⟨y, ?_⟩
        have : y ≠ j := by rintro rfl; rw [hj] at hy; cases hy.2
        simpa [Channel.goto, upd, this] using hy

/-- The suspend count is set. -/
theorem Flow.suspend (F : Flow G s) (W : G.Wf) {j i : Nat} {r : Msg} {b : Bool} (hj : s.pc j = .send i r (s.down i)) : Flow G { s with
    susp := upd s.susp i (if b then (s.down i).length + 1 else 1)
    owed := upd s.owed i (.own :: if b then (s.down i).map fun e => .edge e.1 e.2 else []) } := by
  obtain ⟨a, b', c, d, e, f, g, h', i', jj, k', l⟩ := F
  refine ⟨a, b', c, d, e, f, g, ?_, ?_, ?_, ?_, ?_⟩
  · intro x hx
    by_cases hi : x = i
    · subst hi; exact .inl ⟨j, by rw [hj]; rfl⟩
    · simpa [upd, hi] using h' x hx
  · intro x
    by_cases hi : x = i
    · subst hi; cases b <;> simp [upd]
    · simpa [upd, hi] using i' x
  · intro x
    by_cases hi : x = i
    · subst hi
      cases b
      · simp [upd]
      · simp only [upd, if_true, d]
        refine List.nodup_cons.2 ⟨by simp, ?_⟩
        refine List.Pairwise.map _ ?_ (W.nodup x)
        intro p q hpq h
        simp only [Credit.edge.injEq] at h
        exact hpq (Prod.ext h.1 h.2)
    · simpa [upd, hi] using jj x
  · intro x hx
    by_cases hi : x = i
    · subst hi; exact ⟨j, by rw [hj]; exact ⟨rfl, rfl⟩⟩
    · exact k' x (by simpa [upd, hi] using hx)
  · intro x dd k hx
    by_cases hi : x = i
    · subst hi
      cases b
      · simp [upd] at hx
      · have : (dd, k) ∈ s.down x := by
          simp only [upd, if_true, d, List.mem_cons, reduceCtorEq, List.mem_map, Credit.edge.injEq, false_or, Prod.exists] at hx
          obtain ⟨p, q, h, rfl, rfl⟩ := hx
          rw [d]; exact h
        refine ⟨by rw [← d]; exact this, .inr (.inr ⟨j, by rw [hj]; exact ⟨rfl, this⟩⟩)⟩
    · exact l x dd k (by simpa [upd, hi] using hx)

/-- The senders change, and one is left. -/
theorem Flow.senders (F : Flow G s) {i : Nat} {n : Nat} {l : List SOwner} (h : n = l.length) :
    Flow G { s with snd := upd s.snd i n, sown := upd s.sown i l } := by
  obtain ⟨a, b, c, d, e, f, g, h', i', j, k', l'⟩ := F
  refine ⟨a, b, c, d, ?_, f, g, h', i', j, k', l'⟩
  intro x
  by_cases hx : x = i
  · subst hx; simp [upd, h]
  · simp [upd, hx, e]

/-- The receivers change. -/
theorem Flow.receivers (F : Flow G s) {i n : Nat} (h : n = 0 → s.rcv i = 0 ∨ ∃ j, (s.pc j).readies = some i) :
    Flow G { s with rcv := upd s.rcv i n } := by
  obtain ⟨a, b, c, d, e, f, g, h', i', j, k', l'⟩ := F
  refine ⟨a, b, c, d, e, f, ?_, h', i', j, k', l'⟩
  intro x h1 h2
  by_cases hx : x = i
  · subst hx
    simp only [upd, if_true] at h2
    rcases h h2 with h | h
    · exact g x h1 h
    · exact .inr h
  · exact g x h1 (by simpa [upd, hx] using h2)

/-- A new thread in `remove_receiver`. -/
theorem Flow.rdy (F : Flow G s) (i : Nat) {r : Nat → Option Nat} :
    Flow G { s with pc := upd s.pc s.next (.ready2 i), rdyJob := r, next := s.next + 1 } := by
  have h := F.run i
  have h1 : Flow G { s with pc := upd s.pc s.next (.pop i), rdyJob := r, next := s.next + 1 } := h.same rfl rfl rfl rfl rfl rfl rfl rfl rfl rfl rfl rfl rfl
  have hn := F.fr s.next (Nat.le_refl _)
  have ex : ∀ {P : Pc → Prop}, ¬ P .none → (∃ j, P (s.pc j)) → ∃ j, P (upd s.pc s.next (.ready2 i) j) := by
    rintro P h0 ⟨j, hj⟩
    refine ⟨j, ?_⟩
    have : j ≠ s.next := by rintro rfl; rw [hn] at hj; exact h0 hj
    simpa [upd, this] using hj
  constructor
  case fr =>
    intro j hj
    dsimp only at hj ⊢
    simp only [upd]
    split
    · omega
    · exact F.fr j (by omega)
  case cq => exact F.cq
  case fi => exact F.fi
  case dn => exact F.dn
  case sn => exact F.sn
  case nc => intro j; simp only [upd]; split; rfl; exact F.nc j
  case wk =>
    intro i' h1 h2
    exact (F.wk i' h1 h2).imp id (ex (P := fun p => p.readies = some i') (by simp [Pc.readies]))
  case rn => intro i' h1; exact (F.rn i' h1).imp (ex (P := fun p => p.of = some i') (by simp [Pc.of])) id
  case sl => exact F.sl
  case nd => exact F.nd
  case own => intro i' h; exact ex (P := fun p => p.of = some i' ∧ p.post = true) (by simp [Pc.of]) (F.own i' h)
  case ed =>
    intro i' d k h
    obtain ⟨h1, h2⟩ := F.ed i' d k h
    refine ⟨h1, h2.imp id (Or.imp (ex (P := fun p => p.of = some d ∧ k ∈ p.pend) (by simp [Pc.of]))
      (ex (P := fun p => p.of = some i' ∧ (d, k) ∈ p.unsent) (by simp [Pc.of])))⟩

/-- `task_done`. -/
theorem Flow.done (F : Flow G s) {j i : Nat} (hj : s.pc j = .taskDone i) : Flow G (Channel.taskDone G j i s) := by
  have hjn := F.lt (j := j) (by rw [hj]; simp)
  unfold Channel.taskDone
  dsimp only
  split
  · rename_i hr
    rw [if_neg (by simp [Channel.run, F.fi])]
    have h1 : Flow G (Channel.run i { s with running := upd s.running i (decide (isEmpty G s i = false ∨ s.closeQ i = true)), main := upd s.main i none }) := by
      have := F.start i
      refine this.same rfl rfl rfl rfl rfl rfl rfl ?_ rfl rfl rfl rfl rfl
      simp only [Channel.run, hr, decide_true]
    refine h1.goto' (j := j) (p0 := .taskDone i) (by rw [run_pc (by exact hjn)]; exact hj) (by simp) ?_ ?_ ?_ ?_ ?_ rfl
    · rintro i' h
      cases h
      refine .inr (.inr (.inr ⟨s.next, by omega, by simp [Channel.run, upd, Pc.of]⟩))
    all_goals simp [Pc.post, Pc.pend, Pc.unsent, Pc.readies, Pc.tocall, Pc.of]
  · rename_i hr
    rw [if_neg (by simp [F.fi])]
    have he : isEmpty G s i = true := by
      cases h : isEmpty G s i with
      | true => rfl
      | false => exact absurd (.inl h) hr
    have h1 : Flow G { s with running := upd s.running i (decide (isEmpty G s i = false ∨ s.closeQ i = true)), main := upd s.main i none } := by
      have hd : decide (isEmpty G s i = false ∨ s.closeQ i = true) = false := by simpa using hr
      rw [hd]
      obtain ⟨a, b, c, d, e, f, g, h', i', j, k', l'⟩ := F
      refine ⟨a, b, c, d, e, f, ?_, ?_, i', j, k', l'⟩
      · intro x h1 h2
        by_cases hx : x = i
        · subst hx; exact .inl he
        · exact g x (by simpa [upd, hx] using h1) h2
      · intro x h1
        by_cases hx : x = i
        · subst hx; simp [upd] at h1
        · exact h' x (by simpa [upd, hx] using h1)
    refine h1.goto' (j := j) hj (by simp) ?_ ?_ ?_ ?_ ?_ rfl
    · rintro i' h
      cases h
      refine .inr (.inl ?_)
      have hd : decide (isEmpty G s i = false ∨ s.closeQ i = true) = false := by simpa using hr
      simp [upd, hd]
    all_goals simp [Pc.post, Pc.pend, Pc.unsent, Pc.readies, Pc.tocall, Pc.of]

/-- The last receiver is ready. -/
theorem Flow.ready (F : Flow G s) {j i : Nat} (hj : s.pc j = .ready2 i) (h : Channel.step G s (.job j) = some s') : Flow G s' := by
  have hjn := F.lt (j := j) (by rw [hj]; simp)
  simp only [Channel.step, stepJob, hj, Option.some.injEq] at h
  subst h
  split
  · rename_i hr
    have h1 : Flow G (Channel.run i { s with running := upd s.running i (s.running i || decide ((isEmpty G s i = false ∨ s.closeQ i = true) ∧ s.running i = false)), rdyJob := upd s.rdyJob i none }) := by
      have := F.start i
      refine this.same rfl rfl rfl rfl rfl rfl rfl ?_ rfl rfl rfl rfl rfl
      simp only [Channel.run]
      rw [decide_eq_true hr, Bool.or_true]
    refine h1.goto' (j := j) (p0 := .ready2 i) (by rw [run_pc (by exact hjn)]; exact hj) (by simp) ?_ ?_ ?_ ?_ ?_ rfl
    case refine_5 =>
      intro i' hi
      cases hi
      right; left
      simp only [Channel.run, upd, if_true]
      rw [decide_eq_true hr, Bool.or_true]
    all_goals simp [Pc.post, Pc.pend, Pc.unsent, Pc.readies, Pc.tocall, Pc.of]
  · rename_i hr
    have h1 : Flow G { s with running := upd s.running i (s.running i || decide ((isEmpty G s i = false ∨ s.closeQ i = true) ∧ s.running i = false)), rdyJob := upd s.rdyJob i none } := by
      refine F.same rfl rfl rfl rfl rfl rfl rfl ?_ rfl rfl rfl rfl rfl
      funext x
      simp only [upd]
      split
      · rename_i e; subst e; rw [decide_eq_false hr, Bool.or_false]
      · rfl
    refine h1.goto' (j := j) hj (by simp) ?_ ?_ ?_ ?_ ?_ rfl
    case refine_5 =>
      intro i' hi
      cases hi
      right
      cases h : s.running i with
      | true => left; simp [upd]
      | false =>
        right
        cases h' : isEmpty G s i with
        | true => exact h'
        | false => exact absurd ⟨.inl h', h⟩ hr
    all_goals simp [Pc.post, Pc.pend, Pc.unsent, Pc.readies, Pc.tocall, Pc.of]

/-- Each step keeps the invariant, as long as there is a sender for each process afterwards. -/
theorem Flow.step (F : Flow G s) (W : G.Wf) (H : Hist G s) {a : Act} (h : Channel.step G s a = some s')
    (hs : ∀ i, s'.sown i ≠ []) : Flow G s' := by
  have same : ∀ {s' : St}, s'.pc = s.pc → s'.next = s.next → s'.closeQ = s.closeQ → s'.final = s.final → s'.down = s.down → s'.snd = s.snd →
      s'.sown = s.sown → s'.running = s.running → s'.rcv = s.rcv → s'.q = s.q → s'.idx = s.idx → s'.susp = s.susp → s'.owed = s.owed →
      Flow G s' := fun h1 h2 h3 h4 h5 h6 h7 h8 h9 h10 h11 h12 h13 => F.same h1 h2 h3 h4 h5 h6 h7 h8 h9 h10 h11 h12 h13
  cases a with
  | job j =>
    have h0 := h
    simp only [Channel.step, stepJob] at h
    split at h
    · cases h
    · rename_i i hp; cases h; exact F.pop W H hp
    · rename_i i m hp
      cases h
      split <;> refine F.goto' hp (by simp) ?_ ?_ ?_ ?_ ?_ rfl
      all_goals simp [Pc.post, Pc.pend, Pc.unsent, Pc.readies, Pc.of, Pc.fresh, Pc.sending]
    · rename_i i hp
      cases h
      refine F.goto' hp (by simp) ?_ ?_ ?_ ?_ ?_ rfl
      all_goals simp [Pc.post, Pc.pend, Pc.unsent, Pc.readies, Pc.of]
    · rename_i i k ks m hp
      split at h
      · rename_i u hu
        cases h
        rw [F.fi, if_neg (by simp)]
        refine F.goto' hp (by simp) ?_ ?_ ?_ ?_ ?_ rfl
        case refine_3 => intro _ _ _ h1 h2 _; exact ⟨h1, h2⟩
        all_goals simp [Pc.post, Pc.unsent, Pc.readies, Pc.of, Pc.fresh, Pc.sending]
      · rename_i hu
        cases h
        refine F.goto' hp (by simp) ?_ ?_ ?_ ?_ ?_ rfl
        case refine_3 =>
          intro x d k' hd hk' ho
          cases hd
          refine ⟨rfl, ?_⟩
          simp only [Pc.pend, List.mem_cons] at hk' ⊢
          rcases hk' with rfl | hk'
          · have := ((W.edges _ _ _).1 (F.ed x i k' ho).1).1
            rw [hu] at this; cases this
          · exact hk'
        all_goals simp [Pc.post, Pc.unsent, Pc.readies, Pc.of, Pc.fresh, Pc.sending]
    · rename_i i k ks m hp
      have hjn := F.lt (j := j) (by rw [hp]; simp)
      split at h
      · rename_i u hu
        cases h
        obtain ⟨F1, hc, -, -⟩ := F.cts u (.edge i k)
        refine F1.goto' ((ctsCrit_pc hjn).trans hp) (by simp) ?_ ?_ ?_ ?_ ?_ rfl
        case refine_3 =>
          intro x d k' hd hk' ho
          cases hd
          refine ⟨rfl, ?_⟩
          simp only [Pc.pend, List.mem_cons] at hk' ⊢
          rcases hk' with rfl | hk'
          · have := ((W.edges _ _ _).1 (F1.ed x i k' ho).1).1
            rw [hu] at this
            exact absurd (Option.some.inj this).symm (hc x ho)
          · exact hk'
        all_goals simp [Pc.post, Pc.unsent, Pc.readies, Pc.of, Pc.fresh, Pc.sending]
      · rename_i hu
        cases h
        refine F.goto' hp (by simp) ?_ ?_ ?_ ?_ ?_ rfl
        case refine_3 =>
          intro x d k' hd hk' ho
          cases hd
          refine ⟨rfl, ?_⟩
          simp only [Pc.pend, List.mem_cons] at hk' ⊢
          rcases hk' with rfl | hk'
          · have := ((W.edges _ _ _).1 (F.ed x i k' ho).1).1
            rw [hu] at this; cases this
          · exact hk'
        all_goals simp [Pc.post, Pc.unsent, Pc.readies, Pc.of, Pc.fresh, Pc.sending]
    · rename_i i m hp
      cases h
      refine F.goto' hp (by simp) ?_ ?_ ?_ ?_ ?_ rfl
      all_goals simp [Pc.post, Pc.pend, Pc.unsent, Pc.readies, Pc.of, Pc.fresh, Pc.sending]
    · rename_i i m hp
      cases h
      refine Flow.goto' (s := { s with calls := upd s.calls i (s.calls i ++ [m]) }) (same rfl rfl rfl rfl rfl rfl rfl rfl rfl rfl rfl rfl rfl)
        hp (by simp) ?_ ?_ ?_ ?_ ?_ rfl
      all_goals simp [Pc.post, Pc.pend, Pc.unsent, Pc.readies, Pc.of]
    · cases h
    · rename_i i r hp
      cases h
      split
      all_goals
        refine F.goto' hp (by simp) ?_ ?_ ?_ ?_ ?_ rfl
        all_goals simp [Pc.post, Pc.pend, Pc.unsent, Pc.readies, Pc.of, Pc.tocall]
    · rename_i i r acc hp
      cases h
      refine F.goto' hp (by simp) ?_ ?_ ?_ ?_ ?_ rfl
      all_goals simp [Pc.post, Pc.pend, Pc.unsent, Pc.readies, Pc.of, Pc.tocall]
    · rename_i i r e es acc hp
      cases h
      refine F.goto' hp (by simp) ?_ ?_ ?_ ?_ ?_ rfl
      all_goals simp [Pc.post, Pc.pend, Pc.unsent, Pc.readies, Pc.of, Pc.tocall]
    · rename_i i r b hp
      cases h
      have F1 : Flow G (Channel.goto j (.send i r (s.down i)) s) := by
        refine F.goto' hp (by simp) ?_ ?_ ?_ ?_ ?_ rfl
        all_goals simp [Pc.post, Pc.pend, Pc.unsent, Pc.readies, Pc.of, Pc.tocall]
      exact F1.suspend W (j := j) (i := i) (r := r) (b := b) (goto_pc _ _ _)
    · rename_i i r e es hp
      have hjn := F.lt (j := j) (by rw [hp]; simp)
      cases h
      refine (F.enqueue (i := e.1) (k := e.2) (m := r)).goto' ((enqueue_pc hjn).trans hp) (by simp) ?_ ?_ ?_ ?_ ?_ rfl
      case refine_4 =>
        intro x d k hx hd
        cases hx
        simp only [Pc.unsent, List.mem_cons] at hd ⊢
        rcases hd with rfl | hd
        · right
          have : (Channel.enqueue d k r s).q d k = s.q d k ++ [r] := by
            unfold Channel.enqueue
            dsimp only
            split <;> simp [Channel.run, upd]
          rw [this]
          simp
        · exact .inl ⟨rfl, hd⟩
      all_goals simp [Pc.post, Pc.pend, Pc.readies, Pc.of, Pc.tocall]
    · rename_i i r hp
      cases h
      refine F.goto' hp (by simp) ?_ ?_ ?_ ?_ ?_ rfl
      all_goals simp [Pc.post, Pc.pend, Pc.unsent, Pc.readies, Pc.of]
    · rename_i i hp
      cases h
      rw [F.fi, if_neg (by simp)]
      refine F.goto' hp (by simp) ?_ ?_ ?_ ?_ ?_ rfl
      all_goals simp [Pc.post, Pc.pend, Pc.unsent, Pc.readies, Pc.of]
    · rename_i i hp
      have hjn := F.lt (j := j) (by rw [hp]; simp)
      cases h
      have F0 : Flow G { s with main := upd s.main i none } := same rfl rfl rfl rfl rfl rfl rfl rfl rfl rfl rfl rfl rfl
      obtain ⟨F1, hc, -, hr⟩ := F0.cts i .own
      refine F1.goto' ((ctsCrit_pc (s := { s with main := upd s.main i none }) hjn).trans hp) (by simp) ?_ ?_ ?_ ?_ ?_ rfl
      case refine_1 =>
        intro x hx
        cases hx
        rcases hr with hr | hr | hr
        · exact .inr (.inl hr)
        · exact .inr (.inr (.inl hr))
        · exact .inr (.inr (.inr ⟨s.next, by omega, by rw [hr]; rfl⟩))
      case refine_2 =>
        intro x hx _
        cases hx
        exact .inr fun h => hc i h rfl
      all_goals simp [Pc.pend, Pc.unsent, Pc.readies, Pc.of]
    · rename_i i hp; cases h; exact F.done hp
    · rename_i hp; have := F.nc j; rw [hp] at this; cases this
    · rename_i hp; have := F.nc j; rw [hp] at this; cases this
    · rename_i hp; have := F.nc j; rw [hp] at this; cases this
    · rename_i i hp; exact F.ready hp h0
    · cases h
  | ret j r =>
    simp only [Channel.step] at h
    split at h
    · rename_i i hp
      cases h
      refine Flow.goto' (s := { s with outs := upd s.outs i (s.outs i ++ [r]) }) (same rfl rfl rfl rfl rfl rfl rfl rfl rfl rfl rfl rfl rfl)
        hp (by simp) ?_ ?_ ?_ ?_ ?_ rfl
      all_goals simp [Pc.post, Pc.pend, Pc.unsent, Pc.readies, Pc.of, Pc.tocall]
    · cases h
  | send i n m =>
    simp only [Channel.step] at h
    split at h
    · cases h
      exact F.enqueue
    · cases h
  | copySender i n n' =>
    simp only [Channel.step] at h
    split at h
    · cases h; exact F.senders (by simp [F.sn])
    · cases h
  | dropSender i n =>
    simp only [Channel.step] at h
    split at h
    · rename_i hm
      have hl : s.snd i - 1 = ((s.sown i).erase (.ext n)).length := by rw [F.sn, List.length_erase_of_mem hm]
      split at h
      · rename_i h0
        cases h
        have := hs i
        simp only [upd, if_true] at h0 this
        rw [hl] at h0
        exact absurd (List.eq_nil_of_length_eq_zero h0) this
      · cases h; exact F.senders hl
    · cases h
  | copyRecv i =>
    simp only [Channel.step] at h
    split at h
    · cases h; exact F.receivers (by omega)
    · cases h
  | dropRecv i =>
    simp only [Channel.step] at h
    split at h
    · split at h
      · cases h
        exact (F.rdy i).receivers fun _ => .inr ⟨s.next, by simp [upd, Pc.readies]⟩
      · rename_i h0
        cases h
        refine F.receivers fun h => absurd h ?_
        simpa [upd] using h0
    · cases h

/-! ## The accounts -/

/-- The thread is in the function of process `i`. -/
def Pc.within (i : Nat) (p : Pc) : Nat := if p.of = some i then p.inside else 0

/-- How often the thread has still to send `r`, as a result of process `i`, to slot `k` of `d`. -/
def Pc.tosend (i d k : Nat) (r : Msg) (p : Pc) : Nat :=
  if p.of = some i then p.fresh.count r + p.unsent.count (d, k) * p.sending.count r else 0

structure Ledger (G : Net) (s : St) : Prop where
  un : ∀ j i, (s.pc j).of = some i → ∀ e ∈ (s.pc j).unsent, e ∈ G.down i
  xt : ∀ i n, .ext n ∈ s.sown i → G.up i 0 = none
  ca : ∀ i m, (s.pops i).count m = (s.calls i).count m + jsum (Pc.holds i m) s
  cb : ∀ i, (s.calls i).length = (s.outs i).length + jsum (Pc.within i) s
  cc : ∀ i d k r, (d, k) ∈ G.down i → (s.outs i).count r = (s.inp d k).count r + jsum (Pc.tosend i d k r) s

theorem Ledger.init (W : G.Wf) : Ledger G (init G) := by
  refine ⟨?_, ?_, ?_, ?_, ?_⟩
  · intro j i h; simp [Channel.init, Pc.of] at h
  · exact fun i n h => ((Inv.init W).xt i n h).1
  all_goals intros; simp [Channel.init, jsum, sumTo]

/-- One thread goes from `p0` to `p`, others may begin. -/
structure Moves (s s' : St) (p0 p : Pc) : Prop where
  sum : ∀ c : Pc → Nat, (∀ i, c (.pop i) = 0) → jsum c s' + c p0 = jsum c s + c p
  pcs : ∀ x, s'.pc x = s.pc x ∨ (∃ i, s'.pc x = .pop i) ∨ s'.pc x = p

/-- Threads may begin. -/
structure Grows (s s' : St) : Prop where
  sum : ∀ c : Pc → Nat, (∀ i, c (.pop i) = 0) → jsum c s' = jsum c s
  pcs : ∀ x, s'.pc x = s.pc x ∨ ∃ i, s'.pc x = .pop i
  nx : s.next ≤ s'.next

theorem Grows.same (h1 : s'.pc = s.pc) (h2 : s'.next = s.next) : Grows s s' :=
  ⟨fun _ _ => jsum_same h1 h2, fun _ => .inl (by rw [h1]), by omega⟩

theorem Grows.run {s1 : St} (g : Grows s s1) (i : Nat) : Grows s (Channel.run i s1) := by
  refine ⟨fun c h => ?_, fun x => ?_, ?_⟩
  · rw [jsum_run, h i, Nat.add_zero, g.sum c h]
  · simp only [Channel.run, upd]
    split
    · exact .inr ⟨_, rfl⟩
    · exact g.pcs x
  · have := g.nx; simp only [Channel.run]; omega

theorem Grows.enqueue (i k : Nat) (m : Msg) : Grows s (enqueue i k m s) := by
  unfold Channel.enqueue
  dsimp only
  split
  · exact Grows.run (by exact Grows.same rfl rfl) i
  · exact Grows.same rfl rfl

theorem Grows.cts {s1 : St} (h1 : s1.pc = s.pc) (h2 : s1.next = s.next) (i : Nat) (c : Credit) : Grows s (ctsCrit G i c s1) := by
  unfold ctsCrit
  dsimp only
  split
  · split
    · exact Grows.run (by exact Grows.same h1 h2) i
    · exact Grows.same h1 h2
  · exact Grows.same h1 h2

theorem Grows.goto {s1 : St} (g : Grows s s1) {j : Nat} {p0 p : Pc} (h0 : s1.pc j = p0) (hj : j < s.next) :
    Moves s (Channel.goto j p s1) p0 p := by
  have := g.nx
  refine ⟨fun c h => ?_, fun x => ?_⟩
  · have h1 := jsum_goto (s := s1) (c := c) (p := p) (j := j) (by omega)
    rw [h0, g.sum c h] at h1
    exact h1
  · simp only [Channel.goto, upd]
    split
    · exact .inr (.inr rfl)
    · exact (g.pcs x).imp id .inl

theorem Ledger.moves (L : Ledger G s) {p0 p : Pc} (M : Moves s s' p0 p) (hun : ∀ i, p.of = some i → ∀ e ∈ p.unsent, e ∈ G.down i)
    (hx : ∀ i n, .ext n ∈ s'.sown i → .ext n ∈ s.sown i)
    (ha : ∀ i m, (s'.pops i).count m + p0.holds i m + (s.calls i).count m = (s'.calls i).count m + (s.pops i).count m + p.holds i m)
    (hb : ∀ i, (s'.calls i).length + p0.within i + (s.outs i).length = (s'.outs i).length + (s.calls i).length + p.within i)
    (hc : ∀ i d k r, (d, k) ∈ G.down i → (s'.outs i).count r + p0.tosend i d k r + (s.inp d k).count r =
      (s'.inp d k).count r + (s.outs i).count r + p.tosend i d k r) : Ledger G s' := by
  refine ⟨?_, fun i n h => L.xt i n (hx i n h), ?_, ?_, ?_⟩
  · intro x i
    rcases M.pcs x with h | ⟨y, h⟩ | h <;> rw [h]
    · exact L.un x i
    · intro _ e he; cases he
    · exact hun i
  · intro i m
    have h1 := L.ca i m
    have h2 := M.sum (Pc.holds i m) (fun _ => by simp [Pc.holds, Pc.tocall])
    have h3 := ha i m
    omega
  · intro i
    have h1 := L.cb i
    have h2 := M.sum (Pc.within i) (fun _ => by simp [Pc.within, Pc.inside])
    have h3 := hb i
    omega
  · intro i d k r h
    have h1 := L.cc i d k r h
    have h2 := M.sum (Pc.tosend i d k r) (fun _ => by simp [Pc.tosend, Pc.fresh, Pc.unsent])
    have h3 := hc i d k r h
    omega

/-- The thread goes on and keeps what it has to do. -/
theorem Ledger.keeps (L : Ledger G s) {s1 : St} (g : Grows s s1) {j : Nat} {p0 p : Pc} (h0 : s1.pc j = p0) (hj : j < s.next)
    (hun : ∀ i, p.of = some i → ∀ e ∈ p.unsent, e ∈ G.down i)
    (h1 : s1.sown = s.sown) (h2 : s1.pops = s.pops) (h3 : s1.calls = s.calls) (h4 : s1.outs = s.outs) (h5 : s1.inp = s.inp)
    (ha : ∀ i m, p0.holds i m = p.holds i m) (hb : ∀ i, p0.within i = p.within i)
    (hc : ∀ i d k r, (d, k) ∈ G.down i → p0.tosend i d k r = p.tosend i d k r) : Ledger G (Channel.goto j p s1) := by
  refine L.moves (g.goto h0 hj) hun ?_ ?_ ?_ ?_
  all_goals simp only [Channel.goto, h1, h2, h3, h4, h5]
  · exact fun _ _ => id
  · intro i m; have := ha i m; omega
  · intro i; have := hb i; omega
  · intro i d k r h; have := hc i d k r h; omega

theorem Ledger.grows (L : Ledger G s) (g : Grows s s') (hx : ∀ i n, .ext n ∈ s'.sown i → G.up i 0 = none) (h2 : s'.pops = s.pops)
    (h3 : s'.calls = s.calls) (h4 : s'.outs = s.outs) (h5 : ∀ i d k, (d, k) ∈ G.down i → s'.inp d k = s.inp d k) : Ledger G s' := by
  refine ⟨?_, hx, ?_, ?_, ?_⟩
  · intro x i
    rcases g.pcs x with h | ⟨y, h⟩ <;> rw [h]
    · exact L.un x i
    · intro _ e he; cases he
  · intro i m; rw [h2, h3, g.sum _ (fun _ => by simp [Pc.holds, Pc.tocall])]; exact L.ca i m
  · intro i; rw [h3, h4, g.sum _ (fun _ => by simp [Pc.within, Pc.inside])]; exact L.cb i
  · intro i d k r h
    rw [h4, h5 i d k h, g.sum _ (fun _ => by simp [Pc.tosend, Pc.fresh, Pc.unsent])]; exact L.cc i d k r h

theorem Ledger.pop (L : Ledger G s) {j i : Nat} (hj : s.pc j = .pop i) (hjn : j < s.next) : Ledger G (popCrit G j i s) := by
  unfold popCrit
  split
  · refine L.keeps (by exact Grows.same rfl rfl) (by exact hj) hjn ?_ (by rfl) (by rfl) (by rfl) (by rfl) (by rfl) ?_ ?_ ?_
    all_goals simp [Pc.of, Pc.unsent, Pc.holds, Pc.within, Pc.tosend, Pc.tocall, Pc.inside, Pc.fresh]
  · dsimp only
    refine L.moves (Grows.goto (s1 := { s with q := _, idx := _, pops := upd s.pops i (s.pops i ++ [popMsg (popSlots (G.strat i) (G.slots i) (s.idx i) (s.q i)) (s.q i)]) }) (by exact Grows.same rfl rfl) hj hjn) ?_ (fun _ _ => id) ?_ ?_ ?_
    case refine_2 =>
      intro x m
      simp only [Channel.goto, upd, Pc.holds, Pc.of, Pc.tocall, Option.some.injEq]
      by_cases hx : x = i
      · subst hx; simp; omega
      · have : ¬ i = x := fun h => hx h.symm
        simp only [hx, this, if_false]; omega
    case refine_3 => intro x; simp [Channel.goto, Pc.within, Pc.inside]; omega
    case refine_4 => intro x d k r _; simp [Channel.goto, Pc.tosend, Pc.fresh, Pc.unsent]; omega
    all_goals simp [Pc.of, Pc.unsent]

theorem Ledger.sends (L : Ledger G s) (W : G.Wf) {j i : Nat} {r : Msg} {e : Edge} {es : List Edge} (hj : s.pc j = .send i r (e :: es)) (hjn : j < s.next) :
    Ledger G (Channel.goto j (.send i r es) (enqueue e.1 e.2 r s)) := by
  have hun : ∀ x ∈ e :: es, x ∈ G.down i := by have := L.un j i (by rw [hj]; rfl); rw [hj] at this; exact this
  have hq : ∀ d k, (enqueue e.1 e.2 r s).inp d k = if d = e.1 ∧ k = e.2 then s.inp e.1 e.2 ++ [r] else s.inp d k := by
    intro d k
    rw [← enqueue_q (q := s.inp)]
    unfold enqueue
    dsimp only
    split <;> rfl
  have hs : (enqueue e.1 e.2 r s).pops = s.pops ∧ (enqueue e.1 e.2 r s).calls = s.calls ∧ (enqueue e.1 e.2 r s).outs = s.outs := by
    unfold enqueue
    dsimp only
    split <;> exact ⟨rfl, rfl, rfl⟩
  refine L.moves ((Grows.enqueue e.1 e.2 r).goto ((enqueue_pc hjn).trans hj) hjn) ?_ ?_ ?_ ?_ ?_
  case refine_1 => intro x hx; cases hx; exact fun y hy => hun y (List.mem_cons_of_mem _ hy)
  case refine_2 => intro x n; simp only [Channel.goto, enqueue_users]; exact id
  case refine_3 => intro x m; simp [Channel.goto, hs, Pc.holds, Pc.tocall]; omega
  case refine_4 => intro x; simp [Channel.goto, hs, Pc.within, Pc.inside]; omega
  case refine_5 =>
    intro x d k r' hd
    simp only [Channel.goto, hs, hq, Pc.tosend, Pc.of, Pc.fresh, Pc.unsent, Pc.sending, List.count_nil, Option.some.injEq]
    by_cases he : (d, k) = e
    · subst he
      have h1 := ((W.edges _ _ _).1 hd).1
      have h2 := ((W.edges _ _ _).1 (hun (d, k) (by simp))).1
      rw [h1] at h2
      cases h2
      simp only [List.count_append, if_true, and_self, List.count_cons_self, Nat.zero_add, Nat.add_mul]
      omega
    · have : ¬ (d = e.1 ∧ k = e.2) := fun h => he (Prod.ext h.1 h.2)
      rw [if_neg this, List.count_cons_of_ne (Ne.symm he)]
      omega

/-- Each step of the threads keeps the accounts. -/
theorem Ledger.step (L : Ledger G s) (F : Flow G s) (W : G.Wf) {a : Act} (h : Channel.step G s a = some s') (hs : ∀ i, s'.sown i ≠ []) :
    Ledger G s' := by
  cases a with
  | job j =>
    have hjn : j < s.next := F.lt fun h0 => by simp [Channel.step, stepJob, h0] at h
    simp only [Channel.step, stepJob] at h
    split at h
    · cases h
    · rename_i i hp; cases h; exact L.pop hp hjn
    · rename_i i m hp
      cases h
      split <;> refine L.keeps (by exact Grows.same rfl rfl) (by exact hp) hjn ?_ (by rfl) (by rfl) (by rfl) (by rfl) (by rfl) ?_ ?_ ?_
      all_goals simp [Pc.of, Pc.unsent, Pc.holds, Pc.within, Pc.tosend, Pc.tocall, Pc.inside, Pc.fresh]
    · rename_i i hp
      cases h
      refine L.keeps (by exact Grows.same rfl rfl) (by exact hp) hjn ?_ (by rfl) (by rfl) (by rfl) (by rfl) (by rfl) ?_ ?_ ?_
      all_goals simp [Pc.of, Pc.unsent, Pc.holds, Pc.within, Pc.tosend, Pc.tocall, Pc.inside, Pc.fresh]
    · rename_i i k ks m hp
      split at h
      · cases h
        rw [F.fi, if_neg (by simp)]
        refine L.keeps (by exact Grows.same rfl rfl) (by exact hp) hjn ?_ (by rfl) (by rfl) (by rfl) (by rfl) (by rfl) ?_ ?_ ?_
        all_goals cases m <;> simp [Pc.of, Pc.unsent, Pc.holds, Pc.within, Pc.tosend, Pc.tocall, Pc.inside, Pc.fresh]
      · cases h
        refine L.keeps (by exact Grows.same rfl rfl) (by exact hp) hjn ?_ (by rfl) (by rfl) (by rfl) (by rfl) (by rfl) ?_ ?_ ?_
        all_goals cases m <;> simp [Pc.of, Pc.unsent, Pc.holds, Pc.within, Pc.tosend, Pc.tocall, Pc.inside, Pc.fresh]
    · rename_i i k ks m hp
      split at h
      · rename_i u hu
        cases h
        have hc : ∀ s : St, (ctsCrit G u (.edge i k) s).pops = s.pops ∧ (ctsCrit G u (.edge i k) s).calls = s.calls ∧
            (ctsCrit G u (.edge i k) s).outs = s.outs ∧ (ctsCrit G u (.edge i k) s).inp = s.inp := by
          intro s; unfold ctsCrit; dsimp only; split <;> (try split) <;> exact ⟨rfl, rfl, rfl, rfl⟩
        refine L.keeps (Grows.cts rfl rfl _ _) ((ctsCrit_pc hjn).trans hp) hjn ?_ ctsCrit_users.2 (hc s).1 (hc s).2.1 (hc s).2.2.1 (hc s).2.2.2 ?_ ?_ ?_
        all_goals cases m <;> simp [Pc.of, Pc.unsent, Pc.holds, Pc.within, Pc.tosend, Pc.tocall, Pc.inside, Pc.fresh]
      · cases h
        refine L.keeps (by exact Grows.same rfl rfl) (by exact hp) hjn ?_ (by rfl) (by rfl) (by rfl) (by rfl) (by rfl) ?_ ?_ ?_
        all_goals cases m <;> simp [Pc.of, Pc.unsent, Pc.holds, Pc.within, Pc.tosend, Pc.tocall, Pc.inside, Pc.fresh]
    · rename_i i m hp
      cases h
      refine L.keeps (by exact Grows.same rfl rfl) (by exact hp) hjn ?_ (by rfl) (by rfl) (by rfl) (by rfl) (by rfl) ?_ ?_ ?_
      all_goals cases m <;> simp [Pc.of, Pc.unsent, Pc.holds, Pc.within, Pc.tosend, Pc.tocall, Pc.inside, Pc.fresh]
    · rename_i i m hp
      cases h
      refine L.moves (Grows.goto (s1 := { s with calls := upd s.calls i (s.calls i ++ [m]) }) (by exact Grows.same rfl rfl) hp hjn) ?_ (fun _ _ => id) ?_ ?_ ?_
      case refine_1 => simp [Pc.unsent]
      case refine_2 =>
        intro x m'
        simp only [Channel.goto, upd, Pc.holds, Pc.of, Pc.tocall, Option.some.injEq]
        by_cases hx : x = i
        · subst hx; simp; omega
        · have : ¬ i = x := fun h => hx h.symm
          simp only [hx, this, if_false]; omega
      case refine_3 =>
        intro x
        simp only [Channel.goto, upd, Pc.within, Pc.of, Pc.inside, Option.some.injEq]
        by_cases hx : x = i
        · subst hx; simp; omega
        · have : ¬ i = x := fun h => hx h.symm
          simp only [hx, this, if_false]; omega
      case refine_4 => intro x d k r _; simp [Channel.goto, Pc.tosend, Pc.fresh, Pc.unsent]; omega
    · cases h
    · rename_i i r hp
      cases h
      split
      all_goals
        refine L.keeps (by exact Grows.same rfl rfl) (by exact hp) hjn ?_ (by rfl) (by rfl) (by rfl) (by rfl) (by rfl) ?_ ?_ ?_
        all_goals simp [Pc.of, Pc.unsent, Pc.holds, Pc.within, Pc.tosend, Pc.tocall, Pc.inside, Pc.fresh]
    · rename_i i r acc hp
      cases h
      refine L.keeps (by exact Grows.same rfl rfl) (by exact hp) hjn ?_ (by rfl) (by rfl) (by rfl) (by rfl) (by rfl) ?_ ?_ ?_
      all_goals simp [Pc.of, Pc.unsent, Pc.holds, Pc.within, Pc.tosend, Pc.tocall, Pc.inside, Pc.fresh]
    · rename_i i r e es acc hp
      cases h
      refine L.keeps (by exact Grows.same rfl rfl) (by exact hp) hjn ?_ (by rfl) (by rfl) (by rfl) (by rfl) (by rfl) ?_ ?_ ?_
      all_goals simp [Pc.of, Pc.unsent, Pc.holds, Pc.within, Pc.tosend, Pc.tocall, Pc.inside, Pc.fresh]
    · rename_i i r b hp
      cases h
      refine L.keeps (by exact Grows.same rfl rfl) (by exact hp) hjn ?_ (by rfl) (by rfl) (by rfl) (by rfl) (by rfl) ?_ ?_ ?_
      case refine_1 => intro x hx; cases hx; rw [F.dn]; exact fun _ => id
      case refine_4 =>
        intro x d k r' hd
        simp only [Pc.tosend, Pc.of, Pc.fresh, Pc.unsent, Pc.sending, F.dn, Option.some.injEq]
        split
        · rename_i h; subst h
          have : (G.down i).count (d, k) = 1 := (W.nodup i).count.trans (if_pos hd)
          simp [this]
        · rfl
      all_goals simp [Pc.of, Pc.holds, Pc.within, Pc.tocall, Pc.inside]
    · rename_i i r e es hp
      cases h
      exact L.sends W hp hjn
    · rename_i i r hp
      cases h
      refine L.keeps (by exact Grows.same rfl rfl) (by exact hp) hjn ?_ (by rfl) (by rfl) (by rfl) (by rfl) (by rfl) ?_ ?_ ?_
      all_goals simp [Pc.of, Pc.unsent, Pc.holds, Pc.within, Pc.tosend, Pc.tocall, Pc.inside, Pc.fresh]
    · rename_i i hp
      cases h
      rw [F.fi, if_neg (by simp)]
      refine L.keeps (by exact Grows.same rfl rfl) (by exact hp) hjn ?_ (by rfl) (by rfl) (by rfl) (by rfl) (by rfl) ?_ ?_ ?_
      all_goals simp [Pc.of, Pc.unsent, Pc.holds, Pc.within, Pc.tosend, Pc.tocall, Pc.inside, Pc.fresh]
    · rename_i i hp
      cases h
      have hc : ∀ s : St, (ctsCrit G i .own s).pops = s.pops ∧ (ctsCrit G i .own s).calls = s.calls ∧
          (ctsCrit G i .own s).outs = s.outs ∧ (ctsCrit G i .own s).inp = s.inp := by
        intro s; unfold ctsCrit; dsimp only; split <;> (try split) <;> exact ⟨rfl, rfl, rfl, rfl⟩
      have hc := hc { s with main := upd s.main i none }
      refine L.keeps (by exact Grows.cts (by rfl) (by rfl) _ _)
        ((ctsCrit_pc (s := { s with main := upd s.main i none }) hjn).trans hp) hjn ?_ ctsCrit_users.2 hc.1 hc.2.1 hc.2.2.1 hc.2.2.2 ?_ ?_ ?_
      all_goals simp [Pc.of, Pc.unsent, Pc.holds, Pc.within, Pc.tosend, Pc.tocall, Pc.inside, Pc.fresh]
    · rename_i i hp
      cases h
      unfold taskDone
      dsimp only
      split
      · rw [if_neg (by simp [Channel.run, F.fi])]
        refine L.keeps (by exact Grows.run (by exact Grows.same rfl rfl) i) (by exact (run_pc hjn).trans hp) hjn ?_ (by rfl) (by rfl) (by rfl) (by rfl) (by rfl) ?_ ?_ ?_
        all_goals simp [Pc.of, Pc.holds, Pc.within, Pc.tosend, Pc.tocall, Pc.inside, Pc.fresh, Pc.unsent]
      · rw [if_neg (by simp [F.fi])]
        refine L.keeps (by exact Grows.same rfl rfl) (by exact hp) hjn ?_ (by rfl) (by rfl) (by rfl) (by rfl) (by rfl) ?_ ?_ ?_
        all_goals simp [Pc.of, Pc.holds, Pc.within, Pc.tosend, Pc.tocall, Pc.inside, Pc.fresh, Pc.unsent]
    · rename_i hp; have := F.nc j; rw [hp] at this; cases this
    · rename_i hp; have := F.nc j; rw [hp] at this; cases this
    · rename_i hp; have := F.nc j; rw [hp] at this; cases this
    · rename_i i hp
      cases h
      split
      · refine L.keeps (by exact Grows.run (by exact Grows.same rfl rfl) i) (by exact (run_pc hjn).trans hp) hjn ?_ (by rfl) (by rfl) (by rfl) (by rfl) (by rfl) ?_ ?_ ?_
        all_goals simp [Pc.of, Pc.holds, Pc.within, Pc.tosend]
      · refine L.keeps (by exact Grows.same rfl rfl) (by exact hp) hjn ?_ (by rfl) (by rfl) (by rfl) (by rfl) (by rfl) ?_ ?_ ?_
        all_goals simp [Pc.of, Pc.holds, Pc.within, Pc.tosend]
    · cases h
  | ret j r =>
    simp only [Channel.step] at h
    split at h
    · rename_i i hp
      have hjn := F.lt (j := j) (by rw [hp]; simp)
      cases h
      refine L.moves (Grows.goto (s1 := { s with outs := upd s.outs i (s.outs i ++ [r]) }) (by exact Grows.same rfl rfl) hp hjn) ?_ (fun _ _ => id) ?_ ?_ ?_
      case refine_1 => simp [Pc.unsent]
      case refine_2 => intro x m; simp [Channel.goto, Pc.holds, Pc.tocall]; omega
      case refine_3 =>
        intro x
        simp only [Channel.goto, upd, Pc.within, Pc.of, Pc.inside, Option.some.injEq]
        by_cases hx : x = i
        · subst hx; simp; omega
        · have : ¬ i = x := fun h => hx h.symm
          simp only [hx, this, if_false]; omega
      case refine_4 =>
        intro x d k r' _
        simp only [Channel.goto, upd, Pc.tosend, Pc.of, Pc.fresh, Pc.unsent, List.count_nil, Option.some.injEq]
        by_cases hx : x = i
        · subst hx; simp; omega
        · have : ¬ i = x := fun h => hx h.symm
          simp only [hx, this, if_false]; omega
    · cases h
  | send i n m =>
    simp only [Channel.step] at h
    split at h
    · rename_i hm
      cases h
      have hs : (enqueue i 0 m s).pops = s.pops ∧ (enqueue i 0 m s).calls = s.calls ∧ (enqueue i 0 m s).outs = s.outs := by
        unfold enqueue
        dsimp only
        split <;> exact ⟨rfl, rfl, rfl⟩
      refine L.grows (Grows.enqueue i 0 m) ?_ hs.1 hs.2.1 hs.2.2 ?_
      · rw [enqueue_users.2]; exact L.xt
      · intro x d k hd
        have hq : ∀ d k, (enqueue i 0 m s).inp d k = if d = i ∧ k = 0 then s.inp i 0 ++ [m] else s.inp d k := by
          intro d k
          rw [← enqueue_q (q := s.inp)]
          unfold enqueue
          dsimp only
          split <;> rfl
        rw [hq, if_neg]
        rintro ⟨rfl, rfl⟩
        have := ((W.edges _ _ _).1 hd).1
        rw [L.xt d n hm] at this
        cases this
    · cases h
  | copySender i n n' =>
    simp only [Channel.step] at h
    split at h
    · rename_i hm
      cases h
      refine L.grows (Grows.same rfl rfl) ?_ rfl rfl rfl fun _ _ _ _ => rfl
      intro x y hy
      simp only [upd] at hy
      split at hy
      · rename_i e; subst e; exact L.xt x n hm.1
      · exact L.xt x y hy
    · cases h
  | dropSender i n =>
    simp only [Channel.step] at h
    split at h
    · rename_i hm
      have hl : s.snd i - 1 = ((s.sown i).erase (.ext n)).length := by rw [F.sn, List.length_erase_of_mem hm]
      split at h
      · rename_i h0
        cases h
        have := hs i
        simp only [upd, if_true] at h0 this
        rw [hl] at h0
        exact absurd (List.eq_nil_of_length_eq_zero h0) this
      · cases h
        refine L.grows (Grows.same rfl rfl) ?_ rfl rfl rfl fun _ _ _ _ => rfl
        intro x y hy
        simp only [upd] at hy
        split at hy
        · rename_i e; subst e; exact L.xt x y (List.mem_of_mem_erase hy)
        · exact L.xt x y hy
    · cases h
  | copyRecv i =>
    simp only [Channel.step] at h
    split at h
    · cases h; exact L.grows (Grows.same rfl rfl) L.xt rfl rfl rfl fun _ _ _ _ => rfl
    · cases h
  | dropRecv i =>
    simp only [Channel.step] at h
    split at h
    · split at h
      · cases h
        have e : ∀ c : Pc → Nat, c (.ready2 i) = 0 → jsum c { s with rcv := upd s.rcv i (s.rcv i - 1), pc := upd s.pc s.next (.ready2 i), rdyJob := upd s.rdyJob i (some s.next), next := s.next + 1 } = jsum c s := by
          intro c hc
          simp only [jsum, sumTo]
          have : sumTo s.next (fun j => c (upd s.pc s.next (.ready2 i) j)) = sumTo s.next fun j => c (s.pc j) :=
            sumTo_congr fun j hj => by simp only [upd]; rw [if_neg (by omega)]
          rw [this]; simp [upd, hc]
        refine ⟨?_, L.xt, ?_, ?_, ?_⟩
        · intro j x
          simp only [upd]
          split
          · intro h; cases h
          · exact L.un j x
        · intro x m; rw [e _ (by simp [Pc.holds, Pc.of])]; exact L.ca x m
        · intro x; rw [e _ (by simp [Pc.within, Pc.of])]; exact L.cb x
        · intro x d k r h; rw [e _ (by simp [Pc.tosend, Pc.of])]; exact L.cc x d k r h
      · cases h; exact L.grows (Grows.same rfl rfl) L.xt rfl rfl rfl fun _ _ _ _ => rfl
    · cases h

end Verif.Channel
