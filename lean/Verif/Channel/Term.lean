import Verif.Channel.Errors

/-!
# A network comes to rest

In any network, with any buffer sizes and also with errors, the threads do only finitely much between two actions of the
users of its senders and receivers.
-/

namespace Verif.Channel

variable {G : Net} {s s' : St}

/-- The action is a step of a thread of the network, or the return of a function it calls. -/
def Act.internal : Act → Bool
  | .job _ | .ret _ _ => true
  | _ => false

/-! ## Sums -/

def sumTo : Nat → (Nat → Nat) → Nat
  | 0, _ => 0
  | n + 1, f => sumTo n f + f n

theorem sumTo_congr {f g : Nat → Nat} : ∀ {n : Nat}, (∀ i < n, f i = g i) → sumTo n f = sumTo n g
  | 0, _ => rfl
  | n + 1, h => by
    simp only [sumTo]
    rw [sumTo_congr fun i hi => h i (by omega), h n (by omega)]

theorem sumTo_le {f g : Nat → Nat} : ∀ {n : Nat}, (∀ i < n, f i ≤ g i) → sumTo n f ≤ sumTo n g
  | 0, _ => Nat.le_refl _
  | n + 1, h => by
    simp only [sumTo]
    have := sumTo_le (f := f) (g := g) (n := n) fun i hi => h i (by omega)
    have := h n (by omega)
    omega

/-- One summand changes. -/
theorem sumTo_change {f g : Nat → Nat} {k : Nat} : ∀ {n : Nat}, k < n → (∀ i, i ≠ k → f i = g i) →
    sumTo n f + g k = sumTo n g + f k
  | 0, h, _ => by omega
  | n + 1, h, e => by
    simp only [sumTo]
    by_cases hk : k = n
    · subst hk
      have : sumTo k f = sumTo k g := sumTo_congr fun i hi => e i (by omega)
      omega
    · have := sumTo_change (n := n) (show k < n by omega) e
      have := e n (by omega)
      omega

theorem sumTo_change_le {f g : Nat → Nat} {k c : Nat} {n : Nat} (e : ∀ i, i ≠ k → f i = g i) (h : f k ≤ g k + c) :
    sumTo n f ≤ sumTo n g + c := by
  by_cases hk : k < n
  · have := sumTo_change hk e; omega
  · have : sumTo n f = sumTo n g := sumTo_congr fun i hi => e i (by omega)
    omega

/-! ## Everything happens in finitely many processes -/

def Pc.low (M : Nat) : Pc → Prop
  | .clear es => ∀ x ∈ es, x.1 < M
  | .close2 d es => d < M ∧ ∀ x ∈ es, x.1 < M
  | .ready2 i => i < M
  | .send i _ es => i < M ∧ ∀ x ∈ es, x.1 < M
  | p => ∀ i, p.of = some i → i < M

theorem Pc.low.mono {M M' : Nat} (h : M ≤ M') {p : Pc} (hp : p.low M) : p.low M' := by
  cases p <;> simp_all [Pc.low, Pc.of] <;> grind

structure Low (G : Net) (M : Nat) (s : St) : Prop where
  fr : ∀ j, s.next ≤ j → s.pc j = .none
  dn : ∀ i, s.down i = G.down i ∨ s.down i = []
  low : ∀ j, (s.pc j).low M

theorem Low.lt {M : Nat} (L : Low G M s) {j : Nat} (h : s.pc j ≠ .none) : j < s.next :=
  Nat.lt_of_not_le fun h1 => h (L.fr j h1)

theorem Low.goto {M : Nat} (L : Low G M s) {j : Nat} {p : Pc} (h : s.pc j ≠ .none) (hp : p.low M) : Low G M (goto j p s) := by
  have := L.lt h
  constructor
  · intro k hk; have := L.fr k hk; simp only [Channel.goto, upd] at *; grind
  · exact L.dn
  · intro k; have := L.low k; simp only [Channel.goto, upd]; grind

theorem Low.run {M : Nat} (L : Low G M s) {i : Nat} (hi : i < M) : Low G M (run i s) := by
  constructor
  · intro k hk; have := L.fr k; simp only [Channel.run, upd] at *; grind
  · exact L.dn
  · intro k; have := L.low k; simp only [Channel.run, upd]; split
    · simp [Pc.low, Pc.of, hi]
    · exact this

theorem Low.same {M : Nat} (L : Low G M s) (h1 : s'.pc = s.pc) (h2 : s'.next = s.next) (h3 : s'.down = s.down) : Low G M s' := by
  constructor
  · rw [h1, h2]; exact L.fr
  · rw [h3]; exact L.dn
  · rw [h1]; exact L.low

theorem goto_pc (j : Nat) (p : Pc) (s : St) : (goto j p s).pc j = p := by simp [goto, upd]

theorem run_pc {j i : Nat} (h : j < s.next) : (run i s).pc j = s.pc j := by
  simp only [run, upd]; split
  · omega
  · rfl

theorem Low.goto' {M : Nat} (L : Low G M s) {j : Nat} {p : Pc} (h1 : s'.pc = s.pc) (h2 : s'.next = s.next) (h3 : s'.down = s.down)
    (h : s.pc j ≠ .none) (hp : p.low M) : Low G M (Channel.goto j p s') :=
  (L.same h1 h2 h3).goto (by rw [h1]; exact h) hp

theorem Low.run' {M : Nat} (L : Low G M s) {i : Nat} (h1 : s'.pc = s.pc) (h2 : s'.next = s.next) (h3 : s'.down = s.down)
    (hi : i < M) : Low G M (Channel.run i s') := (L.same h1 h2 h3).run hi

theorem ctsCrit_pc {u j : Nat} {c : Credit} (h : j < s.next) : (ctsCrit G u c s).pc j = s.pc j := by
  simp only [ctsCrit]
  split
  · split
    · exact run_pc (s := { s with susp := upd s.susp u (s.susp u - 1), owed := upd s.owed u ((s.owed u).erase c) }) h
    · rfl
  · rfl

theorem enqueue_pc {d k j : Nat} {m : Msg} (h : j < s.next) : (enqueue d k m s).pc j = s.pc j := by
  simp only [enqueue]
  split
  · rw [run_pc (by exact h)]
  · rfl

theorem Low.enqueue {M : Nat} (L : Low G M s) {d k : Nat} {m : Msg} (hd : d < M) : Low G M (enqueue d k m s) := by
  simp only [Channel.enqueue]
  split
  · exact L.run' rfl rfl rfl hd
  · exact L.same rfl rfl rfl

theorem Low.ctsCrit {M : Nat} (L : Low G M s) {u : Nat} {c : Credit} (hu : u < M) : Low G M (ctsCrit G u c s) := by
  simp only [Channel.ctsCrit]
  split
  · split
    · exact L.run' rfl rfl rfl hu
    · exact L.same rfl rfl rfl
  · exact L.same rfl rfl rfl

theorem Low.ext {M N i : Nat} (h : ∀ j, (s.pc j).low M) : ∀ j, (s.pc j).low (max M (i + 1) + N) := fun j =>
  Pc.low.mono (by omega) (h j)

theorem Low.step {M N : Nat} (W : G.Wf) (B : G.Bounded N) (hM : N ≤ M) (L : Low G M s) {a : Act} (ha : a.internal = true)
    (h : step G s a = some s') : Low G M s' := by
  have hdn : ∀ i, ∀ e ∈ s.down i, e.1 < M := by
    intro i e he
    rcases L.dn i with h1 | h1
    · rw [h1] at he
      have := B _ _ _ ((W.edges i e.1 e.2).1 he).1
      omega
    · rw [h1] at he; cases he
  cases a with
  | ret j r =>
    simp only [Channel.step] at h
    split at h
    · next i hj =>
      cases h
      have := L.low j
      rw [hj] at this
      exact L.goto' rfl rfl rfl (by simp [hj]) this
    · cases h
  | job j =>
    simp only [Channel.step, stepJob] at h
    have hl := L.low j
    split at h
    · cases h
    · next i hj =>
      cases h
      rw [hj] at hl
      have hi := hl i rfl
      simp only [popCrit]
      split
      · exact L.goto' rfl rfl rfl (by simp [hj]) (by simp [Pc.low, Pc.of, hi])
      · exact L.goto' rfl rfl rfl (by simp [hj]) (by simp [Pc.low, Pc.of, hi])
    · next i m hj =>
      cases h
      rw [hj] at hl
      have hi := hl i rfl
      refine L.goto (by simp [hj]) ?_
      split <;> simp [Pc.low, Pc.of, hi]
    · next i hj =>
      cases h
      rw [hj] at hl
      exact L.goto (by simp [hj]) (by simp [Pc.low, Pc.of, hl i rfl])
    · next i k ks m hj =>
      rw [hj] at hl
      have hi := hl i rfl
      split at h
      · cases h
        refine L.goto (by simp [hj]) ?_
        split <;> simp [Pc.low, Pc.of, hi]
      · cases h
        exact L.goto (by simp [hj]) (by simp [Pc.low, Pc.of, hi])
    · next i k ks m hj =>
      rw [hj] at hl
      have hi := hl i rfl
      split at h
      · next u hu =>
        cases h
        have hlt := L.lt (j := j) (by simp [hj])
        have hum : u < M := by have := W.order _ _ _ hu; omega
        refine Low.goto (L.ctsCrit hum) ?_ (by simp [Pc.low, Pc.of, hi])
        rw [ctsCrit_pc hlt]; simp [hj]
      · cases h
        exact L.goto (by simp [hj]) (by simp [Pc.low, Pc.of, hi])
    · next i m hj =>
      cases h
      rw [hj] at hl
      exact L.goto (by simp [hj]) (by simp [Pc.low, Pc.of, hl i rfl])
    · next i m hj =>
      cases h
      rw [hj] at hl
      exact L.goto' rfl rfl rfl (by simp [hj]) (by simp [Pc.low, Pc.of, hl i rfl])
    · cases h
    · next i r hj =>
      cases h
      rw [hj] at hl
      refine L.goto (by simp [hj]) ?_
      split <;> simp [Pc.low, Pc.of, hl i rfl]
    · next i r acc hj =>
      cases h
      rw [hj] at hl
      exact L.goto (by simp [hj]) (by simp [Pc.low, Pc.of, hl i rfl])
    · next i r e es acc hj =>
      cases h
      rw [hj] at hl
      exact L.goto (by simp [hj]) (by simp [Pc.low, Pc.of, hl i rfl])
    · next i r b hj =>
      cases h
      rw [hj] at hl
      exact L.goto' rfl rfl rfl (by simp [hj]) ⟨hl i rfl, hdn i⟩
    · next i r e es hj =>
      cases h
      rw [hj] at hl
      have hlt := L.lt (j := j) (by simp [hj])
      refine Low.goto (L.enqueue (hl.2 e (by simp))) ?_ ⟨hl.1, fun x hx => hl.2 x (by simp [hx])⟩
      rw [enqueue_pc hlt]; simp [hj]
    · next i r hj =>
      cases h
      rw [hj] at hl
      exact L.goto (by simp [hj]) (by simp [Pc.low, Pc.of, hl.1])
    · next i hj =>
      cases h
      rw [hj] at hl
      refine L.goto (by simp [hj]) ?_
      split <;> simp [Pc.low, Pc.of, hl i rfl]
    · next i hj =>
      cases h
      rw [hj] at hl
      have hlt := L.lt (j := j) (by simp [hj])
      refine Low.goto (Low.ctsCrit (s := { s with main := upd s.main i none }) (L.same rfl rfl rfl) (hl i rfl)) ?_ (by simp [Pc.low, Pc.of])
      rw [ctsCrit_pc (by exact hlt)]; simp [hj]
    · next i hj =>
      cases h
      rw [hj] at hl
      have hlt := L.lt (j := j) (by simp [hj])
      have hi := hl i rfl
      simp only [taskDone]
      have key : ∀ s1 : St, Low G M s1 → s1.pc j ≠ .none → s1.down i = s.down i →
          Low G M (if s1.final i then
            Channel.goto j (.clear ((s1.down i).map fun e => (e.1, .up i e.2))) { s1 with down := upd s1.down i [], clr := upd s1.clr i (some j) }
          else Channel.goto j .none s1) := by
        intro s1 L1 h1 h2
        split
        · refine Low.goto (s := { s1 with down := upd s1.down i [], clr := upd s1.clr i (some j) }) ⟨L1.fr, ?_, L1.low⟩ h1 ?_
          · intro k; have := L1.dn k; simp only [upd]; grind
          · intro x hx
            rw [h2] at hx
            simp only [List.mem_map] at hx
            obtain ⟨e, he, rfl⟩ := hx
            exact hdn i e he
        · exact L1.goto h1 (by simp [Pc.low, Pc.of])
      split
      · refine key _ (L.run' rfl rfl rfl hi) ?_ rfl
        rw [run_pc (by exact hlt)]; simp [hj]
      · exact key _ (L.same rfl rfl rfl) (by simp [hj]) rfl
    · next hj =>
      cases h
      exact L.goto (by simp [hj]) (by simp [Pc.low, Pc.of])
    · next d o es hj =>
      rw [hj] at hl
      have h1 := hl (d, o) (by simp)
      have h2 : ∀ x ∈ es, x.1 < M := fun x hx => hl x (by simp [hx])
      split at h
      · cases h
        exact L.goto' rfl rfl rfl (by simp [hj]) ⟨h1, h2⟩
      · cases h
        exact L.goto' rfl rfl rfl (by simp [hj]) h2
    · next d es hj =>
      cases h
      rw [hj] at hl
      have hlt := L.lt (j := j) (by simp [hj])
      split
      · refine Low.goto ?_ ?_ hl.2
        · exact L.run' rfl rfl rfl hl.1
        · rw [run_pc (by exact hlt)]; simp [hj]
      · exact L.goto' rfl rfl rfl (by simp [hj]) hl.2
    · next i hj =>
      cases h
      rw [hj] at hl
      have hlt := L.lt (j := j) (by simp [hj])
      split
      · refine Low.goto ?_ ?_ (by simp [Pc.low, Pc.of])
        · exact L.run' rfl rfl rfl hl
        · rw [run_pc (by exact hlt)]; simp [hj]
      · exact L.goto' rfl rfl rfl (by simp [hj]) (by simp [Pc.low, Pc.of])
    · cases h
  | _ => cases ha

theorem Low.mono {M M' : Nat} (h : M ≤ M') (L : Low G M s) : Low G M' s := ⟨L.fr, L.dn, fun j => (L.low j).mono h⟩

/-- Actions from outside. -/
theorem Low.external {M : Nat} (L : Low G M s) {a : Act} (ha : a.internal = false) (h : Channel.step G s a = some s') :
    ∃ M', M ≤ M' ∧ Low G M' s' := by
  cases a with
  | job j => cases ha
  | ret j r => cases ha
  | send i n m =>
    simp only [Channel.step] at h
    split at h
    · cases h
      exact ⟨max M (i + 1), by omega, Low.enqueue (L.mono (by omega)) (by omega)⟩
    · cases h
  | copySender i n n' =>
    simp only [Channel.step] at h
    split at h
    · cases h; exact ⟨M, Nat.le_refl _, L.same rfl rfl rfl⟩
    · cases h
  | dropSender i n =>
    simp only [Channel.step] at h
    split at h
    · split at h
      · cases h
        have L1 := L.mono (M' := max M (i + 1)) (by omega)
        refine ⟨max M (i + 1), by omega, ?_, L1.dn, ?_⟩
        · intro k hk; have := L1.fr k; simp only [upd] at *; grind
        · intro k; have := L1.low k; simp only [upd]; split
          · simp [Pc.low]; omega
          · exact this
      · cases h; exact ⟨M, Nat.le_refl _, L.same rfl rfl rfl⟩
    · cases h
  | copyRecv i =>
    simp only [Channel.step] at h
    split at h
    · cases h; exact ⟨M, Nat.le_refl _, L.same rfl rfl rfl⟩
    · cases h
  | dropRecv i =>
    simp only [Channel.step] at h
    split at h
    · split at h
      · cases h
        have L1 := L.mono (M' := max M (i + 1)) (by omega)
        refine ⟨max M (i + 1), by omega, ?_, L1.dn, ?_⟩
        · intro k hk; have := L1.fr k; simp only [upd] at *; grind
        · intro k; have := L1.low k; simp only [upd]; split
          · simp [Pc.low]; omega
          · exact this
      · cases h; exact ⟨M, Nat.le_refl _, L.same rfl rfl rfl⟩
    · cases h

theorem Reachable.low {N : Nat} (W : G.Wf) (B : G.Bounded N) (h : Reachable G s) : ∃ M, N ≤ M ∧ Low G M s := by
  obtain ⟨as, h⟩ := h
  have key : ∀ (as : List Act) (s0 : St), (∃ M, N ≤ M ∧ Low G M s0) → exec G s0 as = some s → ∃ M, N ≤ M ∧ Low G M s := by
    intro as
    induction as with
    | nil => intro s0 h0 h; cases h; exact h0
    | cons a as ih =>
      intro s0 ⟨M, hM, L⟩ h
      simp only [exec] at h
      cases e : Channel.step G s0 a with
      | none => rw [e] at h; cases h
      | some s1 =>
        rw [e] at h
        refine ih s1 ?_ h
        by_cases ha : a.internal = true
        · exact ⟨M, hM, L.step W B hM ha e⟩
        · obtain ⟨M', h1, L'⟩ := L.external (by simpa using ha) e
          exact ⟨M', by omega, L'⟩
  refine key as _ ⟨N, Nat.le_refl _, ?_, ?_, ?_⟩ h
  · intro j _; rfl
  · intro i; exact .inl rfl
  · intro j; simp [init, Pc.low, Pc.of]

/-! ## The measure

Two numbers, compared lexicographically. The first one counts messages, each with a weight that is more than what it can become
downstream, and what is left to be closed; the second one the steps threads can take without touching these. -/

/-- The weight of a message of process `i`, looking at most `n` processes ahead. -/
def wt (G : Net) : Nat → Nat → Nat
  | 0, _ => 1
  | n + 1, i => 1 + ((G.down i).map fun e => wt G n e.1 + 1).sum

theorem wt_mono (n i : Nat) : wt G n i ≤ wt G (n + 1) i := by
  induction n generalizing i with
  | zero => simp [wt]
  | succ n ih =>
    rw [wt, wt]
    have : ∀ l : List Edge, (l.map fun e => wt G n e.1 + 1).sum ≤ (l.map fun e => wt G (n + 1) e.1 + 1).sum := by
      intro l
      induction l with
      | nil => simp
      | cons e l ihl => have := ih e.1; simp only [List.map_cons, List.sum_cons]; omega
    have := this (G.down i)
    omega

theorem wt_mono' {n m i : Nat} (h : n ≤ m) : wt G n i ≤ wt G m i := by
  induction h with
  | refl => exact Nat.le_refl _
  | step _ ih => exact Nat.le_trans ih (wt_mono _ _)

def weight (G : Net) (M i : Nat) : Nat := wt G (M - i) i

/-- What a message for process `i` weighs after the function of the process has been called. -/
def spread (G : Net) (M : Nat) (es : List Edge) : Nat := (es.map fun e => weight G M e.1 + 1).sum

theorem weight_spec {M N : Nat} (W : G.Wf) (B : G.Bounded N) (hM : N ≤ M) (i : Nat) : 1 + spread G M (G.down i) ≤ weight G M i := by
  by_cases hi : i < M
  · have e : M - i = (M - i - 1) + 1 := by omega
    have key : ∀ l : List Edge, (∀ e ∈ l, e ∈ G.down i) → spread G M l ≤ (l.map fun e => wt G (M - i - 1) e.1 + 1).sum := by
      intro l
      induction l with
      | nil => simp [spread]
      | cons x l ih =>
        intro hl
        have h1 := ih fun e he => hl e (by simp [he])
        have h2 := W.order _ _ _ ((W.edges i x.1 x.2).1 (hl x (by simp))).1
        have h3 : weight G M x.1 ≤ wt G (M - i - 1) x.1 := wt_mono' (by omega)
        simp only [spread, List.map_cons, List.sum_cons] at *
        omega
    have := key _ fun _ h => h
    rw [weight, e, wt]
    omega
  · have : G.down i = [] := by
      refine List.eq_nil_iff_forall_not_mem.2 fun e he => ?_
      have h1 := (W.edges i e.1 e.2).1 he
      have := W.order _ _ _ h1.1
      have := B _ _ _ h1.1
      omega
    have h0 : M - i = 0 := by omega
    rw [this, weight, h0]; simp [spread, wt]

/-- The number of messages in the queues of a process. -/
def len (G : Net) (s : St) (i : Nat) : Nat := sumTo (G.slots i) fun k => (s.q i k).length

/-- What a process has to do. -/
def load (G : Net) (M : Nat) (s : St) (i : Nat) : Nat :=
  weight G M i * len G s i + (if s.closeQ i then 1 else 0) + 4 * (s.down i).length

/-- What a thread has to do, apart from its own steps. -/
def cost1 (G : Net) (M : Nat) : Pc → Nat
  | .cts1 i _ (some _) | .cts2 i _ (some _) | .call i _ | .busy i | .bcast i _ | .free i _ _ _ | .susp i _ _ => spread G M (G.down i)
  | .send _ _ es => spread G M es
  | .clear es => 3 * es.length
  | .close2 _ es => 2 + 3 * es.length
  | _ => 0

/-- A step of the process would find nothing to do. -/
def idle (G : Net) (s : St) (i : Nat) : Bool := isEmpty G s i && !s.closeQ i

/-- The steps of a thread. -/
def cost2 (G : Net) (idle : Nat → Bool) : Pc → Nat
  | .none => 0
  | .dead _ _ => 0
  | .pop i => if idle i then 6 else 1
  | .cts1 _ ks .none => 5 + 4 * ks.length
  | .cts2 _ [] .none => 6
  | .cts2 _ (_ :: ks) .none => 8 + 4 * ks.length
  | .cts1 i ks (some _) => 11 + (G.down i).length + 4 * ks.length
  | .cts2 i [] (some _) => 12 + (G.down i).length
  | .cts2 i (_ :: ks) (some _) => 14 + (G.down i).length + 4 * ks.length
  | .call i _ => 10 + (G.down i).length
  | .busy i => 9 + (G.down i).length
  | .bcast i _ => 8 + (G.down i).length
  | .free _ _ es _ => 7 + es.length
  | .susp _ _ _ => 6
  | .send _ _ _ => 5
  | .own1 _ => 4
  | .own2 _ => 3
  | .taskDone _ => 4
  | .clear _ => 1
  | .close2 _ _ => 1
  | .ready2 _ => 2

def jsum (c : Pc → Nat) (s : St) : Nat := sumTo s.next fun j => c (s.pc j)

def big (G : Net) (M : Nat) (s : St) : Nat := sumTo M (load G M s) + jsum (cost1 G M) s

def small (G : Net) (s : St) : Nat := jsum (cost2 G (idle G s)) s

theorem jsum_goto {c : Pc → Nat} {j : Nat} {p : Pc} (h : j < s.next) : jsum c (goto j p s) + c (s.pc j) = jsum c s + c p := by
  have := sumTo_change (f := fun i => c ((goto j p s).pc i)) (g := fun i => c (s.pc i)) h
    (fun i hi => by simp [goto, upd, hi])
  simpa [jsum, goto, upd] using this

theorem jsum_run {c : Pc → Nat} {i : Nat} : jsum c (run i s) = jsum c s + c (.pop i) := by
  simp only [jsum, run, sumTo]
  have : sumTo s.next (fun j => c (upd s.pc s.next (.pop i) j)) = sumTo s.next fun j => c (s.pc j) :=
    sumTo_congr fun j hj => by simp only [upd]; rw [if_neg (by omega)]
  rw [this]; simp [upd]

theorem jsum_same {c : Pc → Nat} (h1 : s'.pc = s.pc) (h2 : s'.next = s.next) : jsum c s' = jsum c s := by simp [jsum, h1, h2]

theorem jsum_idle {i1 i2 : Nat → Bool} (h : ∀ j < s.next, ∀ i, s.pc j = .pop i → i1 i = true → i2 i = true) :
    jsum (cost2 G i1) s ≤ jsum (cost2 G i2) s := by
  refine sumTo_le fun j hj => ?_
  cases e : s.pc j with
  | pop i =>
    have := h j hj i e
    simp only [cost2]
    cases h1 : i1 i <;> cases h2 : i2 i <;> simp_all
  | cts1 i ks m => cases m <;> simp [cost2]
  | cts2 i ks m => cases m <;> cases ks <;> simp [cost2]
  | _ => simp [cost2]

theorem load_same {M : Nat} (h1 : s'.q = s.q) (h2 : s'.closeQ = s.closeQ) (h3 : s'.down = s.down) : load G M s' = load G M s := by
  funext i; simp [load, len, h1, h2, h3]

/-- The step of the thread takes from its own account only. -/
theorem small_goto {j : Nat} {p : Pc} {s1 : St} (hp : s1.pc = s.pc) (hn : s1.next = s.next) (hi : idle G s1 = idle G s)
    (h : j < s.next) (hc : cost2 G (idle G s) p < cost2 G (idle G s) (s.pc j)) : small G (goto j p s1) < small G s := by
  have h1 : idle G (goto j p s1) = idle G s := hi
  have h2 := jsum_goto (c := cost2 G (idle G s)) (j := j) (p := p) (s := s1) (by rw [hn]; exact h)
  rw [jsum_same hp hn, hp] at h2
  simp only [small, h1]
  omega

theorem big_goto {M j : Nat} {p : Pc} {s1 : St} (hp : s1.pc = s.pc) (hn : s1.next = s.next) (h : j < s.next) :
    big G M (goto j p s1) + cost1 G M (s.pc j) = sumTo M (load G M s1) + jsum (cost1 G M) s + cost1 G M p := by
  have h2 := jsum_goto (c := cost1 G M) (j := j) (p := p) (s := s1) (by rw [hn]; exact h)
  rw [jsum_same hp hn, hp] at h2
  have : load G M (goto j p s1) = load G M s1 := rfl
  simp only [big, this]
  omega

/-- A thread takes a step that starts no other. -/
theorem dec_goto {M j : Nat} {p : Pc} {s1 : St} (hp : s1.pc = s.pc) (hn : s1.next = s.next) (hq : s1.q = s.q)
    (hx : s1.idx = s.idx) (hcl : s1.closeQ = s.closeQ) (hd : s1.down = s.down) (h : j < s.next)
    (c1 : cost1 G M p ≤ cost1 G M (s.pc j)) (c2 : cost2 G (idle G s) p < cost2 G (idle G s) (s.pc j)) :
    big G M (goto j p s1) ≤ big G M s ∧ small G (goto j p s1) < small G s := by
  refine ⟨?_, small_goto hp hn ?_ h c2⟩
  · have := big_goto (G := G) (M := M) (p := p) hp hn h
    rw [load_same hq hcl hd] at this
    simp only [big] at *
    omega
  · funext i; simp [idle, isEmpty, hq, hx, hcl]

/-- The same, with another step of process `u` started, which has something to do. -/
theorem dec_run {M j u : Nat} {p : Pc} {s1 : St} (hp : s1.pc = s.pc) (hn : s1.next = s.next) (hq : s1.q = s.q)
    (hx : s1.idx = s.idx) (hcl : s1.closeQ = s.closeQ) (hd : s1.down = s.down) (h : j < s.next) (hu : idle G s u = false)
    (c1 : cost1 G M p ≤ cost1 G M (s.pc j)) (c2 : cost2 G (idle G s) p + 1 < cost2 G (idle G s) (s.pc j)) :
    big G M (goto j p (run u s1)) ≤ big G M s ∧ small G (goto j p (run u s1)) < small G s := by
  have hj : (run u s1).pc j = s.pc j := by rw [run_pc (by rw [hn]; exact h), hp]
  have hlt : j < (run u s1).next := by simp only [run, hn]; omega
  have hid : idle G (goto j p (run u s1)) = idle G s := by funext i; simp [idle, isEmpty, hq, hx, hcl, run, goto]
  have hl : load G M (goto j p (run u s1)) = load G M s := load_same hq hcl hd
  constructor
  · have h1 := jsum_goto (c := cost1 G M) (p := p) hlt
    rw [hj, jsum_run, jsum_same hp hn] at h1
    have : cost1 G M (.pop u) = 0 := rfl
    simp only [big, hl]
    omega
  · have h1 := jsum_goto (c := cost2 G (idle G s)) (p := p) hlt
    rw [hj, jsum_run, jsum_same hp hn] at h1
    have : cost2 G (idle G s) (.pop u) = 1 := by simp [cost2, hu]
    simp only [small, hid]
    omega

theorem idle_false {i : Nat} : idle G s i = false ↔ isEmpty G s i = false ∨ s.closeQ i = true := by
  cases h : isEmpty G s i <;> simp [idle, h]

theorem dec_cts {M j u : Nat} {p : Pc} {c : Credit} {s1 : St} (hp : s1.pc = s.pc) (hn : s1.next = s.next) (hq : s1.q = s.q)
    (hx : s1.idx = s.idx) (hcl : s1.closeQ = s.closeQ) (hd : s1.down = s.down) (h : j < s.next)
    (c1 : cost1 G M p ≤ cost1 G M (s.pc j)) (c2 : cost2 G (idle G s) p + 1 < cost2 G (idle G s) (s.pc j)) :
    big G M (goto j p (ctsCrit G u c s1)) ≤ big G M s ∧ small G (goto j p (ctsCrit G u c s1)) < small G s := by
  simp only [ctsCrit]
  split
  · split
    · next hr =>
      refine dec_run (u := u) (j := j) (p := p) (s1 := { s1 with susp := _, owed := _ }) ?_ ?_ ?_ ?_ ?_ ?_ h ?_ c1 c2 <;> try assumption
      refine idle_false.2 ?_
      have : isEmpty G s u = isEmpty G s1 u := by simp [isEmpty, hq, hx]
      rw [this, ← hcl]
      exact hr
    · refine dec_goto (j := j) (p := p) (s1 := { s1 with susp := _, owed := _, running := _ }) ?_ ?_ ?_ ?_ ?_ ?_ h c1 (by omega) <;> assumption
  · refine dec_goto (j := j) (p := p) (s1 := { s1 with susp := _, owed := _ }) ?_ ?_ ?_ ?_ ?_ ?_ h c1 (by omega) <;> assumption

theorem load_enqueue {M : Nat} {d k : Nat} {m : Msg} :
    sumTo M (load G M (enqueue d k m s)) ≤ sumTo M (load G M s) + weight G M d := by
  have hq : (enqueue d k m s).q = upd s.q d (upd (s.q d) k (s.q d k ++ [m])) := by simp only [enqueue]; split <;> rfl
  have hc : (enqueue d k m s).closeQ = s.closeQ := by simp only [enqueue]; split <;> rfl
  have hdn : (enqueue d k m s).down = s.down := by simp only [enqueue]; split <;> rfl
  refine sumTo_change_le (k := d) (fun i hi => ?_) ?_
  · simp [load, len, hq, hc, hdn, upd, hi]
  · have : len G (enqueue d k m s) d ≤ len G s d + 1 := by
      refine sumTo_change_le (k := k) (fun i hi => ?_) ?_
      · simp [hq, upd, hi]
      · simp [hq, upd]
    have := Nat.mul_le_mul_left (weight G M d) this
    simp only [load, hc, hdn]
    rw [Nat.mul_add] at this
    omega

theorem jsum_enqueue {M d k : Nat} {m : Msg} : jsum (cost1 G M) (enqueue d k m s) = jsum (cost1 G M) s := by
  simp only [enqueue]
  split
  · rw [jsum_run]
    have : cost1 G M (.pop d) = 0 := rfl
    rw [this, Nat.add_zero]
    exact jsum_same rfl rfl
  · exact jsum_same rfl rfl

theorem len_pop {i : Nat} {ks : List Nat} {s1 : St} (hq : s1.q = upd s.q i (popQ ks (s.q i))) (hne : ∃ k ∈ ks, k < G.slots i ∧ s.q i k ≠ []) :
    len G s1 i + 1 ≤ len G s i := by
  obtain ⟨k, hk, hlt, hnk⟩ := hne
  have h1 : ∀ n, k < n → sumTo n (fun k => (s1.q i k).length) + 1 ≤ sumTo n fun k => (s.q i k).length := by
    have hle : ∀ k, (s1.q i k).length ≤ (s.q i k).length := by
      intro k; simp only [hq, upd, popQ, ↓reduceIte]; split <;> simp
    have hlt : (s1.q i k).length + 1 ≤ (s.q i k).length := by
      simp only [hq, upd, popQ, ↓reduceIte, hk, List.length_tail]
      have := List.length_pos_iff.2 hnk
      omega
    intro n
    induction n with
    | zero => intro h; omega
    | succ n ih =>
      intro h
      simp only [sumTo]
      by_cases e : k = n
      · subst e
        have := sumTo_le (f := fun k => (s1.q i k).length) (g := fun k => (s.q i k).length) (n := k) fun k _ => hle k
        omega
      · have := ih (by omega)
        have := hle n
        omega
  exact h1 _ hlt

/-- Every step of the network reduces the measure. -/
theorem dec_step {M N : Nat} (W : G.Wf) (B : G.Bounded N) (hM : N ≤ M) (L : Low G M s) (H : Hist G s) {a : Act}
    (ha : a.internal = true) (h : step G s a = some s') :
    big G M s' < big G M s ∨ (big G M s' ≤ big G M s ∧ small G s' < small G s) := by
  have hdl : ∀ i, (s.down i).length ≤ (G.down i).length := by
    intro i; rcases L.dn i with h1 | h1 <;> rw [h1]
    · exact Nat.le_refl _
    · simp
  have hds : ∀ i, spread G M (s.down i) ≤ spread G M (G.down i) := by
    intro i; rcases L.dn i with h1 | h1 <;> rw [h1]
    · exact Nat.le_refl _
    · simp [spread]
  cases a with
  | ret j r =>
    simp only [step] at h
    split at h
    · next i hj =>
      cases h
      have hlt := L.lt (j := j) (by simp [hj])
      exact .inr (dec_goto rfl rfl rfl rfl rfl rfl hlt (by simp [hj, cost1]) (by simp [hj, cost2]))
    · cases h
  | job j =>
    simp only [step, stepJob] at h
    split at h
    · cases h
    · next i hj =>
      cases h
      have hlt := L.lt (j := j) (by simp [hj])
      have hl := L.low j
      rw [hj] at hl
      have hi : i < M := hl i rfl
      simp only [popCrit]
      split
      · next he =>
        by_cases hc : s.closeQ i = true
        · left
          have h1 := big_goto (G := G) (M := M) (j := j) (p := .cts1 i [] none) (s := s)
            (s1 := { s with closeQ := upd s.closeQ i false, final := upd s.final i (s.closeQ i) }) rfl rfl hlt
          have h2 := sumTo_change (f := load G M { s with closeQ := upd s.closeQ i false, final := upd s.final i (s.closeQ i) })
            (g := load G M s) hi (fun k hk => by simp [load, len, upd, hk])
          have h3 : load G M { s with closeQ := upd s.closeQ i false, final := upd s.final i (s.closeQ i) } i + 1 = load G M s i := by
            simp [load, len, upd, hc]; omega
          have h4 : cost1 G M (s.pc j) = 0 := by rw [hj]; rfl
          have h5 : cost1 G M (.cts1 i [] none) = 0 := rfl
          simp only [big] at *
          omega
        · right
          have hc : s.closeQ i = false := by simpa using hc
          have hu : upd s.closeQ i false = s.closeQ := by funext k; simp only [upd]; split <;> simp_all
          rw [hu]
          refine dec_goto rfl rfl rfl rfl rfl rfl hlt (by simp [hj, cost1]) ?_
          have : idle G s i = true := by simp [idle, he, hc]
          simp [hj, cost2, this]
      · next he =>
        left
        have he : isEmpty G s i = false := by simpa using he
        have sp := popSlots_spec (st := G.strat i) (n := G.slots i) (idx := s.idx i) (q := s.q i) (W.dflt i)
          (fun h => by rw [H.idx i h]; exact Nat.mod_lt _ (W.slots i)) he
        generalize hks : popSlots (G.strat i) (G.slots i) (s.idx i) (s.q i) = ks at sp ⊢
        have hne : ∃ k ∈ ks, k < G.slots i ∧ s.q i k ≠ [] := by
          have : ks ≠ [] := by
            cases hst : G.strat i with
            | dflt => rw [sp.2.2.1 hst]; simp
            | zip => rw [sp.2.2.2.1 hst]; have := W.slots i; simp; omega
            | rr => rw [sp.2.2.2.2.1 hst]; simp
            | unord => obtain ⟨k, hk⟩ := sp.2.2.2.2.2 hst; rw [hk]; simp
          obtain ⟨k, hk⟩ := List.exists_mem_of_ne_nil _ this
          exact ⟨k, hk, sp.2.1 k hk⟩
        have h1 := big_goto (G := G) (M := M) (j := j)
          (p := .cts1 i (ctsSlots (G.strat i) (G.slots i) (G.buf i) ks (G.up i) (popQ ks (s.q i))) (some (popMsg ks (s.q i)))) (s := s)
          (s1 := { s with
            q := upd s.q i (popQ ks (s.q i)), idx := upd s.idx i (popIdx (G.strat i) (G.slots i) (s.idx i)),
            pops := upd s.pops i (s.pops i ++ [popMsg ks (s.q i)]) }) rfl rfl hlt
        generalize hs1 : ({ s with
            q := upd s.q i (popQ ks (s.q i)), idx := upd s.idx i (popIdx (G.strat i) (G.slots i) (s.idx i)),
            pops := upd s.pops i (s.pops i ++ [popMsg ks (s.q i)]) } : St) = s1 at h1 ⊢
        have hq : s1.q = upd s.q i (popQ ks (s.q i)) := by rw [← hs1]
        have hcq : s1.closeQ = s.closeQ := by rw [← hs1]
        have hdq : s1.down = s.down := by rw [← hs1]
        have h2 := sumTo_change (f := load G M s1) (g := load G M s) hi (fun k hk => by simp [load, len, hq, hcq, hdq, upd, hk])
        have h3 := Nat.mul_le_mul_left (weight G M i) (len_pop (G := G) hq hne)
        have h4 : load G M s1 i + weight G M i ≤ load G M s i := by
          simp only [load, hcq, hdq]
          rw [Nat.mul_add, Nat.mul_one] at h3
          omega
        have h5 := weight_spec (G := G) W B hM i
        have h6 : cost1 G M (s.pc j) = 0 := by rw [hj]; rfl
        simp only [cost1, big] at *
        omega
    · next i m hj =>
      cases h
      have hlt := L.lt (j := j) (by simp [hj])
      refine .inr (dec_goto rfl rfl rfl rfl rfl rfl hlt ?_ ?_) <;> split <;> simp [hj, cost1, cost2] <;> omega
    · next i hj =>
      cases h
      have hlt := L.lt (j := j) (by simp [hj])
      exact .inr (dec_goto rfl rfl rfl rfl rfl rfl hlt (by simp [hj, cost1]) (by simp [hj, cost2]))
    · next i k ks m hj =>
      have hlt := L.lt (j := j) (by simp [hj])
      split at h
      · cases h
        refine .inr (dec_goto rfl rfl rfl rfl rfl rfl hlt ?_ ?_) <;> split <;> cases m <;> simp [hj, cost1, cost2] <;> omega
      · cases h
        refine .inr (dec_goto rfl rfl rfl rfl rfl rfl hlt ?_ ?_) <;> cases m <;> simp [hj, cost1, cost2]
    · next i k ks m hj =>
      have hlt := L.lt (j := j) (by simp [hj])
      split at h
      · cases h
        refine .inr (dec_cts rfl rfl rfl rfl rfl rfl hlt ?_ ?_) <;> cases m <;> simp [hj, cost1, cost2] <;> omega
      · cases h
        refine .inr (dec_goto rfl rfl rfl rfl rfl rfl hlt ?_ ?_) <;> cases m <;> simp [hj, cost1, cost2] <;> omega
    · next i m hj =>
      cases h
      have hlt := L.lt (j := j) (by simp [hj])
      refine .inr (dec_goto rfl rfl rfl rfl rfl rfl hlt ?_ ?_) <;> cases m <;> simp [hj, cost1, cost2]
    · next i m hj =>
      cases h
      have hlt := L.lt (j := j) (by simp [hj])
      exact .inr (dec_goto rfl rfl rfl rfl rfl rfl hlt (by simp [hj, cost1]) (by simp [hj, cost2]))
    · cases h
    · next i r hj =>
      cases h
      have hlt := L.lt (j := j) (by simp [hj])
      have := hdl i
      refine .inr (dec_goto rfl rfl rfl rfl rfl rfl hlt ?_ ?_) <;> split <;> simp [hj, cost1, cost2] <;> omega
    · next i r acc hj =>
      cases h
      have hlt := L.lt (j := j) (by simp [hj])
      exact .inr (dec_goto rfl rfl rfl rfl rfl rfl hlt (by simp [hj, cost1]) (by simp [hj, cost2]))
    · next i r e es acc hj =>
      cases h
      have hlt := L.lt (j := j) (by simp [hj])
      exact .inr (dec_goto rfl rfl rfl rfl rfl rfl hlt (by simp [hj, cost1]) (by simp [hj, cost2]))
    · next i r b hj =>
      cases h
      have hlt := L.lt (j := j) (by simp [hj])
      have := hds i
      exact .inr (dec_goto rfl rfl rfl rfl rfl rfl hlt (by simp only [hj, cost1]; exact this) (by simp [hj, cost2]))
    · next i r e es hj =>
      cases h
      have hlt := L.lt (j := j) (by simp [hj])
      left
      have hpe := enqueue_pc (d := e.1) (k := e.2) (m := r) hlt
      have hn : j < (enqueue e.1 e.2 r s).next := by simp only [enqueue]; split <;> simp [run] <;> omega
      have h1 := jsum_goto (c := cost1 G M) (p := .send i r es) hn
      rw [hpe, jsum_enqueue, hj] at h1
      have h2 := load_enqueue (G := G) (s := s) (M := M) (d := e.1) (k := e.2) (m := r)
      have h3 : load G M (goto j (.send i r es) (enqueue e.1 e.2 r s)) = load G M (enqueue e.1 e.2 r s) := rfl
      simp only [big, h3]
      simp only [cost1, spread, List.map_cons, List.sum_cons] at h1
      omega
    · next i r hj =>
      cases h
      have hlt := L.lt (j := j) (by simp [hj])
      exact .inr (dec_goto rfl rfl rfl rfl rfl rfl hlt (by simp [hj, cost1]) (by simp [hj, cost2]))
    · next i hj =>
      cases h
      have hlt := L.lt (j := j) (by simp [hj])
      refine .inr (dec_goto rfl rfl rfl rfl rfl rfl hlt ?_ ?_) <;> split <;> simp [hj, cost1, cost2]
    · next i hj =>
      cases h
      have hlt := L.lt (j := j) (by simp [hj])
      exact .inr (dec_cts rfl rfl rfl rfl rfl rfl hlt (by simp [hj, cost1]) (by simp [hj, cost2]))
    · next i hj =>
      cases h
      have hlt := L.lt (j := j) (by simp [hj])
      have hl := L.low j
      rw [hj] at hl
      have hi : i < M := hl i rfl
      have key : ∀ s1 : St, s1.q = s.q → s1.idx = s.idx → s1.down = s.down → s1.closeQ = s.closeQ → j < s1.next → s1.pc j = s.pc j →
          jsum (cost1 G M) s1 = jsum (cost1 G M) s → jsum (cost2 G (idle G s)) s1 ≤ jsum (cost2 G (idle G s)) s + 1 →
          ∀ s2, s2 = (if s1.final i then
            goto j (.clear ((s1.down i).map fun e => (e.1, .up i e.2))) { s1 with down := upd s1.down i [], clr := upd s1.clr i (some j) }
          else goto j .none s1) → big G M s2 < big G M s ∨ (big G M s2 ≤ big G M s ∧ small G s2 < small G s) := by
        intro s1 hq hx hdn hcl hn hp hj1 hj2 s2 hs2
        have hid : ∀ p, idle G (goto j p s1) = idle G s := by intro p; funext k; simp [idle, isEmpty, hq, hx, hcl, goto]
        have hid2 : ∀ p, idle G (goto j p { s1 with down := upd s1.down i [], clr := upd s1.clr i (some j) }) = idle G s := by
          intro p; funext k; simp [idle, isEmpty, hq, hx, hcl, goto]
        split at hs2
        · by_cases hnil : s.down i = []
          · right
            subst hs2
            have hu : upd s1.down i [] = s1.down := by funext k; simp only [upd]; split <;> simp_all
            have hl : ∀ p, load G M (goto j p { s1 with down := upd s1.down i [], clr := upd s1.clr i (some j) }) = load G M s := by
              intro p; exact load_same hq hcl (by rw [← hdn]; exact hu)
            have e1 : ((s1.down i).map fun e => (e.1, SOwner.up i e.2)) = [] := by rw [hdn, hnil]; rfl
            have h1 := jsum_goto (c := cost1 G M) (j := j) (p := .clear [])
              (s := { s1 with down := upd s1.down i [], clr := upd s1.clr i (some j) }) hn
            have h2 := jsum_goto (c := cost2 G (idle G s)) (j := j) (p := .clear [])
              (s := { s1 with down := upd s1.down i [], clr := upd s1.clr i (some j) }) hn
            change _ = jsum _ s1 + _ at h1
            change _ = jsum _ s1 + _ at h2
            simp only [hp, hj] at h1 h2
            rw [e1]
            simp only [big, small, hl, hid2, cost1, cost2, List.length_nil] at *
            omega
          · left
            subst hs2
            have h1 := jsum_goto (c := cost1 G M) (j := j) (p := .clear ((s1.down i).map fun e => (e.1, .up i e.2)))
              (s := { s1 with down := upd s1.down i [], clr := upd s1.clr i (some j) }) hn
            change _ = jsum _ s1 + _ at h1
            simp only [hp, hj] at h1
            have h2 := sumTo_change (f := load G M { s1 with down := upd s1.down i [], clr := upd s1.clr i (some j) }) (g := load G M s) hi
              (fun k hk => by simp [load, len, hq, hcl, hdn, upd, hk])
            have h3 : load G M { s1 with down := upd s1.down i [], clr := upd s1.clr i (some j) } i + 4 * (s.down i).length = load G M s i := by
              simp only [load, len, hq, hcl, upd, ↓reduceIte, List.length_nil]; omega
            have h4 := List.length_pos_iff.2 hnil
            have h5 : ∀ p, load G M (goto j p { s1 with down := upd s1.down i [], clr := upd s1.clr i (some j) }) =
              load G M { s1 with down := upd s1.down i [], clr := upd s1.clr i (some j) } := fun _ => rfl
            have h6 : (s1.down i).length = (s.down i).length := by rw [hdn]
            simp only [big, h5, cost1, List.length_map] at *
            omega
        · right
          subst hs2
          have h1 := jsum_goto (c := cost1 G M) (j := j) (p := .none) (s := s1) hn
          have h2 := jsum_goto (c := cost2 G (idle G s)) (j := j) (p := .none) (s := s1) hn
          have hl : load G M (goto j .none s1) = load G M s := load_same hq hcl hdn
          simp only [hp, hj] at h1 h2
          simp only [big, small, hl, hid, cost1, cost2] at *
          omega
      refine key (if isEmpty G s i = false ∨ s.closeQ i = true then run i { s with
          running := upd s.running i (decide (isEmpty G s i = false ∨ s.closeQ i = true)), main := upd s.main i none }
        else { s with running := upd s.running i (decide (isEmpty G s i = false ∨ s.closeQ i = true)), main := upd s.main i none })
        ?_ ?_ ?_ ?_ ?_ ?_ ?_ ?_ _ ?_
      · split <;> rfl
      · split <;> rfl
      · split <;> rfl
      · split <;> rfl
      · split
        · simp only [run]; omega
        · exact hlt
      · split
        · exact run_pc (by exact hlt)
        · rfl
      · split
        · rw [jsum_run]; have : cost1 G M (.pop i) = 0 := rfl
          rw [this, Nat.add_zero]; exact jsum_same rfl rfl
        · exact jsum_same rfl rfl
      · split
        · next hr =>
          rw [jsum_run]
          change jsum _ s + _ ≤ _
          simp [cost2, idle_false.2 hr]
        · exact Nat.le_succ _
      · simp only [taskDone]
    · next hj =>
      cases h
      have hlt := L.lt (j := j) (by simp [hj])
      exact .inr (dec_goto rfl rfl rfl rfl rfl rfl hlt (by simp [hj, cost1]) (by simp [hj, cost2]))
    · next d o es hj =>
      have hlt := L.lt (j := j) (by simp [hj])
      split at h
      · cases h
        left
        have h1 := big_goto (G := G) (M := M) (j := j) (p := .close2 d es) (s := s)
          (s1 := { s with snd := upd s.snd d (s.snd d - 1), sown := upd s.sown d ((s.sown d).erase o), clsJob := upd s.clsJob d (some j) }) rfl rfl hlt
        rw [hj] at h1
        change _ = sumTo M (load G M s) + _ + _ at h1
        simp only [cost1, List.length_cons, big] at *
        omega
      · cases h
        left
        have h1 := big_goto (G := G) (M := M) (j := j) (p := .clear es) (s := s)
          (s1 := { s with snd := upd s.snd d (s.snd d - 1), sown := upd s.sown d ((s.sown d).erase o) }) rfl rfl hlt
        rw [hj] at h1
        change _ = sumTo M (load G M s) + _ + _ at h1
        simp only [cost1, List.length_cons, big] at *
        omega
    · next d es hj =>
      cases h
      have hlt := L.lt (j := j) (by simp [hj])
      left
      have key : ∀ s1 : St, s1.q = s.q → s1.down = s.down → s1.closeQ = upd s.closeQ d true → jsum (cost1 G M) s1 = jsum (cost1 G M) s →
          j < s1.next → s1.pc j = s.pc j → big G M (goto j (.clear es) s1) < big G M s := by
        intro s1 hq hdn hcl hjs hn hp
        have h1 := jsum_goto (c := cost1 G M) (p := .clear es) hn
        rw [hp, hj, hjs] at h1
        have h2 : sumTo M (load G M s1) ≤ sumTo M (load G M s) + 1 := by
          refine sumTo_change_le (k := d) (fun k hk => by simp [load, len, hq, hcl, hdn, upd, hk]) ?_
          simp only [load, len, hq, hcl, hdn, upd, ↓reduceIte]
          omega
        have h3 : load G M (goto j (.clear es) s1) = load G M s1 := rfl
        simp only [big, h3, cost1] at *
        omega
      split
      · refine key _ rfl rfl rfl ?_ ?_ ?_
        · rw [jsum_run]; have : cost1 G M (.pop d) = 0 := rfl
          rw [this, Nat.add_zero]; exact jsum_same rfl rfl
        · simp only [run]; omega
        · rw [run_pc (by exact hlt)]
      · exact key _ rfl rfl rfl (jsum_same rfl rfl) hlt rfl
    · next i hj =>
      cases h
      have hlt := L.lt (j := j) (by simp [hj])
      right
      split
      · next hr =>
        exact dec_run rfl rfl rfl rfl rfl rfl hlt (idle_false.2 hr.1) (by simp [hj, cost1]) (by simp [hj, cost2])
      · exact dec_goto rfl rfl rfl rfl rfl rfl hlt (by simp [hj, cost1]) (by simp [hj, cost2])
    · cases h
  | _ => cases ha

/-! ## C59 -/

theorem Reachable.step {a : Act} (h : Reachable G s) (hs : step G s a = some s') : Reachable G s' := by
  obtain ⟨as, e⟩ := h
  exact ⟨as ++ [a], by rw [exec_snoc e]; exact hs⟩

/-- The network goes from one state to another without its users doing anything. -/
def Next (G : Net) (s s' : St) : Prop := ∃ a : Act, a.internal = true ∧ Channel.step G s a = some s'

/-- The same, but no function throws. -/
def NextPlain (G : Net) (s s' : St) : Prop := ∃ a : Act, a.internal = true ∧ Plain a = true ∧ Channel.step G s a = some s'

/-- Whatever order the steps of `R` are taken in, `P` holds at some time. -/
inductive Eventually (R : St → St → Prop) (P : St → Prop) : St → Prop where
  | now {s : St} : P s → Eventually R P s
  | later {s : St} : (∃ s', R s s') → (∀ s', R s s' → Eventually R P s') → Eventually R P s

/-- Without new messages there are only finitely many steps, in whatever order the threads take them and whatever the
functions return or throw. -/
theorem c59_terminates (W : G.Wf) {N : Nat} (B : G.Bounded N) (h : Reachable G s) : Acc (fun s' s => Next G s s') s := by
  obtain ⟨M, hM, L⟩ := h.low W B
  have key : ∀ m : Nat × Nat, ∀ s, (big G M s, small G s) = m → Reachable G s → Low G M s → Acc (fun s' s => Next G s s') s := by
    intro m
    induction m using (Prod.lex Nat.lt_wfRel Nat.lt_wfRel).wf.induction with
    | _ m ih =>
      intro s hm h L
      constructor
      rintro s' ⟨a, ha, hs⟩
      refine ih (big G M s', small G s') ?_ s' rfl (h.step hs) (L.step W B hM ha hs)
      subst hm
      rcases dec_step W B hM L (h.hist W) ha hs with h1 | ⟨h1, h2⟩
      · exact .left _ _ h1
      · rcases Nat.lt_or_ge (big G M s') (big G M s) with h3 | h3
        · exact .left _ _ h3
        · rw [Nat.le_antisymm h1 h3]
          exact .right _ h2
  exact key _ s rfl h L

/-- So there is no run that goes on for ever. -/
theorem c59_no_infinite_run (W : G.Wf) {N : Nat} (B : G.Bounded N) (h : Reachable G s) (f : Nat → St) (h0 : f 0 = s) :
    ¬∀ n, Next G (f n) (f (n + 1)) := by
  intro hf
  have key : ∀ s, Acc (fun s' s => Next G s s') s → ∀ n, f n ≠ s := by
    intro s ha
    induction ha with
    | intro s _ ih =>
      intro n hn
      exact ih (f (n + 1)) (hn ▸ hf n) (n + 1) rfl
  exact key s (c59_terminates W B h) 0 h0

/-- As long as a thread has something to do, there is a step. -/
theorem progress {j : Nat} (hj : (s.pc j).ended = false) : ∃ s', NextPlain G s s' := by
  by_cases hb : ∃ i, s.pc j = .busy i
  · obtain ⟨i, hi⟩ := hb
    exact ⟨goto j (.bcast i (.val 0)) { s with outs := upd s.outs i (s.outs i ++ [.val 0]) }, .ret j (.val 0), rfl, rfl,
      by simp only [Channel.step, hi]⟩
  · obtain ⟨s', h⟩ := c39_threads_go_on (G := G) hj fun i hi => hb ⟨i, hi⟩
    exact ⟨s', .job j, rfl, rfl, h⟩

/-- The steps come to an end only when no thread has anything to do. -/
theorem c59_rest (W : G.Wf) {N : Nat} (B : G.Bounded N) (h : Reachable G s) : Eventually (Next G) (fun s => ∀ j, (s.pc j).ended = true) s := by
  induction c59_terminates W B h with
  | intro s _ ih =>
    by_cases hq : ∀ j, (s.pc j).ended = true
    · exact .now hq
    · obtain ⟨j, hj⟩ := Classical.not_forall.1 hq
      obtain ⟨s', a, h1, -, h2⟩ := progress (G := G) (by simpa using hj)
      exact .later ⟨s', a, h1, h2⟩ fun s' hs => ih s' hs (by obtain ⟨a, -, hs⟩ := hs; exact h.step hs)

theorem enqueue_users {i k : Nat} {m : Msg} : (enqueue i k m s).rcv = s.rcv ∧ (enqueue i k m s).sown = s.sown := by
  simp only [enqueue]; split <;> exact ⟨rfl, rfl⟩

theorem ctsCrit_users {u : Nat} {c : Credit} : (ctsCrit G u c s).rcv = s.rcv ∧ (ctsCrit G u c s).sown = s.sown := by
  simp only [ctsCrit]; split <;> (try split) <;> exact ⟨rfl, rfl⟩

theorem taskDone_users {j i : Nat} : (taskDone G j i s).rcv = s.rcv ∧ (taskDone G j i s).sown = s.sown := by
  simp only [taskDone]; split <;> split <;> exact ⟨rfl, rfl⟩

theorem popCrit_users {j i : Nat} : (popCrit G j i s).rcv = s.rcv ∧ (popCrit G j i s).sown = s.sown := by
  simp only [popCrit]; split <;> exact ⟨rfl, rfl⟩

/-- The receivers and the senders of the users are not touched. -/
theorem Next.users (h : Next G s s') : s'.rcv = s.rcv ∧ ∀ i n, .ext n ∈ s'.sown i → .ext n ∈ s.sown i := by
  obtain ⟨a, ha, h⟩ := h
  cases a with
  | ret j r =>
    simp only [Channel.step] at h
    split at h <;> cases h
    exact ⟨rfl, fun _ _ => id⟩
  | job j =>
    have he : ∀ {s0 s1 : St}, s1.rcv = s0.rcv ∧ s1.sown = s0.sown →
        s1.rcv = s0.rcv ∧ ∀ i n, .ext n ∈ s1.sown i → .ext n ∈ s0.sown i := by
      intro s0 s1 h; rw [h.1, h.2]; exact ⟨rfl, fun _ _ => id⟩
    simp only [Channel.step, stepJob] at h
    split at h <;> (try split at h) <;> cases h
    all_goals first
      | exact he ⟨rfl, rfl⟩
      | exact he popCrit_users
      | exact he taskDone_users
      | exact he (enqueue_users (s := s))
      | exact he (ctsCrit_users (s := s))
      | exact he (ctsCrit_users (s := { s with main := _ }))
      | (split <;> exact he ⟨rfl, rfl⟩)
      | (refine ⟨rfl, fun i n hm => ?_⟩
         simp only [goto, upd] at hm
         split at hm
         · next e => subst e; exact List.mem_of_mem_erase hm
         · exact hm)
  | _ => cases ha

theorem NextPlain.next (h : NextPlain G s s') : Next G s s' := by
  obtain ⟨a, h1, -, h2⟩ := h
  exact ⟨a, h1, h2⟩

theorem NextPlain.clean (h : CleanReachable G s) (hs : NextPlain G s s') : CleanReachable G s' := by
  obtain ⟨a, h1, h2, h3⟩ := hs
  exact clean_exec h (as := [a]) (by simp [h2]) (by simp [exec, h3])

/-- The network comes to rest in a state that `P` follows from. -/
theorem eventually_rest (W : G.Wf) {N : Nat} (B : G.Bounded N) (h : Reachable G s) (hr : ∀ i, s.rcv i = 0)
    (P : St → Prop) (hP : ∀ s', Reachable G s' → Quiet s' → (∀ i n, .ext n ∈ s'.sown i → .ext n ∈ s.sown i) → P s') :
    Eventually (Next G) P s := by
  have ha := c59_terminates W B h
  induction ha with
  | intro s _ ih =>
    by_cases hq : ∀ j, (s.pc j).ended = true
    · exact .now (hP s h ⟨hq, hr⟩ fun _ _ => id)
    · obtain ⟨j, hj⟩ := Classical.not_forall.1 hq
      obtain ⟨s1, h1⟩ := progress (G := G) (s := s) (j := j) (by simpa using hj)
      refine .later ⟨s1, h1.next⟩ fun s' hs => ih s' hs (by obtain ⟨a, -, hs⟩ := hs; exact h.step hs) ?_ ?_
      · rw [hs.users.1]; exact hr
      · intro s'' h1 h2 h3
        exact hP s'' h1 h2 fun i n hm => hs.users.2 i n (h3 i n hm)

/-- If the functions do not throw, the network comes to rest in a state that `P` follows from. -/
theorem eventually_quiet (W : G.Wf) {N : Nat} (B : G.Bounded N) (h : CleanReachable G s) (hr : ∀ i, s.rcv i = 0)
    (P : St → Prop) (hP : ∀ s', CleanReachable G s' → Quiet s' → (∀ i n, .ext n ∈ s'.sown i → .ext n ∈ s.sown i) → P s') :
    Eventually (NextPlain G) P s := by
  have ha := c59_terminates W B h.reachable
  induction ha with
  | intro s _ ih =>
    by_cases hq : ∀ j, (s.pc j).ended = true
    · exact .now (hP s h ⟨hq, hr⟩ fun _ _ => id)
    · obtain ⟨j, hj⟩ := Classical.not_forall.1 hq
      refine .later (progress (by simpa using hj)) fun s' hs => ih s' hs.next (hs.clean h) ?_ ?_
      · rw [hs.next.users.1]; exact hr
      · intro s'' h1 h2 h3
        exact hP s'' h1 h2 fun i n hm => hs.next.users.2 i n (h3 i n hm)

/-- If every receiver is ready, the functions do not throw, and nothing is done by the users any more, then every message
sent so far is handled eventually, by the process it was sent to and by all after it: whatever the order of the steps. -/
theorem c59_all_handled (W : G.Wf) (T : G.Tight) {N : Nat} (B : G.Bounded N) (h : CleanReachable G s) (hr : ∀ i, s.rcv i = 0) :
    Eventually (NextPlain G) (fun s => ∀ i, (∀ d, Below G i d → Eager G d) →
      (∀ k < G.slots i, s.inp i k = fromSlot k (s.calls i)) ∧ (s.outs i).length = (s.calls i).length ∧
        ∀ d k, (d, k) ∈ G.down i → s.inp d k = s.outs i) s :=
  eventually_quiet W B h hr _ fun _ h1 h2 _ _ hE => c39_all_handled W T B h1.reachable h2 hE fun d _ => h1.not_failed d

/-- The same if functions throw and errors are sent, except for what was sent to a process that got an error itself, or is
before one that did. -/
theorem c59_all_handled_but_errors (W : G.Wf) (T : G.Tight) {N : Nat} (B : G.Bounded N) (h : Reachable G s)
    (hr : ∀ i, s.rcv i = 0) :
    Eventually (Next G) (fun s => ∀ i, (∀ d, Below G i d → Eager G d) →
      (∀ d, Below G i d → ∀ m ∈ s.pops d, ∀ x ∈ m, x.2 ≠ .err) →
      (∀ k < G.slots i, s.inp i k = fromSlot k (s.calls i)) ∧ (s.outs i).length = (s.calls i).length ∧
        ∀ d k, (d, k) ∈ G.down i → s.inp d k = s.outs i) s :=
  eventually_rest W B h hr _ fun _ h1 h2 _ _ hE hn => c39_all_handled W T B h1 h2 hE fun d hd hF => by
    obtain ⟨m, hm, x, hx, he⟩ := (c46_failed_iff W T h1 h2 d).1 hF
    exact hn d hd m hm x hx he

/-- ... and a process the users have no sender to any more, not even through other processes, is closed eventually. -/
theorem c59_closed (W : G.Wf) (T : G.Tight) {N : Nat} (B : G.Bounded N) (h : CleanReachable G s) (hr : ∀ i, s.rcv i = 0)
    {i : Nat} (hE : ∀ u d, Below G u i → Below G u d → Eager G d) (hx : ∀ u n, Below G u i → .ext n ∉ s.sown u) :
    Eventually (NextPlain G) (fun s => s.final i = true ∧ s.down i = []) s :=
  eventually_quiet W B h hr _ fun _ h1 h2 h3 =>
    let h := c45_all_closed_partial W T B h1.reachable h2 hE (fun _ d _ _ => h1.not_failed d) fun u n hu hm => hx u n hu (h3 u n hm)
    ⟨h.1, h.2.1⟩

/-! The hypotheses hold of the network of two processes, with two messages under way. -/

theorem pipe_bounded (b : Nat) : (pipe b).Bounded 2 := by intro d k i h; simp [pipe] at h; omega

example : ∃ s, Reachable (pipe 2) s ∧ s.pc 2 = .pop 0 ∧ s.q 0 0 = [.err, .val 11] ∧ (∃ s', Next (pipe 2) s s') ∧
    Eventually (Next (pipe 2)) (fun s => ∀ j, (s.pc j).ended = true) s := by
  obtain ⟨s, h, hp⟩ := witness (G := pipe 2) (as := ready2 ++ [.send 0 0 .err, .send 0 0 (.val 11)])
    (fun s => s.pc 2 = .pop 0 ∧ s.q 0 0 = [.err, .val 11]) (by decide)
  have hp := of_decide_eq_true hp
  obtain ⟨s', h'⟩ := progress (G := pipe 2) (s := s) (j := 2) (by rw [hp.1]; rfl)
  exact ⟨s, h, hp.1, hp.2, ⟨s', h'.next⟩, c59_rest (pipe_wf 2) (pipe_bounded 2) h⟩

example : ∃ s, CleanReachable (pipe 1) s ∧ s.q 0 0 = [.val 10, .val 11] ∧ s.calls 1 = [] ∧ s.final 1 = false ∧
    Eventually (NextPlain (pipe 1)) (fun s => s.final 1 = true ∧ s.down 1 = []) s := by
  obtain ⟨s, h, hp⟩ := clean_witness (G := pipe 1)
    (as := ready2 ++ [.send 0 0 (.val 10), .send 0 0 (.val 11), .dropSender 0 0])
    (fun s => ((List.range 2).all fun i => s.rcv i = 0) = true ∧ s.sown 0 = [] ∧ s.sown 1 = [.up 0 0] ∧
      s.q 0 0 = [.val 10, .val 11] ∧ s.calls 1 = [] ∧ s.final 1 = false) (by decide) (by decide)
  obtain ⟨h1, h2, h3, h4⟩ := of_decide_eq_true hp
  refine ⟨s, h, h4.1, h4.2.1, h4.2.2, c59_closed (pipe_wf 1) pipe_tight (pipe_bounded 1) h ?_ (fun _ _ _ _ => .inl rfl) ?_⟩
  · intro i
    by_cases hi : i < 2
    · simp only [List.all_eq_true, List.mem_range, decide_eq_true_eq] at h1; exact h1 i hi
    · exact h.reachable.rcv (if_neg hi)
  · intro u n hu
    have := pipe_below hu (by omega)
    have : u = 0 ∨ u = 1 := by omega
    rcases this with rfl | rfl
    · rw [h2]; simp
    · rw [h3]; simp

end Verif.Channel
