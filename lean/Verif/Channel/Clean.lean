import Verif.Channel.Demo

/-!
# Executions in which no error has to be handled
-/

namespace Verif.Channel

variable {G : Net} {s s' : St}

/-- No error is on its way to a process; any network and any buffer sizes. -/
structure NoErr (G : Net) (s : St) : Prop where
  dn : ∀ i, s.down i = G.down i ∨ s.down i = []
  vq : ∀ i k, .err ∉ s.q i k
  vc : ∀ j m, m ∈ (s.pc j).tocall → ∀ x ∈ m, x.2 ≠ .err
  vf : ∀ j i, (s.pc j).of = some i → .err ∈ (s.pc j).fresh ∨ .err ∈ (s.pc j).sending → G.down i = []
  un : ∀ j i r es, s.pc j = .send i r es → ∀ e ∈ es, e ∈ G.down i
  nd : ∀ j i m, s.pc j ≠ .dead i m

namespace NoErr

theorem init : NoErr G (init G) := by
  constructor <;> simp [Channel.init, Pc.tocall, Pc.of]

/-- What the other members are does not matter. -/
theorem same (h : NoErr G s) (h1 : s'.q = s.q) (h2 : s'.pc = s.pc) (h3 : s'.down = s.down) : NoErr G s' := by
  obtain ⟨dn, vq, vc, vf, un, nd⟩ := h
  constructor
  · rw [h3]; exact dn
  · rw [h1]; exact vq
  all_goals rw [h2]; assumption

theorem pc (h : NoErr G s) (j : Nat) {p : Pc} (h1 : s'.q = s.q) (h2 : s'.pc = upd s.pc j p) (h3 : s'.down = s.down)
    (vc' : ∀ m, m ∈ p.tocall → ∀ x ∈ m, x.2 ≠ .err)
    (vf' : ∀ i, p.of = some i → .err ∈ p.fresh ∨ .err ∈ p.sending → G.down i = [])
    (un' : ∀ i r es, p = .send i r es → ∀ e ∈ es, e ∈ G.down i) (nd' : ∀ i m, p ≠ .dead i m) : NoErr G s' := by
  obtain ⟨dn, vq, vc, vf, un, nd⟩ := h
  constructor
  · rw [h3]; exact dn
  · rw [h1]; exact vq
  all_goals
    intro x
    rw [h2]
    simp only [upd]
    split
    · assumption
  · exact vc x
  · exact vf x
  · exact un x
  · exact nd x

/-- A position that carries nothing. -/
theorem plain (h : NoErr G s) (j : Nat) {p : Pc} (h1 : s'.q = s.q) (h2 : s'.pc = upd s.pc j p) (h3 : s'.down = s.down)
    (h4 : p.tocall = []) (h5 : p.fresh = [] ∧ p.sending = []) (h6 : ∀ i m, p ≠ .dead i m) : NoErr G s' := by
  refine h.pc j h1 h2 h3 (by simp [h4]) (by simp [h5]) ?_ h6
  rintro i r es rfl
  simp [Pc.sending] at h5

theorem run (h : NoErr G s) (i : Nat) : NoErr G (run i s) :=
  h.plain s.next (s' := Channel.run i s) (p := .pop i) rfl rfl rfl rfl ⟨rfl, rfl⟩ (by simp)

theorem goto (h : NoErr G s) (j : Nat) {p : Pc} (h4 : p.tocall = []) (h5 : p.fresh = [] ∧ p.sending = []) (h6 : ∀ i m, p ≠ .dead i m) :
    NoErr G (goto j p s) := h.plain j (s' := Channel.goto j p s) (p := p) rfl rfl rfl h4 h5 h6

/-- The same to call, if anything. -/
theorem gotoCts (h : NoErr G s) {j : Nat} {p p' : Pc} (hp : p.tocall = p'.tocall) (h0 : ∀ m, m ∈ p.tocall → ∀ x ∈ m, x.2 ≠ .err)
    (h5 : p'.fresh = [] ∧ p'.sending = []) (h6 : ∀ i m, p' ≠ .dead i m) : NoErr G (Channel.goto j p' s) := by
  refine h.pc j (s' := Channel.goto j p' s) (p := p') rfl rfl rfl (by rw [← hp]; exact h0) (by simp [h5]) ?_ h6
  rintro i r es rfl
  simp [Pc.sending] at h5

theorem enqueue (h : NoErr G s) {i k : Nat} {m : Msg} (hm : m ≠ .err) : NoErr G (enqueue i k m s) := by
  have h0 : NoErr G { s with q := upd s.q i (upd (s.q i) k (s.q i k ++ [m])), inp := upd s.inp i (upd (s.inp i) k (s.inp i k ++ [m])) } := by
    obtain ⟨dn, vq, vc, vf, un, nd⟩ := h
    refine ⟨dn, ?_, vc, vf, un, nd⟩
    intro a b
    have h1 := vq i k
    have h2 := vq a b
    by_cases ha : a = i
    · subst ha
      by_cases hb : b = k
      · subst hb; simp [upd, h1, Ne.symm hm]
      · simp [upd, hb, h2]
    · simp [upd, ha, h2]
  unfold Channel.enqueue
  dsimp only
  split
  · refine NoErr.run ?_ i; exact NoErr.same h0 rfl rfl rfl
  · exact h0

theorem ctsCrit (h : NoErr G s) (i : Nat) (c : Credit) : NoErr G (ctsCrit G i c s) := by
  unfold Channel.ctsCrit
  dsimp only
  split
  · split
    · refine NoErr.run ?_ i; exact NoErr.same h rfl rfl rfl
    · exact h.same rfl rfl rfl
  · exact h.same rfl rfl rfl

theorem popMsg_clean {ks : List Nat} {q : Nat → List Msg} (h : ∀ k, .err ∉ q k) : ∀ x ∈ popMsg ks q, x.2 ≠ .err := by
  intro x hx
  simp only [popMsg, List.mem_filterMap] at hx
  obtain ⟨k, -, hx⟩ := hx
  cases hq : q k with
  | nil => simp [hq] at hx
  | cons m ms =>
    simp only [hq, List.head?_cons, Option.map_some, Option.some.injEq] at hx
    subst hx
    rintro rfl
    exact h k (by rw [hq]; simp)

theorem stepJob (h : NoErr G s) {j : Nat} (hs : stepJob G j s = some s') : NoErr G s' := by
  have h0 := h
  obtain ⟨dn, vq, vc, vf, un, nd⟩ := h0
  have vcj := vc j
  have vfj := vf j
  have unj := un j
  unfold Channel.stepJob at hs
  cases hp : s.pc j
  all_goals rw [hp] at hs vcj vfj unj
  case none => cases hs
  case dead => cases hs
  case busy => cases hs
  case pop i =>
    cases hs
    unfold popCrit
    split
    · refine NoErr.goto ?_ j rfl ⟨rfl, rfl⟩ (by simp); exact NoErr.same h rfl rfl rfl
    · dsimp only
      refine NoErr.pc (s := { s with
        q := upd s.q i (popQ (popSlots (G.strat i) (G.slots i) (s.idx i) (s.q i)) (s.q i)) }) ⟨dn, ?_, vc, vf, un, nd⟩ j rfl rfl rfl ?_ ?_ ?_ ?_
      · intro a b
        simp only [upd, popQ]
        have := vq a b
        by_cases e : a = i
        · subst e
          rw [if_pos rfl]
          dsimp only [popQ]
          split
          · exact fun hm => this (List.mem_of_mem_tail hm)
          · exact this
        · simpa [e] using this
      · simp only [Pc.tocall, List.mem_singleton, forall_eq]
        exact popMsg_clean (vq i)
      · simp [Pc.fresh, Pc.sending]
      · simp
      · simp
  case cts1 i ks m =>
    cases ks with
    | nil =>
      cases m with
      | none => cases hs; exact h.goto j rfl ⟨rfl, rfl⟩ (by simp)
      | some m =>
        have hv : (m.any fun x => x.2 = Msg.err) = false := by simpa using vcj m (by simp [Pc.tocall])
        simp only [hv] at hs
        cases hs
        exact h.gotoCts (p := .cts1 i [] (some m)) rfl vcj ⟨rfl, rfl⟩ (by simp)
    | cons k ks =>
      have e : ∀ ks', (Pc.cts1 i (k :: ks) m).tocall = (Pc.cts1 i ks' m).tocall ∧ (Pc.cts1 i (k :: ks) m).tocall = (Pc.cts2 i ks' m).tocall := by
        intro; cases m <;> exact ⟨rfl, rfl⟩
      dsimp only at hs
      split at hs
      · cases hs
        split
        · exact h.gotoCts (e _).1 vcj ⟨rfl, rfl⟩ (by simp)
        · exact h.gotoCts (e _).2 vcj ⟨rfl, rfl⟩ (by simp)
      · cases hs; exact h.gotoCts (e _).1 vcj ⟨rfl, rfl⟩ (by simp)
  case cts2 i ks m =>
    have e : ∀ ks', (Pc.cts2 i ks m).tocall = (Pc.cts1 i ks' m).tocall := by intro; cases m <;> rfl
    cases ks with
    | nil => cases hs; exact h.gotoCts (e _) vcj ⟨rfl, rfl⟩ (by simp)
    | cons k ks =>
      dsimp only at hs
      split at hs
      · cases hs; exact NoErr.gotoCts (h.ctsCrit _ _) (e _) vcj ⟨rfl, rfl⟩ (by simp)
      · cases hs; exact h.gotoCts (e _) vcj ⟨rfl, rfl⟩ (by simp)
  case call i m => cases hs; (refine NoErr.goto ?_ j rfl ⟨rfl, rfl⟩ (by simp); exact h.same rfl rfl rfl)
  case bcast i r =>
    cases hs
    have := vfj i rfl
    split <;> exact h.pc j rfl rfl rfl (by simp [Pc.tocall]) (by simpa [Pc.fresh, Pc.of, Pc.sending] using this) (by simp) (by simp)
  case free i r es acc =>
    have := vfj i rfl
    cases es <;> cases hs <;>
      exact h.pc j rfl rfl rfl (by simp [Pc.tocall]) (by simpa [Pc.fresh, Pc.of, Pc.sending] using this) (by simp) (by simp)
  case susp i r b =>
    cases hs
    have := vfj i rfl
    refine NoErr.pc (h.same (s' := { s with
        susp := upd s.susp i (if b then (s.down i).length + 1 else 1)
        owed := upd s.owed i (.own :: if b then (s.down i).map fun e => .edge e.1 e.2 else []) }) rfl rfl rfl) j rfl rfl rfl (by simp [Pc.tocall]) (by simpa [Pc.fresh, Pc.of, Pc.sending] using this) ?_ (by simp)
    rintro i' r' es he e hm
    cases he
    rcases dn i with h | h <;> rw [h] at hm
    · exact hm
    · cases hm
  case send i r es =>
    cases es with
    | nil => cases hs; exact h.goto j rfl ⟨rfl, rfl⟩ (by simp)
    | cons e es =>
      cases hs
      have h1 := vfj i rfl
      have h2 := unj i r _ rfl
      have hr : r ≠ .err := by
        rintro rfl
        have := h2 e (by simp)
        rw [h1 (by simp [Pc.sending])] at this
        cases this
      refine NoErr.pc (h.enqueue (i := e.1) (k := e.2) hr) j rfl rfl rfl (by simp [Pc.tocall])
        (by simpa [Pc.fresh, Pc.of, Pc.sending] using h1) ?_ (by simp)
      rintro i' r' es' he x hx
      cases he
      exact h2 x (List.mem_cons_of_mem _ hx)
  case own1 i => cases hs; split <;> exact h.goto j rfl ⟨rfl, rfl⟩ (by simp)
  case own2 i => cases hs; refine NoErr.goto ?_ j rfl ⟨rfl, rfl⟩ (by simp); refine NoErr.ctsCrit ?_ _ _; exact h.same rfl rfl rfl
  case taskDone i =>
    cases hs
    unfold Channel.taskDone
    dsimp only
    have h1 : NoErr G (if isEmpty G s i = false ∨ s.closeQ i = true then Channel.run i { s with
        running := upd s.running i (decide (isEmpty G s i = false ∨ s.closeQ i = true)), main := upd s.main i none } else { s with
        running := upd s.running i (decide (isEmpty G s i = false ∨ s.closeQ i = true)), main := upd s.main i none }) := by
      split
      · refine NoErr.run ?_ i; exact h.same rfl rfl rfl
      · exact h.same rfl rfl rfl
    generalize (if isEmpty G s i = false ∨ s.closeQ i = true then Channel.run i { s with
        running := upd s.running i (decide (isEmpty G s i = false ∨ s.closeQ i = true)), main := upd s.main i none } else { s with
        running := upd s.running i (decide (isEmpty G s i = false ∨ s.closeQ i = true)), main := upd s.main i none }) = t at *
    split
    · refine NoErr.goto ?_ j rfl ⟨rfl, rfl⟩ (by simp)
      obtain ⟨dn, vq, vc, vf, un, nd⟩ := h1
      refine ⟨?_, vq, vc, vf, un, nd⟩
      intro a
      simp only [upd]
      split
      · exact .inr rfl
      · exact dn a
    · exact h1.goto j rfl ⟨rfl, rfl⟩ (by simp)
  case clear es =>
    cases es with
    | nil => cases hs; exact h.goto j rfl ⟨rfl, rfl⟩ (by simp)
    | cons x es =>
      obtain ⟨d, o⟩ := x
      dsimp only at hs
      split at hs <;> cases hs <;> (refine NoErr.goto ?_ j rfl ⟨rfl, rfl⟩ (by simp); exact h.same rfl rfl rfl)
  case close2 d es =>
    cases hs
    refine NoErr.goto ?_ j rfl ⟨rfl, rfl⟩ (by simp)
    split
    · refine NoErr.run ?_ d; exact h.same rfl rfl rfl
    · exact h.same rfl rfl rfl
  case ready2 i =>
    cases hs
    refine NoErr.goto ?_ j rfl ⟨rfl, rfl⟩ (by simp)
    split
    · refine NoErr.run ?_ i; exact h.same rfl rfl rfl
    · exact h.same rfl rfl rfl

theorem step (h : NoErr G s) {a : Act} (hc : Clean G s a) (hs : step G s a = some s') : NoErr G s' := by
  cases a with
  | job j => exact h.stepJob hs
  | ret j r =>
    simp only [Channel.step] at hs
    split at hs
    · rename_i i hp
      cases hs
      refine NoErr.pc (s := { s with outs := upd s.outs i (s.outs i ++ [r]) }) (h.same rfl rfl rfl) j rfl rfl rfl (by simp [Pc.tocall]) ?_ (by simp) (by simp)
      intro i' hi hr
      cases hi
      have : r = .err := by simpa [Pc.fresh, Pc.sending, eq_comm] using hr
      subst this
      exact hc i hp
    · cases hs
  | send i n m =>
    simp only [Channel.step] at hs
    split at hs <;> cases hs
    exact h.enqueue (by rintro rfl; exact hc)
  | copySender i n n' =>
    simp only [Channel.step] at hs
    split at hs <;> cases hs
    exact h.same rfl rfl rfl
  | dropSender i n =>
    simp only [Channel.step] at hs
    split at hs
    · split at hs <;> cases hs
      · exact h.plain s.next rfl rfl rfl rfl ⟨rfl, rfl⟩ (by simp)
      · exact h.same rfl rfl rfl
    · cases hs
  | copyRecv i =>
    simp only [Channel.step] at hs
    split at hs <;> cases hs
    exact h.same rfl rfl rfl
  | dropRecv i =>
    simp only [Channel.step] at hs
    split at hs
    · split at hs <;> cases hs
      · exact h.plain s.next rfl rfl rfl rfl ⟨rfl, rfl⟩ (by simp)
      · exact h.same rfl rfl rfl
    · cases hs

end NoErr

theorem CleanReachable.noErr (h : CleanReachable G s) : NoErr G s := by
  induction h with
  | init => exact .init
  | step _ hc hs ih => exact ih.step hc hs

theorem CleanReachable.not_failed (h : CleanReachable G s) (i : Nat) : ¬Failed s i := by
  rintro ⟨j, m, hj⟩
  exact h.noErr.nd j i m hj

end Verif.Channel
