import Verif.Channel.Clean

/-!
# Properties of networks of channels: one at a time and in order (C39-C41), merges (C42-C44), closing (C45), errors (C46)

All theorems are about every network that can be built, any number of messages and every interleaving. Those that need
`Net.Tight` hold for the default buffer sizes in particular; for other buffer sizes there are counterexamples in
`Verif.Channel.Counter`.
-/

namespace Verif.Channel

variable {G : Net} {s : St}

/-- The network is finite: only processes below `N` are connected. -/
def Net.Bounded (G : Net) (N : Nat) : Prop := ∀ d k i, G.up d k = some i → d < N

/-- `d` is `i` or gets messages, directly or not, from `i`. -/
inductive Below (G : Net) (i : Nat) : Nat → Prop where
  | refl : Below G i i
  | step {d e k : Nat} : Below G i d → (e, k) ∈ G.down d → Below G i e

theorem Below.head {i d k e : Nat} (h : (d, k) ∈ G.down i) (b : Below G d e) : Below G i e := by
  induction b with
  | refl => exact .step .refl h
  | step _ h' ih => exact .step ih h'

/-- The process takes a message as soon as there is one. -/
def Eager (G : Net) (i : Nat) : Prop := G.strat i = .dflt ∨ G.strat i = .unord

theorem Eager.nonempty (W : G.Wf) {i k : Nat} (h : Eager G i) (hk : k < G.slots i) (hq : s.q i k ≠ []) : isEmpty G s i = false := by
  rcases h with h | h
  · have := W.dflt i h
    have : k = 0 := by omega
    subst this
    simpa [isEmpty, emptyQ, h] using hq
  · simp only [isEmpty, emptyQ, h, List.all_eq_false, List.mem_range]
    exact ⟨k, hk, by simpa using hq⟩

/-- The thread of a process is one that has ended with an error, if there is any. -/
theorem Inv.quiet_dead (I : Inv G s) (Q : Quiet s) (i : Nat) : s.main i = none ∨ ∃ j m, s.main i = some j ∧ s.pc j = .dead i m := by
  cases h : s.main i with
  | none => exact .inl rfl
  | some j =>
    have h1 := (I.mn i j).2 h
    have h2 := Q.idle j
    cases hp : s.pc j <;> rw [hp] at h1 h2 <;> cases h1 <;> try cases h2
    exact .inr ⟨j, _, rfl, hp⟩

theorem Inv.quiet_main (I : Inv G s) (Q : Quiet s) {i : Nat} (hF : ¬Failed s i) : s.main i = none := by
  rcases I.quiet_dead Q i with h | ⟨j, m, -, h⟩
  · exact h
  · exact absurd ⟨j, m, h⟩ hF

theorem Inv.quiet_pcm (I : Inv G s) (Q : Quiet s) (i : Nat) :
    pcm s.pc s.main i = .none ∨ ∃ m, pcm s.pc s.main i = .dead i m := by
  rcases I.quiet_dead Q i with h | ⟨j, m, h, hp⟩
  · exact .inl (pcm_none h)
  · exact .inr ⟨m, by rw [pcm_some h, hp]⟩

theorem Inv.quiet_waits (I : Inv G s) (Q : Quiet s) {i : Nat} (hF : ¬Failed s i) (h : isEmpty G s i = false ∨ s.closeQ i = true) :
    ∃ d k, G.up d k = some i ∧ k < G.slots d ∧ s.q d k ≠ [] := by
  have hm := I.quiet_main Q hF
  have hr : s.running i = true := by
    rcases I.wk i h with h | h | h
    · exact h
    · exact absurd (Q.ready i) h
    · obtain ⟨j, hj⟩ := Option.ne_none_iff_exists'.1 h
      have := (I.rj i j).2 hj
      have h2 := Q.idle j
      cases hp : s.pc j <;> rw [hp] at this h2 <;> first | (cases h2; done) | cases this
  have ho : s.owed i ≠ [] := by
    rcases I.rn' i hr with h | h
    · exact absurd hm h
    · exact h
  obtain ⟨c, hc⟩ := List.exists_mem_of_ne_nil _ ho
  cases c with
  | own => have := (I.own i).1 hc; rw [pcm_none hm] at this; cases this
  | edge d k =>
    obtain ⟨hu, hk⟩ := I.ed i d k hc
    refine ⟨d, k, hu, hk, ?_⟩
    rcases (I.cr i d k hu hk).1 hc with h | h | h
    · exact h
    · rcases I.quiet_pcm Q d with h' | ⟨m, h'⟩ <;> rw [h'] at h <;> cases h
    · rw [pcm_none hm] at h; cases h

/-- In a quiet network nothing is left in the queues, unless there was an error. -/
theorem Inv.quiet_empty (W : G.Wf) (I : Inv G s) (Q : Quiet s) {N : Nat} (B : G.Bounded N) :
    ∀ n i, N - i ≤ n → (∀ d, Below G i d → Eager G d) → (∀ d, Below G i d → ¬Failed s d) → ∀ k < G.slots i, s.q i k = [] := by
  intro n
  induction n with
  | zero =>
    intro i hi hE hF k hk
    refine Classical.byContradiction fun hq => ?_
    obtain ⟨d, k', hu, hk', hq'⟩ := I.quiet_waits Q (hF i .refl) (.inl ((hE i .refl).nonempty W hk hq))
    have := W.order _ _ _ hu
    have := B _ _ _ hu
    omega
  | succ n ih =>
    intro i hi hE hF k hk
    refine Classical.byContradiction fun hq => ?_
    obtain ⟨d, k', hu, hk', hq'⟩ := I.quiet_waits Q (hF i .refl) (.inl ((hE i .refl).nonempty W hk hq))
    have h1 := W.order _ _ _ hu
    have := B _ _ _ hu
    exact hq' (ih d (by omega) (fun e he => hE e (he.head ((W.edges i d k').2 ⟨hu, hk'⟩)))
      (fun e he => hF e (he.head ((W.edges i d k').2 ⟨hu, hk'⟩))) k' hk')

/-- Two messages go through `pipe 1`, and the sender is destroyed. -/
def runPipe : List Act := ready2 ++ [.send 0 0 (.val 10), .send 0 0 (.val 11)] ++ go 2 3 ++ [.ret 2 (.val 20)] ++ go 2 8 ++ go 3 5 ++
  go 4 3 ++ [.ret 4 (.val 21)] ++ go 4 8 ++ [.ret 3 (.val 30)] ++ go 3 5 ++ go 5 5 ++ [.ret 5 (.val 31)] ++ go 5 5

/-! ## C39 -/

/-- The function of a process is never executing twice at the same time. -/
theorem c39_one_at_a_time (W : G.Wf) (T : G.Tight) (h : Reachable G s) {i j j' : Nat} (hj : s.pc j = .busy i)
    (hj' : s.pc j' = .busy i) : j = j' := by
  have I := h.inv W T
  have h1 := (I.mn i j).1 (by rw [hj]; rfl)
  have h2 := (I.mn i j').1 (by rw [hj']; rfl)
  rw [h1] at h2
  cases h2
  rfl

example : ∃ s, CleanReachable (pipe 1) s ∧ s.pc 2 = .busy 0 ∧ s.q 0 0 = [.val 11] := by
  obtain ⟨s, h, hp⟩ := clean_witness (G := pipe 1) (as := runPipe.take 9) (fun s => s.pc 2 = .busy 0 ∧ s.q 0 0 = [.val 11])
    (by decide) (by decide)
  exact ⟨s, h, by simpa using hp⟩

/-- Of each slot, the messages given to the function so far are the first ones sent to it, each once and in order; and
one more at most has been taken out of the queue. -/
theorem c39_in_order (W : G.Wf) (T : G.Tight) (h : Reachable G s) (i k : Nat) :
    ∃ p : List Args, p.length ≤ 1 ∧ s.inp i k = fromSlot k (s.calls i) ++ fromSlot k p ++ s.q i k := by
  have I := h.inv W T
  have H := h.hist W
  refine ⟨(pcm s.pc s.main i).tocall, ?_, ?_⟩
  · cases pcm s.pc s.main i <;> simp [Pc.tocall] <;> split <;> simp
  · rw [H.inp i k, I.ca i, fromSlot_append]

example : ∃ s, CleanReachable (pipe 1) s ∧ s.inp 1 0 = [.val 20, .val 21] ∧ s.calls 1 = [[(0, .val 20)]] ∧ s.q 1 0 = [.val 21] := by
  obtain ⟨s, h, hp⟩ := clean_witness (G := pipe 1) (as := runPipe.take 34)
    (fun s => s.inp 1 0 = [.val 20, .val 21] ∧ s.calls 1 = [[(0, .val 20)]] ∧ s.q 1 0 = [.val 21]) (by decide) (by decide)
  exact ⟨s, h, by simpa using hp⟩

/-- What a process is sent are the results of its upstream process, each once and in order; at most the last is missing. -/
theorem c39_results (W : G.Wf) (T : G.Tight) (h : Reachable G s) {i d k : Nat} (hu : G.up d k = some i)
    (hk : k < G.slots d) : ∃ l : List Msg, l.length ≤ 1 ∧ s.outs i = s.inp d k ++ l := by
  have I := h.inv W T
  have := I.fl i d k hu hk
  rw [List.append_assoc] at this
  refine ⟨_, ?_, this⟩
  by_cases hd : (d, k) ∈ (pcm s.pc s.main i).unsent
  · rw [if_pos hd]
    cases pcm s.pc s.main i <;> simp [Pc.fresh, Pc.sending]
  · rw [if_neg hd]
    cases pcm s.pc s.main i <;> simp [Pc.fresh]

/-- There is one result of each call. -/
theorem c39_result_of_each_call (W : G.Wf) (T : G.Tight) (h : Reachable G s) (i : Nat) :
    (s.calls i).length = (s.outs i).length ∨
      ((s.calls i).length = (s.outs i).length + 1 ∧ ∃ j, s.pc j = .busy i) := by
  have I := h.inv W T
  have hc := I.cb i
  cases hm : s.main i with
  | none => rw [pcm_none hm] at hc; exact .inl hc
  | some j =>
    rw [pcm_some hm] at hc
    have ho := (I.mn i j).2 hm
    cases hp : s.pc j with
    | busy i' =>
      rw [hp] at ho hc
      cases ho
      exact .inr ⟨hc, j, hp⟩
    | _ => rw [hp] at hc; exact .inl hc

/-- Every thread that is not in a function can go on. -/
theorem c39_threads_go_on {j : Nat} (h1 : (s.pc j).ended = false) (h2 : ∀ i, s.pc j ≠ .busy i) : ∃ s', step G s (.job j) = some s' := by
  refine Option.ne_none_iff_exists'.1 ?_
  simp only [step, stepJob]
  split <;> simp_all [Pc.ended] <;> split <;> simp

/-- When nothing is going on, then every message has been handled, by the process and by all that come after it, unless one
of them was sent an error. -/
theorem c39_all_handled (W : G.Wf) (T : G.Tight) {N : Nat} (B : G.Bounded N) (h : Reachable G s) (Q : Quiet s) {i : Nat}
    (hE : ∀ d, Below G i d → Eager G d) (hF : ∀ d, Below G i d → ¬Failed s d) :
    (∀ k < G.slots i, s.inp i k = fromSlot k (s.calls i)) ∧ (s.outs i).length = (s.calls i).length ∧
      ∀ d k, (d, k) ∈ G.down i → s.inp d k = s.outs i := by
  have I := h.inv W T
  have H := h.hist W
  have hm := pcm_none (pc := s.pc) (I.quiet_main Q (hF i .refl))
  refine ⟨?_, ?_, ?_⟩
  · intro k hk
    have hq := I.quiet_empty W Q B _ i (Nat.le_refl _) hE hF k hk
    have := H.inp i k
    rw [I.ca i, hm, hq] at this
    simpa [Pc.tocall] using this
  · have := I.cb i
    rw [hm] at this
    simpa [Pc.inside] using this.symm
  · intro d k hd
    obtain ⟨hu, hk⟩ := (W.edges i d k).1 hd
    have := I.fl i d k hu hk
    rw [hm] at this
    simpa [Pc.fresh, Pc.unsent] using this.symm

example : ∃ s, CleanReachable (pipe 1) s ∧ Quiet s ∧ s.calls 1 = [[(0, .val 20)], [(0, .val 21)]] := by
  obtain ⟨s, h, hp⟩ := clean_witness (G := pipe 1) (as := runPipe)
    (fun s => (((List.range s.next).all fun j => (s.pc j).ended) && (List.range 2).all fun i => s.rcv i = 0) = true ∧
      s.calls 1 = [[(0, .val 20)], [(0, .val 21)]]) (by decide) (by decide)
  have hp := of_decide_eq_true hp
  exact ⟨s, h, h.reachable.quiet 2 (fun i hi => if_neg (by omega)) hp.1, hp.2⟩

example : (pipe 1).Wf ∧ (pipe 1).Tight ∧ (pipe 1).Bounded 2 ∧ ∀ i, Eager (pipe 1) i :=
  ⟨pipe_wf 1, pipe_tight, by intro d k i h; simp [pipe] at h; omega, fun i => .inl rfl⟩

/-! ## C40, C41 -/

/-- See `c40_counterexample` for other buffer sizes: it is needed that among the downstream processes of each process one
has buffer size 1. -/
theorem c40_one_at_a_time_partial (W : G.Wf) (T : G.Tight) (h : Reachable G s) {i j j' : Nat} (hj : s.pc j = .busy i)
    (hj' : s.pc j' = .busy i) : j = j' := c39_one_at_a_time W T h hj hj'

/-- See `c41_counterexample` for other buffer sizes. -/
theorem c41_bound_partial (W : G.Wf) (T : G.Tight) (h : Reachable G s) {i d k : Nat} (hu : G.up d k = some i)
    (hk : k < G.slots d) : (s.q d k).length ≤ 1 ∧ (0 < G.buf d → (s.q d k).length ≤ G.buf d) := by
  have := (h.inv W T).q1 i d k hu hk
  exact ⟨this, fun h => by omega⟩

/-- Upstream waits for all of them: while a message is in a queue, the process that sent it does not call its function. -/
theorem c41_upstream_waits_partial (W : G.Wf) (T : G.Tight) (h : Reachable G s) {i d k : Nat} (hu : G.up d k = some i)
    (hk : k < G.slots d) (hq : s.q d k ≠ []) (j : Nat) : s.pc j ≠ .busy i := by
  intro hj
  have I := h.inv W T
  have hm := (I.mn i j).1 (by rw [hj]; rfl)
  have ho := I.pre i (by rw [pcm_some hm, hj]; rfl)
  have := (I.cr i d k hu hk).2 (.inl hq)
  rw [ho] at this
  cases this

example : ∃ s, CleanReachable (pipe 1) s ∧ s.q 1 0 = [.val 20] ∧ s.q 0 0 = [.val 11] ∧ s.main 0 = none := by
  obtain ⟨s, h, hp⟩ := clean_witness (G := pipe 1) (as := runPipe.take 18)
    (fun s => s.q 1 0 = [.val 20] ∧ s.q 0 0 = [.val 11] ∧ s.main 0 = none) (by decide) (by decide)
  exact ⟨s, h, by simpa using hp⟩

/-! ## C42-C44 -/

/-- A message in the `n`-th arguments is, of its slot, the one that comes after those in the arguments before. -/
theorem fromSlot_nth {k n : Nat} {ps : List Args} {m : Args} {x : Msg} (h : ps[n]? = some m) (hx : (k, x) ∈ m)
    (nd : (m.map (·.1)).Nodup) : (fromSlot k ps)[(fromSlot k (ps.take n)).length]? = some x := by
  have hn : n < ps.length := (List.getElem?_eq_some_iff.1 h).1
  have hs : ps = ps.take n ++ m :: ps.drop (n + 1) := by
    have h1 : ps[n] = m := (List.getElem?_eq_some_iff.1 h).2
    rw [← h1, ← List.drop_eq_getElem_cons hn, List.take_append_drop]
  have hm : fromSlot k [m] = [x] := by
    simp only [fromSlot, List.flatten_cons, List.flatten_nil, List.append_nil]
    clear h hs
    induction m with
    | nil => cases hx
    | cons a m ih =>
      simp only [List.map_cons, List.nodup_cons, List.mem_map, not_exists, not_and] at nd
      rcases List.mem_cons.1 hx with rfl | hx
      · have : m.filter (fun y => y.1 = k) = [] := by
          refine List.filter_eq_nil_iff.2 fun y hy => ?_
          simpa using nd.1 y hy
        simp [this]
      · have : a.1 ≠ k := fun h => nd.1 _ hx h.symm
        simp [this, ih hx nd.2]
  have he : fromSlot k ps = fromSlot k (ps.take n) ++ ([x] ++ fromSlot k (ps.drop (n + 1))) := by
    conv => lhs; rw [hs]
    rw [show m :: ps.drop (n + 1) = [m] ++ ps.drop (n + 1) from rfl, fromSlot_append, fromSlot_append, hm]
  rw [he, List.getElem?_append_right (Nat.le_refl _)]
  simp

theorem fromSlot_single {k : Nat} {m : Args} (nd : (m.map (·.1)).Nodup) :
    (fromSlot k [m]).length = if k ∈ m.map (·.1) then 1 else 0 := by
  simp only [fromSlot, List.flatten_cons, List.flatten_nil, List.append_nil, List.length_map]
  induction m with
  | nil => rfl
  | cons a m ih =>
    simp only [List.map_cons, List.nodup_cons] at nd
    have := ih nd.2
    by_cases ha : a.1 = k
    · have hk : k ∉ m.map (·.1) := ha ▸ nd.1
      rw [if_neg hk] at this
      simp [ha, this]
    · have ha' : k ≠ a.1 := fun h => ha h.symm
      rw [List.filter_cons_of_neg (by simpa using ha), this]
      have : (k ∈ (a :: m).map (·.1)) = (k ∈ m.map (·.1)) := by
        rw [List.map_cons, List.mem_cons]; simp only [ha', false_or]
      simp only [this]

theorem take_snoc {ps : List Args} {n : Nat} {m : Args} (h : ps[n]? = some m) : ps.take (n + 1) = ps.take n ++ [m] := by
  rw [List.take_add_one, h]; rfl

/-- Zip: before the `n`-th, `n` messages of each slot have been taken. -/
theorem zip_count {c : Nat} {ps : List Args} (h : ∀ n m, ps[n]? = some m → Takes .zip c n m) {k : Nat} (hk : k < c) (n : Nat)
    (hn : n ≤ ps.length) : (fromSlot k (ps.take n)).length = n := by
  induction n with
  | zero => rfl
  | succ n ih =>
    have hm : ps[n]? = some (ps[n]'(by omega)) := List.getElem?_eq_getElem _
    have ht : (ps[n]'(by omega)).map (·.1) = List.range c := h _ _ hm
    rw [take_snoc hm, fromSlot_append, List.length_append, ih (by omega), fromSlot_single (by rw [ht]; exact List.nodup_range), ht,
      if_pos (List.mem_range.2 hk)]

/-- Round robin: before the `n`-th, as many of slot `k` as there are numbers below `n` with remainder `k`. -/
theorem rr_count {c : Nat} {ps : List Args} (h : ∀ n m, ps[n]? = some m → Takes .rr c n m) {k : Nat} (hk : k < c) (n : Nat)
    (hn : n ≤ ps.length) : (fromSlot k (ps.take n)).length = (n + (c - 1 - k)) / c := by
  induction n with
  | zero => rw [Nat.zero_add, Nat.div_eq_of_lt (by omega)]; rfl
  | succ n ih =>
    have hm : ps[n]? = some (ps[n]'(by omega)) := List.getElem?_eq_getElem _
    have ht : (ps[n]'(by omega)).map (·.1) = [n % c] := h _ _ hm
    rw [take_snoc hm, fromSlot_append, List.length_append, ih (by omega), fromSlot_single (by rw [ht]; simp), ht]
    have h1 := Nat.div_add_mod n c
    generalize n / c = a at h1
    have hr : n % c < c := Nat.mod_lt _ (by omega)
    generalize n % c = r at h1 hr
    subst h1
    have e1 : c * a + r + (c - 1 - k) = (r + (c - 1 - k)) + c * a := by omega
    have e2 : c * a + r + 1 + (c - 1 - k) = (r + 1 + (c - 1 - k)) + c * a := by omega
    rw [e1, e2, Nat.add_mul_div_left _ _ (by omega), Nat.add_mul_div_left _ _ (by omega)]
    by_cases hkr : k = r
    · subst hkr
      have e3 : k + (c - 1 - k) = c - 1 := by omega
      have e4 : k + 1 + (c - 1 - k) = c := by omega
      rw [e3, e4, Nat.div_self (by omega), Nat.div_eq_of_lt (by omega)]
      simp
      omega
    · have : (r + (c - 1 - k)) / c = (r + 1 + (c - 1 - k)) / c := by
        by_cases hlt : r < k
        · rw [Nat.div_eq_of_lt (by omega), Nat.div_eq_of_lt (by omega)]
        · have e5 : r + (c - 1 - k) = (r - 1 - k) + c * 1 := by omega
          have e6 : r + 1 + (c - 1 - k) = (r - k) + c * 1 := by omega
          rw [e5, e6, Nat.add_mul_div_left _ _ (by omega), Nat.add_mul_div_left _ _ (by omega), Nat.div_eq_of_lt (by omega),
            Nat.div_eq_of_lt (by omega)]
      simp [hkr, this]

theorem Hist.zip_pops {i n : Nat} {m : Args} (H : Hist G s) (hz : G.strat i = .zip) (hm : (s.pops i)[n]? = some m) :
    m.map (·.1) = List.range (G.slots i) ∧ ∀ k x, (k, x) ∈ m → (s.inp i k)[n]? = some x := by
  have ht : ∀ n m, (s.pops i)[n]? = some m → Takes .zip (G.slots i) n m := fun n m h => hz ▸ H.takes i n m h
  refine ⟨ht n m hm, fun k x hx => ?_⟩
  have hks : m.map (·.1) = List.range (G.slots i) := ht n m hm
  have hk : k < G.slots i := by
    have : k ∈ m.map (·.1) := List.mem_map.2 ⟨_, hx, rfl⟩
    rw [hks] at this; exact List.mem_range.1 this
  have h1 := fromSlot_nth hm hx (by rw [hks]; exact List.nodup_range)
  have hn : n < (s.pops i).length := (List.getElem?_eq_some_iff.1 hm).1
  rw [zip_count ht hk n (by omega)] at h1
  have hl : n < (fromSlot k (s.pops i)).length := (List.getElem?_eq_some_iff.1 h1).1
  rw [H.inp i k, List.getElem?_append_left hl, h1]

theorem Hist.rr_pops (W : G.Wf) {i n : Nat} {m : Args} (H : Hist G s) (hz : G.strat i = .rr) (hm : (s.pops i)[n]? = some m) :
    ∃ x, m = [(n % G.slots i, x)] ∧ (s.inp i (n % G.slots i))[n / G.slots i]? = some x := by
  have ht : ∀ n m, (s.pops i)[n]? = some m → Takes .rr (G.slots i) n m := fun n m h => hz ▸ H.takes i n m h
  have hks : m.map (·.1) = [n % G.slots i] := ht n m hm
  have hc := W.slots i
  have hk : n % G.slots i < G.slots i := Nat.mod_lt _ hc
  match m, hks with
  | [(k, x)], hks =>
    simp only [List.map_cons, List.map_nil, List.cons.injEq, and_true] at hks
    subst hks
    refine ⟨x, rfl, ?_⟩
    have h1 := fromSlot_nth hm (List.mem_singleton.2 rfl) (by simp)
    have hn : n < (s.pops i).length := (List.getElem?_eq_some_iff.1 hm).1
    rw [rr_count ht hk n (by omega)] at h1
    have he : (n + (G.slots i - 1 - n % G.slots i)) / G.slots i = n / G.slots i := by
      have h2 := Nat.div_add_mod n (G.slots i)
      generalize n % G.slots i = r at h2 hk
      generalize G.slots i = c at h2 hk hc
      generalize hq : n / c = a at h2
      have e : n + (c - 1 - r) = c - 1 + c * a := by omega
      rw [e, Nat.add_mul_div_left _ _ hc, Nat.div_eq_of_lt (by omega), Nat.zero_add]
    rw [he] at h1
    have hl := (List.getElem?_eq_some_iff.1 h1).1
    rw [H.inp, List.getElem?_append_left hl, h1]

theorem Hist.unord_pops {i n : Nat} {m : Args} (H : Hist G s) (hz : G.strat i = .unord) (hm : (s.pops i)[n]? = some m) :
    ∃ k x, k < G.slots i ∧ m = [(k, x)] ∧ (s.inp i k)[(fromSlot k ((s.pops i).take n)).length]? = some x := by
  have ht := H.takes i n m hm
  rw [hz] at ht
  obtain ⟨k, hk, hks⟩ := ht
  match m, hks with
  | [(k', x)], hks =>
    simp only [List.map_cons, List.map_nil, List.cons.injEq, and_true] at hks
    subst hks
    refine ⟨k', x, hk, rfl, ?_⟩
    have h1 := fromSlot_nth hm (List.mem_singleton.2 rfl) (by simp)
    have hl := (List.getElem?_eq_some_iff.1 h1).1
    rw [H.inp, List.getElem?_append_left hl, h1]

theorem Inv.calls_pops (I : Inv G s) {i n : Nat} {m : Args} (h : (s.calls i)[n]? = some m) : (s.pops i)[n]? = some m := by
  have hl := (List.getElem?_eq_some_iff.1 h).1
  rw [I.ca i, List.getElem?_append_left hl, h]

/-- The arguments of every call, in any network, have been taken out of the queues by one `pop_from_queue`. -/
theorem Reachable.called (h : Reachable G s) {i : Nat} {m : Args} (hm : m ∈ s.calls i) : ∃ n : Nat, (s.pops i)[n]? = some m := by
  have := h.once.le i m
  have h1 := List.count_pos_iff.2 hm
  have h2 : m ∈ s.pops i := List.count_pos_iff.1 (by omega)
  exact List.mem_iff_getElem?.1 h2

/-- Whatever the buffer sizes: every call of a `zip_with` process is with the `n`-th message of each upstream, for some `n`. -/
theorem c42_zip_pairs (W : G.Wf) (h : Reachable G s) {i : Nat} (hz : G.strat i = .zip) {m : Args} (hm : m ∈ s.calls i) :
    ∃ n : Nat, m.map (·.1) = List.range (G.slots i) ∧ ∀ k x, (k, x) ∈ m → (s.inp i k)[n]? = some x := by
  obtain ⟨n, hn⟩ := h.called hm
  exact ⟨n, (h.hist W).zip_pops hz hn⟩

/-- ... and with small buffers the `n`-th call is that for `n`. With other buffers it need not be, see `c42_counterexample`. -/
theorem c42_zip_order_partial (W : G.Wf) (T : G.Tight) (h : Reachable G s) {i : Nat} (hz : G.strat i = .zip) {n : Nat} {m : Args}
    (hm : (s.calls i)[n]? = some m) : m.map (·.1) = List.range (G.slots i) ∧ ∀ k x, (k, x) ∈ m → (s.inp i k)[n]? = some x :=
  (h.hist W).zip_pops hz ((h.inv W T).calls_pops hm)

example : ∃ s, CleanReachable (merge .zip 1) s ∧ s.calls 2 = [[(0, .val 10), (1, .val 50)]] ∧ s.q 2 0 = [.val 11] := by
  obtain ⟨s, h, hp⟩ := clean_witness (G := merge .zip 1)
    (as := ready4 ++ [.send 0 0 (.val 10)] ++ go 4 3 ++ [.ret 4 (.val 10)] ++ go 4 8 ++ [.send 1 0 (.val 50)] ++ go 6 3 ++
      [.ret 6 (.val 50)] ++ go 6 8 ++ go 5 7 ++ [.ret 5 (.val 90)] ++ go 5 8 ++ [.send 0 0 (.val 11)] ++ go 8 3 ++
      [.ret 8 (.val 11)] ++ go 8 8)
    (fun s => s.calls 2 = [[(0, .val 10), (1, .val 50)]] ∧ s.q 2 0 = [.val 11]) (by decide) (by decide)
  exact ⟨s, h, by simpa using hp⟩

/-- Whatever the buffer sizes: round robin takes the messages cyclically. -/
theorem c43_round_robin_takes (W : G.Wf) (h : Reachable G s) {i : Nat} (hz : G.strat i = .rr) {m : Args} (hm : m ∈ s.calls i) :
    ∃ n x, m = [(n % G.slots i, x)] ∧ (s.inp i (n % G.slots i))[n / G.slots i]? = some x := by
  obtain ⟨n, hn⟩ := h.called hm
  exact ⟨n, (h.hist W).rr_pops W hz hn⟩

/-- The `n`-th call of a round robin merge of `c` channels is with the message number `n / c` of the upstream `n % c`, if the
buffers are small. -/
theorem c43_round_robin_partial (W : G.Wf) (T : G.Tight) (h : Reachable G s) {i : Nat} (hz : G.strat i = .rr) {n : Nat} {m : Args}
    (hm : (s.calls i)[n]? = some m) :
    ∃ x, m = [(n % G.slots i, x)] ∧ (s.inp i (n % G.slots i))[n / G.slots i]? = some x :=
  (h.hist W).rr_pops W hz ((h.inv W T).calls_pops hm)

example : ∃ s, CleanReachable (merge .rr 1) s ∧ s.calls 2 = [[(0, .val 10)], [(1, .val 50)]] := by
  obtain ⟨s, h, hp⟩ := clean_witness (G := merge .rr 1)
    (as := ready4 ++ [.send 1 0 (.val 50)] ++ go 4 3 ++ [.ret 4 (.val 50)] ++ go 4 8 ++ [.send 0 0 (.val 10)] ++ go 6 3 ++
      [.ret 6 (.val 10)] ++ go 6 8 ++ go 5 5 ++ [.ret 5 (.val 90)] ++ go 5 8 ++ go 7 5 ++ go 8 5)
    (fun s => s.calls 2 = [[(0, .val 10)], [(1, .val 50)]]) (by decide) (by decide)
  exact ⟨s, h, by simpa using hp⟩

/-- The `n`-th call of an unordered merge is with a single message, the next of its upstream. -/
theorem c44_unordered_partial (W : G.Wf) (T : G.Tight) (h : Reachable G s) {i : Nat} (hz : G.strat i = .unord) {n : Nat} {m : Args}
    (hm : (s.calls i)[n]? = some m) :
    ∃ k x, k < G.slots i ∧ m = [(k, x)] ∧ (s.inp i k)[(fromSlot k ((s.calls i).take n)).length]? = some x := by
  have I := h.inv W T
  obtain ⟨k, x, hk, hx, hi⟩ := (h.hist W).unord_pops hz (I.calls_pops hm)
  refine ⟨k, x, hk, hx, ?_⟩
  have hl := (List.getElem?_eq_some_iff.1 hm).1
  rw [I.ca i, List.take_append_of_le_length (by omega)] at hi
  exact hi

example : ∃ s, CleanReachable (merge .unord 1) s ∧ s.calls 2 = [[(1, .val 50)]] ∧ s.q 2 0 = [.val 10] := by
  obtain ⟨s, h, hp⟩ := clean_witness (G := merge .unord 1)
    (as := ready4 ++ [.send 1 0 (.val 50)] ++ go 4 3 ++ [.ret 4 (.val 50)] ++ go 4 8 ++ go 5 5 ++ [.send 0 0 (.val 10)] ++ go 6 3 ++
      [.ret 6 (.val 10)] ++ go 6 8)
    (fun s => s.calls 2 = [[(1, .val 50)]] ∧ s.q 2 0 = [.val 10]) (by decide) (by decide)
  exact ⟨s, h, by simpa using hp⟩

/-- Whatever the buffer sizes: every call is with a message sent to it. -/
theorem c44_unordered_sent (W : G.Wf) (h : Reachable G s) {i : Nat} (hz : G.strat i = .unord) {m : Args} (hm : m ∈ s.calls i) :
    ∃ (k : Nat) (x : Msg) (n : Nat), k < G.slots i ∧ m = [(k, x)] ∧ (s.inp i k)[n]? = some x := by
  obtain ⟨n, hn⟩ := h.called hm
  obtain ⟨k, x, hk, hx, hi⟩ := (h.hist W).unord_pops hz hn
  exact ⟨k, x, _, hk, hx, hi⟩

/-- No message is lost or handled twice while or after the channel is open: what was sent to a slot of a merge is what was
handled, at most one that was taken, and what is in the queue. -/
theorem c44_nothing_lost_partial (W : G.Wf) (T : G.Tight) (h : Reachable G s) (i k : Nat) :
    ∃ p : List Args, p.length ≤ 1 ∧ s.inp i k = fromSlot k (s.calls i) ++ fromSlot k p ++ s.q i k := c39_in_order W T h i k

/-! ## C45 -/

/-- No process is closed as long as there is a sender for it. -/
theorem c45_open_while_sender (W : G.Wf) (T : G.Tight) (h : Reachable G s) {i : Nat} (hs : s.sown i ≠ []) :
    s.closeQ i = false ∧ s.final i = false := by
  have I := h.inv W T
  have := mt (I.cs i).2 hs
  simp_all

example : (init (pipe 1)).sown 0 ≠ [] := by decide

/-- A process that is closed has handled all that its queue gives out. -/
theorem c45_handled_before_close (W : G.Wf) (T : G.Tight) (h : Reachable G s) {i : Nat} (hf : s.final i = true) :
    isEmpty G s i = true ∧ s.pops i = s.calls i ∧
      (Eager G i → ∀ k < G.slots i, s.inp i k = fromSlot k (s.calls i)) := by
  have I := h.inv W T
  have H := h.hist W
  obtain ⟨h1, -, -, h2⟩ := I.fi i hf
  have hp : s.pops i = s.calls i := by
    have := I.ca i
    rcases h2 with h2 | h2
    · have ht : (pcm s.pc s.main i).tocall = [] := by
        revert h2
        cases pcm s.pc s.main i <;> simp [Pc.ending, Pc.tocall] <;> split <;> simp_all
      simpa [ht] using this
    · rw [pcm_none h2.1] at this
      simpa [Pc.tocall] using this
  refine ⟨h1, hp, fun hE k hk => ?_⟩
  have hq : s.q i k = [] := by
    refine Classical.byContradiction fun hq => ?_
    have := hE.nonempty W hk hq
    rw [h1] at this; cases this
  rw [H.inp i k, hq, hp, List.append_nil]

/-- The downstream of a process is closed only after the process. -/
theorem c45_close_order (W : G.Wf) (T : G.Tight) (h : Reachable G s) {i : Nat} (hd : s.down i ≠ G.down i) :
    s.final i = true := by
  have I := h.inv W T
  rcases I.dn i with h | h
  · exact absurd h.1 hd
  · exact h.2.1

/-- The assertion in line 817 holds: a process is not to be run and closed at the same time. -/
theorem c45_not_run_and_close (W : G.Wf) (T : G.Tight) (h : Reachable G s) {i : Nat} (hf : s.final i = true) :
    ¬(isEmpty G s i = false ∨ s.closeQ i = true) := by
  have I := h.inv W T
  obtain ⟨h1, h2, -, -⟩ := I.fi i hf
  simp [h1, h2]

/-- When nothing is going on and the user has no sender any more of the channels a process comes after, it has handled all
messages and is closed, as is its downstream. With merges that wait for certain channels it need not be, see
`c45_counterexample`. -/
theorem c45_all_closed_partial (W : G.Wf) (T : G.Tight) {N : Nat} (B : G.Bounded N) (h : Reachable G s) (Q : Quiet s)
    {i : Nat} (hE : ∀ u d, Below G u i → Below G u d → Eager G d) (hF : ∀ u d, Below G u i → Below G u d → ¬Failed s d)
    (hx : ∀ u n, Below G u i → .ext n ∉ s.sown u) :
    s.final i = true ∧ s.down i = [] ∧ ∀ k < G.slots i, s.inp i k = fromSlot k (s.calls i) := by
  have I := h.inv W T
  have hfin : s.final i = true := by
    induction i using Nat.strongRecOn with
    | _ i ih =>
      have hs : s.sown i = [] := by
        refine Classical.byContradiction fun hs => ?_
        obtain ⟨o, ho⟩ := List.exists_mem_of_ne_nil _ hs
        cases o with
        | ext n => exact hx i n .refl ho
        | up u k =>
          rcases (I.so u i k).1 ho with h1 | h1
          · rcases I.dn u with h2 | h2
            · rw [h2.1] at h1
              have hu := W.order _ _ _ ((W.edges u i k).1 h1).1
              have := (I.fi u (ih u hu (fun w d hw => hE w d (hw.step h1)) (fun w d hw => hF w d (hw.step h1))
                fun w n hw => hx w n (hw.step h1))).2.2.2
              rw [pcm_none (I.quiet_main Q (hF u u (.step .refl h1) .refl))] at this
              rcases this with h3 | h3
              · cases h3
              · rw [← h2.1, h3.2] at h1; cases h1
            · rw [h2.1] at h1; cases h1
          · cases hc : s.clr u with
            | none => rw [pcm_none hc] at h1; cases h1
            | some j =>
              rw [pcm_some hc] at h1
              have h2 := Q.idle j
              cases hp : s.pc j <;> rw [hp] at h1 h2 <;> first | (cases h2; done) | cases h1
      rcases (I.cs i).1 hs with h1 | h1 | h1
      · obtain ⟨d, k, hu, hk, hq⟩ := I.quiet_waits Q (hF i i .refl .refl) (.inr h1)
        exact absurd (I.quiet_empty W Q B _ d (Nat.le_refl _) (fun e he => hE i e .refl (he.head ((W.edges i d k).2 ⟨hu, hk⟩)))
          (fun e he => hF i e .refl (he.head ((W.edges i d k).2 ⟨hu, hk⟩))) k hk) hq
      · exact h1
      · obtain ⟨j, hj⟩ := Option.ne_none_iff_exists'.1 h1
        have := (I.cj i j).2 hj
        have h2 := Q.idle j
        cases hp : s.pc j <;> rw [hp] at this h2 <;> first | (cases h2; done) | cases this
  refine ⟨hfin, ?_, (c45_handled_before_close W T h hfin).2.2 (hE i i .refl .refl)⟩
  have := (I.fi i hfin).2.2.2
  rw [pcm_none (I.quiet_main Q (hF i i .refl .refl))] at this
  rcases this with h3 | h3
  · cases h3
  · exact h3.2

theorem pipe_below {b u i : Nat} (h : Below (pipe b) u i) (hi : i < 2) : u < 2 := by
  induction h with
  | refl => exact hi
  | step h1 h2 ih =>
    refine ih ?_
    simp only [pipe] at h2
    split at h2
    · omega
    · cases h2

example : ∃ s, CleanReachable (pipe 1) s ∧ Quiet s ∧ (∀ u n, Below (pipe 1) u 1 → .ext n ∉ s.sown u) ∧
    (∀ u d, Below (pipe 1) u 1 → Below (pipe 1) u d → Eager (pipe 1) d) := by
  obtain ⟨s, h, hp⟩ := clean_witness (G := pipe 1) (as := runPipe ++ [.dropSender 0 0] ++ go 6 2 ++ go 7 6 ++ go 8 4)
    (fun s => (((List.range s.next).all fun j => (s.pc j).ended) && (List.range 2).all fun i => s.rcv i = 0) = true ∧
      s.sown 0 = [] ∧ s.sown 1 = []) (by decide) (by decide)
  have hp := of_decide_eq_true hp
  refine ⟨s, h, h.reachable.quiet 2 (fun i hi => if_neg (by omega)) hp.1, fun u n hu => ?_, fun _ _ _ _ => .inl rfl⟩
  have := pipe_below hu (by omega)
  have : u = 0 ∨ u = 1 := by omega
  rcases this with rfl | rfl
  · rw [hp.2.1]; simp
  · rw [hp.2.2]; simp

example : ∃ s, CleanReachable (pipe 1) s ∧ Quiet s ∧ s.sown 0 = [] ∧ s.final 0 = true ∧ s.final 1 = true ∧
    s.calls 1 = [[(0, .val 20)], [(0, .val 21)]] := by
  obtain ⟨s, h, hp⟩ := clean_witness (G := pipe 1) (as := runPipe ++ [.dropSender 0 0] ++ go 6 2 ++ go 7 6 ++ go 8 4)
    (fun s => (((List.range s.next).all fun j => (s.pc j).ended) && (List.range 2).all fun i => s.rcv i = 0) = true ∧
      s.sown 0 = [] ∧ s.final 0 = true ∧ s.final 1 = true ∧ s.calls 1 = [[(0, .val 20)], [(0, .val 21)]]) (by decide) (by decide)
  have hp := of_decide_eq_true hp
  exact ⟨s, h, h.reachable.quiet 2 (fun i hi => if_neg (by omega)) hp.1, hp.2⟩

/-! ## C46 -/

/-- A process is marked as running only if there is a thread of it, or it waits for a process downstream that has a message
left or a thread, or it was sent an error. That it is so after an error violates C46, see `c46_wedged` and
`c46_counterexample`. -/
theorem c46_running_partial (W : G.Wf) (T : G.Tight) (h : Reachable G s) {i : Nat} (hr : s.running i = true) :
    (∃ j, (s.pc j).of = some i ∧ (s.pc j).ended = false) ∨ Failed s i ∨
      ∃ d k, (d, k) ∈ G.down i ∧ (s.q d k ≠ [] ∨ ∃ j, (s.pc j).of = some d ∧ (s.pc j).ended = false) := by
  have I := h.inv W T
  cases hm : s.main i with
  | some j =>
    have h1 := (I.mn i j).2 hm
    cases h2 : (s.pc j).ended with
    | false => exact .inl ⟨j, h1, h2⟩
    | true =>
      right; left
      cases hp : s.pc j <;> rw [hp] at h1 h2 <;> cases h1 <;> try cases h2
      exact ⟨j, _, hp⟩
  | none =>
    right; right
    have ho : s.owed i ≠ [] := by
      rcases I.rn' i hr with h | h
      · exact absurd hm h
      · exact h
    obtain ⟨c, hc⟩ := List.exists_mem_of_ne_nil _ ho
    cases c with
    | own => have := (I.own i).1 hc; rw [pcm_none hm] at this; cases this
    | edge d k =>
      obtain ⟨hu, hk⟩ := I.ed i d k hc
      refine ⟨d, k, (W.edges i d k).2 ⟨hu, hk⟩, ?_⟩
      rcases (I.cr i d k hu hk).1 hc with h | h | h
      · exact .inl h
      · right
        cases hd : s.main d with
        | none => rw [pcm_none hd] at h; cases h
        | some j =>
          refine ⟨j, (I.mn d j).2 hd, ?_⟩
          rw [pcm_some hd] at h
          cases hp : s.pc j <;> rw [hp] at h <;> first | (cases h; done) | rfl
      · rw [pcm_none hm] at h; cases h

/-- A function that throws, in a process without others after it, does not stop the process. -/
example : ∃ s, CleanReachable (pipe 1) s ∧ Quiet s ∧ s.outs 1 = [.err, .val 31] ∧ s.running 1 = false := by
  have hr : ∃ s, exec (pipe 1) (init (pipe 1)) (runPipe.take 35) = some s ∧ s.pc 3 = .busy 1 := by
    cases h : exec (pipe 1) (init (pipe 1)) (runPipe.take 35) with
    | none =>
      have : (exec (pipe 1) (init (pipe 1)) (runPipe.take 35)).isSome = true := by decide
      rw [h] at this; cases this
    | some s =>
      have : (exec (pipe 1) (init (pipe 1)) (runPipe.take 35)).any (fun s => s.pc 3 = .busy 1) = true := by decide
      rw [h] at this
      exact ⟨s, rfl, by simpa using this⟩
  obtain ⟨s, hs, hb⟩ := hr
  have h1 := clean_exec .init (by decide) hs
  have hc : Clean (pipe 1) s (.ret 3 .err) := by
    intro i hi
    rw [hb] at hi
    cases hi
    rfl
  cases h2 : step (pipe 1) s (.ret 3 .err) with
  | none => simp [step, hb] at h2
  | some s2 =>
    have h3 := h1.step hc h2
    have he : exec (pipe 1) (init (pipe 1)) (runPipe.take 35 ++ .ret 3 .err :: runPipe.drop 36) =
        exec (pipe 1) s2 (runPipe.drop 36) := by
      rw [exec_append, hs]
      simp only [Option.bind_some, exec, h2]
    have hd : (exec (pipe 1) (init (pipe 1)) (runPipe.take 35 ++ .ret 3 .err :: runPipe.drop 36)).any
        (fun s => (((List.range s.next).all fun j => (s.pc j).ended) && (List.range 2).all fun i => s.rcv i = 0) = true ∧
          s.outs 1 = [.err, .val 31] ∧ s.running 1 = false) = true := by decide
    rw [he] at hd
    cases h4 : exec (pipe 1) s2 (runPipe.drop 36) with
    | none => rw [h4] at hd; cases hd
    | some s3 =>
      rw [h4] at hd
      have hp := of_decide_eq_true hd
      have h5 := clean_exec h3 (by decide) h4
      exact ⟨s3, h5, h5.reachable.quiet 2 (fun i hi => if_neg (by omega)) hp.1, hp.2⟩

/-! ## C57 -/

theorem fromSlot_perm {k : Nat} {l l' : List Args} (h : l.Perm l') : (fromSlot k l).Perm (fromSlot k l') :=
  ((h.flatten).filter _).map _

theorem fromSlot_count_le {k : Nat} {x : Msg} {l l' : List Args} (h : ∀ m, l.count m ≤ l'.count m) :
    (fromSlot k l).count x ≤ (fromSlot k l').count x := by
  induction l generalizing l' with
  | nil => exact Nat.zero_le _
  | cons a l ih =>
    have ha : a ∈ l' := List.count_pos_iff.1 (Nat.lt_of_lt_of_le (by simp) (h a))
    have hp := List.perm_cons_erase ha
    have := ih (l' := l'.erase a) fun m => by
      have h1 := h m
      rw [hp.count_eq, List.count_cons, List.count_cons] at h1
      omega
    rw [(fromSlot_perm hp).count_eq, show a :: l = [a] ++ l from rfl, show a :: l'.erase a = [a] ++ l'.erase a from rfl, fromSlot_append,
      fromSlot_append, List.count_append, List.count_append]
    omega

/-- Whatever the buffer sizes and whatever fails: no message is handled more often than it was sent. -/
theorem c57_at_most_once (W : G.Wf) (h : Reachable G s) (i k : Nat) (x : Msg) :
    (fromSlot k (s.calls i)).count x ≤ (s.inp i k).count x := by
  have h1 : (fromSlot k (s.calls i)).count x ≤ (fromSlot k (s.pops i)).count x :=
    fromSlot_count_le fun m => by have := h.once.le i m; omega
  rw [(h.hist W).inp i k, List.count_append]
  omega

/-- ... and none of them is lost on the way: a message is in the queue, or has been taken out to be handled. -/
theorem c57_taken_in_order (W : G.Wf) (h : Reachable G s) (i k : Nat) :
    ∃ taken : List Msg, s.inp i k = taken ++ s.q i k ∧ ∀ x, (fromSlot k (s.calls i)).count x ≤ taken.count x := by
  refine ⟨fromSlot k (s.pops i), (h.hist W).inp i k, fun x => fromSlot_count_le fun m => ?_⟩
  have := h.once.le i m
  omega

example : ∃ s, Reachable (pipe 2) s ∧ s.inp 0 0 = [.val 10, .val 11] ∧ s.calls 0 = [[(0, .val 10)]] ∧ s.q 0 0 = [.val 11] := by
  obtain ⟨s, h, hp⟩ := witness (G := pipe 2) (as := runPipe.take 9)
    (fun s => s.inp 0 0 = [.val 10, .val 11] ∧ s.calls 0 = [[(0, .val 10)]] ∧ s.q 0 0 = [.val 11]) (by decide)
  exact ⟨s, h, by simpa using hp⟩

end Verif.Channel
