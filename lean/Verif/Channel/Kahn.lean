import Verif.Channel.Props

/-!
# C95: a network of channels computes the streams its functions compute

`callAt` says what a network without unordered merges computes, without threads, queues or buffers: the `t`-th call of a process is with
the `t`-th results of its upstream processes (`zip_with`), or with those that are next in turn (round robin), and the `t`-th message
of a channel is the `t`-th that was sent. The functions may have state: a result is given by all the calls so far.
-/

namespace Verif.Channel

variable {G : Net} {s : St}

/-- `g 0`, ..., `g (n - 1)`, if there are all of them. -/
def collect {α : Type} (g : Nat → Option α) : Nat → Option (List α)
  | 0 => some []
  | n + 1 => match collect g n, g n with
    | some l, some a => some (l ++ [a])
    | _, _ => none

/-- The `t`-th call of process `i`, if there is one: `F` are the functions, with the calls so far as their argument, and `X i` is what was
sent to channel `i`. The first number bounds the depth of the network above `i`. -/
def callAt (G : Net) (F : Nat → List Args → Msg) (X : Nat → List Msg) : Nat → Nat → Nat → Option Args
  | 0, _, _ => none
  | f + 1, i, t =>
    let inAt := fun k t => match G.up i k with
      | none => (X i)[t]?
      | some u => (collect (callAt G F X f u) (t + 1)).map (F u)
    match G.strat i with
    | .dflt => (inAt 0 t).map fun x => [(0, x)]
    | .zip => collect (fun k => (inAt k t).map fun x => (k, x)) (G.slots i)
    | .rr => (inAt (t % G.slots i) (t / G.slots i)).map fun x => [(t % G.slots i, x)]
    | .unord => none

/-- What happened in the part `C` of the network is a run of the program: results are those of the functions, and no more was sent
than `X`. -/
structure Runs (G : Net) (C : Nat → Prop) (F : Nat → List Args → Msg) (X : Nat → List Msg) (s : St) : Prop where
  fn : ∀ (i t : Nat) r, C i → (s.outs i)[t]? = some r → r = F i ((s.calls i).take (t + 1))
  sent : ∀ i, C i → G.up i 0 = none → s.inp i 0 <+: X i

theorem collect_take {α : Type} {g : Nat → Option α} {l : List α} {n : Nat} (hn : n ≤ l.length) (h : ∀ t, t < n → g t = l[t]?) :
    collect g n = some (l.take n) := by
  induction n with
  | zero => rfl
  | succ n ih =>
    rw [collect, ih (by omega) (fun t ht => h t (by omega)), h n (by omega), List.getElem?_eq_getElem (by omega)]
    rw [List.take_add_one, List.getElem?_eq_getElem (by omega)]
    rfl

theorem Hist.dflt_pops {i n : Nat} {m : Args} (H : Hist G s) (hz : G.strat i = .dflt) (hm : (s.pops i)[n]? = some m) :
    ∃ x, m = [(0, x)] ∧ (s.inp i 0)[n]? = some x := by
  have ht : ∀ n m, (s.pops i)[n]? = some m → Takes .zip 1 n m := by
    intro n m h
    have := H.takes i n m h
    rw [hz] at this
    exact this
  have hks : m.map (·.1) = [0] := ht n m hm
  match m, hks with
  | [(k, x)], hks =>
    simp only [List.map_cons, List.map_nil, List.cons.injEq, and_true] at hks
    subst hks
    refine ⟨x, rfl, ?_⟩
    have h1 := fromSlot_nth hm (List.mem_singleton.2 rfl) (by simp)
    have hn : n < (s.pops i).length := (List.getElem?_eq_some_iff.1 hm).1
    rw [zip_count ht (by omega) n (by omega)] at h1
    have hl := (List.getElem?_eq_some_iff.1 h1).1
    rw [H.inp, List.getElem?_append_left hl, h1]

/-- **C95**: every call is the one that the network computes, in every execution, at any time. -/
theorem c95_calls (W : G.Wf) (T : G.Tight) (h : Reachable G s) {C : Nat → Prop} {F : Nat → List Args → Msg} {X : Nat → List Msg}
    (R : Runs G C F X s) : ∀ {i f : Nat}, i < f → (∀ u, Below G u i → C u ∧ G.strat u ≠ .unord) → ∀ {t : Nat} {m : Args}, (s.calls i)[t]? = some m →
      callAt G F X f i t = some m := by
  have I := h.inv W T
  have H := h.hist W
  intro i
  induction i using Nat.strongRecOn with
  | ind i ih =>
    intro f hf hu t m hm
    obtain ⟨f, rfl⟩ : ∃ g, f = g + 1 := ⟨f - 1, by omega⟩
    -- a message that came to a slot
    have key : ∀ (k t : Nat) x, k < G.slots i → (s.inp i k)[t]? = some x →
        (match G.up i k with
          | none => (X i)[t]?
          | some u => (collect (callAt G F X f u) (t + 1)).map (F u)) = some x := by
      intro k t x hk hx
      cases hup : G.up i k with
      | none =>
        have hd := W.dflt i (W.head i k hk hup)
        have : k = 0 := by omega
        subst this
        obtain ⟨l, hl⟩ := R.sent i (hu i .refl).1 hup
        have := (List.getElem?_eq_some_iff.1 hx).1
        simp only
        rw [← hl, List.getElem?_append_left this, hx]
      | some u =>
        simp only
        have hlt := W.order u i k hup
        obtain ⟨l, -, hl⟩ := c39_results W T h hup hk
        have hx' : (s.outs u)[t]? = some x := by
          have := (List.getElem?_eq_some_iff.1 hx).1
          rw [hl, List.getElem?_append_left this, hx]
        have hn := (List.getElem?_eq_some_iff.1 hx').1
        have hc := I.cb u
        rw [collect_take (l := s.calls u) (by omega), Option.map_some, ← R.fn u t x (hu u (.step .refl ((W.edges u i k).2 ⟨hup, hk⟩))).1 hx']
        intro t' ht'
        rw [List.getElem?_eq_getElem (by omega)]
        exact ih u hlt (by omega) (fun w hw => hu w (.step hw ((W.edges u i k).2 ⟨hup, hk⟩)))
          (List.getElem?_eq_getElem (by omega))
    have hp := I.calls_pops hm
    have hs := W.slots i
    rw [callAt]
    cases hst : G.strat i with
    | dflt =>
      obtain ⟨x, rfl, hx⟩ := H.dflt_pops hst hp
      simp only
      rw [key 0 t x hs hx]
      rfl
    | zip =>
      obtain ⟨h1, h2⟩ := H.zip_pops hst hp
      have hl : m.length = G.slots i := by simpa using congrArg List.length h1
      simp only
      rw [collect_take (l := m) (by omega), ← hl, List.take_length]
      intro k hk
      have hk' : k < m.length := by omega
      rw [List.getElem?_eq_getElem hk']
      have h3 : (m[k]'(by omega)).1 = k := by
        have := congrArg (fun l => l[k]?) h1
        simp only [List.getElem?_map, List.getElem?_range hk] at this
        rw [List.getElem?_eq_getElem (by omega)] at this
        simpa using this
      have h4 := h2 k (m[k]'(by omega)).2 (by
        have : m[k]'(by omega) = (k, (m[k]'(by omega)).2) := Prod.ext h3 rfl
        rw [← this]
        exact List.getElem_mem _)
      rw [key k t _ hk h4, Option.map_some]
      exact congrArg some (Prod.ext h3.symm rfl)
    | rr =>
      obtain ⟨x, rfl, hx⟩ := H.rr_pops W hst hp
      simp only
      rw [key _ _ x (Nat.mod_lt _ hs) hx]
      rfl
    | unord => exact absurd hst (hu i .refl).2

/-- **C95**: so what a process is called with does not depend on the schedule: of two executions with the same functions and where the same
is sent to the channels, one perhaps more than the other, the calls in one are the first calls in the other. -/
theorem c95_deterministic (W : G.Wf) (T : G.Tight) {s' : St} (h : Reachable G s) (h' : Reachable G s') {C : Nat → Prop}
    {F : Nat → List Args → Msg} {X : Nat → List Msg} (R : Runs G C F X s) (R' : Runs G C F X s') {i : Nat}
    (hu : ∀ u, Below G u i → C u ∧ G.strat u ≠ .unord) :
    s.calls i <+: s'.calls i ∨ s'.calls i <+: s.calls i := by
  have key : ∀ l l' : List Args, (∀ (t : Nat) m, l[t]? = some m → callAt G F X (i + 1) i t = some m) →
      (∀ (t : Nat) m, l'[t]? = some m → callAt G F X (i + 1) i t = some m) → l.length ≤ l'.length → l <+: l' := by
    intro l l' h1 h2 hl
    rw [List.prefix_iff_eq_take]
    refine List.ext_getElem? fun t => ?_
    rw [List.getElem?_take]
    split
    · rename_i ht
      have a := h1 t _ (List.getElem?_eq_getElem ht)
      have b := h2 t _ (List.getElem?_eq_getElem (by omega))
      rw [List.getElem?_eq_getElem ht, List.getElem?_eq_getElem (by omega), ← a, ← b]
    · exact List.getElem?_eq_none (by omega)
  rcases Nat.le_total (s.calls i).length (s'.calls i).length with hl | hl
  · exact .inl (key _ _ (fun t m hm => c95_calls W T h R (by omega) hu hm) (fun t m hm => c95_calls W T h' R' (by omega) hu hm) hl)
  · exact .inr (key _ _ (fun t m hm => c95_calls W T h' R' (by omega) hu hm) (fun t m hm => c95_calls W T h R (by omega) hu hm) hl)

/-- Rates: one call of process `i` stands for `v i` units of what goes through the part `C` of the network. A round robin merge is called
once for each message, so it takes as many calls for a unit as it has slots. -/
structure Rates (G : Net) (C : Nat → Prop) (v : Nat → Nat) : Prop where
  pos : ∀ i, C i → 0 < v i
  closed : ∀ i d k, (d, k) ∈ G.down i → (C i ↔ C d)
  same : ∀ i d k, (d, k) ∈ G.down i → G.strat d ≠ .rr → v d = v i
  turn : ∀ i d k, (d, k) ∈ G.down i → G.strat d = .rr → v i = G.slots d * v d
  ordered : ∀ i, C i → G.strat i ≠ .unord

/-- How many messages of slot `k` are in the first `n` calls. -/
theorem Hist.count (W : G.Wf) (H : Hist G s) {i k : Nat} (hk : k < G.slots i) (hu : G.strat i ≠ .unord) :
    (fromSlot k (s.pops i)).length =
      if G.strat i = .rr then ((s.pops i).length + (G.slots i - 1 - k)) / G.slots i else (s.pops i).length := by
  have hl : (s.pops i).take (s.pops i).length = s.pops i := List.take_length
  have ht := H.takes i
  cases hst : G.strat i with
  | dflt =>
    rw [hst] at ht
    have hd := W.dflt i hst
    have := zip_count (c := 1) (ps := s.pops i) (fun n m h => ht n m h) (k := k) (by omega) _ (Nat.le_refl _)
    rw [hl] at this
    simpa using this
  | zip =>
    rw [hst] at ht
    have := zip_count (ps := s.pops i) (fun n m h => ht n m h) hk _ (Nat.le_refl _)
    rw [hl] at this
    simpa using this
  | rr =>
    rw [hst] at ht
    have := rr_count (ps := s.pops i) (fun n m h => ht n m h) hk _ (Nat.le_refl _)
    rw [hl] at this
    simpa using this
  | unord => exact absurd hst hu

/-- **C95**: no more is computed than was sent. -/
theorem c95_at_most (W : G.Wf) (T : G.Tight) (h : Reachable G s) {C : Nat → Prop} {v : Nat → Nat} (V : Rates G C v) {n : Nat}
    (hX : ∀ i, C i → G.up i 0 = none → v i * (s.inp i 0).length ≤ n) : ∀ i, C i → v i * (s.calls i).length ≤ n := by
  have I := h.inv W T
  have H := h.hist W
  intro i
  induction i using Nat.strongRecOn with
  | ind i ih =>
    intro hC
    have hs := W.slots i
    have hpc : (s.calls i).length ≤ (s.pops i).length := by rw [I.ca i, List.length_append]; omega
    have hin : ∀ k, k < G.slots i → (fromSlot k (s.pops i)).length ≤ (s.inp i k).length := by
      intro k _; rw [H.inp i k, List.length_append]; omega
    have up : ∀ k u, k < G.slots i → G.up i k = some u → C u ∧ (s.inp i k).length ≤ (s.calls u).length := by
      intro k u hk hu
      obtain ⟨l, -, hl⟩ := c39_results W T h hu hk
      have h1 := I.cb u
      rw [hl, List.length_append] at h1
      exact ⟨(V.closed u i k ((W.edges u i k).2 ⟨hu, hk⟩)).2 hC, by omega⟩
    by_cases hr : G.strat i = .rr
    · -- the last slot
      have hk : G.slots i - 1 < G.slots i := by omega
      cases hu : G.up i 0 with
      | none => exact absurd (W.head i 0 hs hu) (by rw [hr]; simp)
      | some u =>
        obtain ⟨hCu, hlu⟩ := up 0 u hs hu
        have hcnt := H.count W hs (V.ordered i hC)
        rw [if_pos hr] at hcnt
        have h1 := hin 0 hs
        have h2 := ih u (W.order u i 0 hu) hCu
        have h3 := V.turn u i 0 ((W.edges u i 0).2 ⟨hu, hs⟩) hr
        rw [hcnt] at h1
        have h4 : (s.pops i).length ≤ G.slots i * (s.calls u).length := by
          have := Nat.div_add_mod ((s.pops i).length + (G.slots i - 1 - 0)) (G.slots i)
          have hm := Nat.mod_lt ((s.pops i).length + (G.slots i - 1 - 0)) hs
          have h5 : G.slots i * (((s.pops i).length + (G.slots i - 1 - 0)) / G.slots i) ≤ G.slots i * (s.calls u).length :=
            Nat.mul_le_mul_left _ (by omega)
          omega
        calc v i * (s.calls i).length ≤ v i * (G.slots i * (s.calls u).length) := Nat.mul_le_mul_left _ (by omega)
          _ = v u * (s.calls u).length := by rw [h3, ← Nat.mul_assoc, Nat.mul_comm (v i)]
          _ ≤ n := h2
    · have hcnt := H.count W hs (V.ordered i hC)
      rw [if_neg hr] at hcnt
      have h1 := hin 0 hs
      cases hu : G.up i 0 with
      | none => exact Nat.le_trans (Nat.mul_le_mul_left _ (by omega)) (hX i hC hu)
      | some u =>
        obtain ⟨hCu, hlu⟩ := up 0 u hs hu
        have h2 := ih u (W.order u i 0 hu) hCu
        rw [V.same u i 0 ((W.edges u i 0).2 ⟨hu, hs⟩) hr]
        exact Nat.le_trans (Nat.mul_le_mul_left _ (by omega)) h2

/-- **C95**: at rest, what was sent to all channels has gone through the whole network, however the merges wait for each other: there is no
deadlock. -/
theorem c95_at_least (W : G.Wf) (T : G.Tight) (h : Reachable G s) (Q : Quiet s) {C : Nat → Prop} {v : Nat → Nat} (V : Rates G C v)
    (hF : ∀ i, C i → ¬Failed s i) {n : Nat} (hX : ∀ i, C i → G.up i 0 = none → n ≤ v i * (s.inp i 0).length) :
    ∀ i, C i → n ≤ v i * (s.calls i).length := by
  have I := h.inv W T
  have H := h.hist W
  have hpc : ∀ i, C i → s.pops i = s.calls i := by
    intro i hC
    have := I.ca i
    rw [pcm_none (I.quiet_main Q (hF i hC))] at this
    simpa [Pc.tocall] using this
  have hco : ∀ i, C i → (s.outs i).length = (s.calls i).length := by
    intro i hC
    have := I.cb i
    rw [pcm_none (I.quiet_main Q (hF i hC))] at this
    simpa [Pc.inside] using this.symm
  have hlen : ∀ u i k, C u → G.up i k = some u → k < G.slots i → (s.inp i k).length = (s.calls u).length := by
    intro u i k hC hu hk
    have := I.fl u i k hu hk
    rw [pcm_none (I.quiet_main Q (hF u hC))] at this
    rw [← hco u hC, this]
    simp [Pc.fresh, Pc.unsent]
  have hq : ∀ i k, C i → (s.inp i k).length = (fromSlot k (s.calls i)).length + (s.q i k).length := by
    intro i k hC
    rw [H.inp i k, List.length_append, hpc i hC]
  suffices key : ∀ p i, C i → v i * (s.calls i).length = p → p < n → False by
    intro i hC
    exact Nat.le_of_not_lt fun hlt => key _ i hC rfl hlt
  intro p
  induction p using Nat.strongRecOn with
  | ind p ih1 =>
    intro i
    induction i using Nat.strongRecOn with
    | ind i ih2 =>
      intro hC hp hpn
      have ge : ∀ j, C j → p ≤ v j * (s.calls j).length := fun j hj =>
        Nat.le_of_not_lt fun hlt => ih1 _ hlt j hj rfl (Nat.lt_trans hlt hpn)
      have gt : ∀ j, j < i → C j → p < v j * (s.calls j).length := fun j hlt hj =>
        Nat.lt_of_le_of_ne (ge j hj) fun he => ih2 j hlt hj he.symm hpn
      have hs := W.slots i
      have hpos := V.pos i hC
      have hu := V.ordered i hC
      -- there is a message wherever there has to be one
      have some_msg : ∀ k, k < G.slots i → (fromSlot k (s.calls i)).length < (s.inp i k).length → s.q i k ≠ [] := by
        intro k hk hlt he
        have := hq i k hC
        rw [he, List.length_nil] at this
        omega
      have hcnt := fun k (hk : k < G.slots i) => hpc i hC ▸ H.count W hk hu
      have hne : isEmpty G s i = false := by
        have nr : G.strat i ≠ .rr → ∀ k, k < G.slots i → s.q i k ≠ [] := by
          intro hr k hk
          refine some_msg k hk ?_
          rw [hcnt k hk, if_neg hr]
          cases hup : G.up i k with
          | none =>
            have := W.dflt i (W.head i k hk hup)
            have : k = 0 := by omega
            subst this
            have := hX i hC hup
            exact Nat.lt_of_mul_lt_mul_left (a := v i) (by omega)
          | some u =>
            have he := (W.edges u i k).2 ⟨hup, hk⟩
            have hCu := (V.closed u i k he).2 hC
            have := gt u (W.order u i k hup) hCu
            rw [hlen u i k hCu hup hk]
            rw [← V.same u i k he hr] at this
            exact Nat.lt_of_mul_lt_mul_left (a := v i) (by omega)
        cases hst : G.strat i with
        | dflt => simpa [isEmpty, emptyQ, hst] using nr (by rw [hst]; simp) 0 hs
        | zip =>
          have := nr (by rw [hst]; simp)
          simpa [isEmpty, emptyQ, hst] using this
        | rr =>
          have hx : s.idx i = (s.calls i).length % G.slots i := hpc i hC ▸ H.idx i hst
          have hk : s.idx i < G.slots i := by rw [hx]; exact Nat.mod_lt _ hs
          suffices s.q i (s.idx i) ≠ [] by simpa [isEmpty, emptyQ, hst] using this
          refine some_msg _ hk ?_
          rw [hcnt _ hk, if_pos hst]
          cases hup : G.up i (s.idx i) with
          | none => exact absurd (W.head i _ hk hup) (by rw [hst]; simp)
          | some u =>
            have he := (W.edges u i _).2 ⟨hup, hk⟩
            have hCu := (V.closed u i _ he).2 hC
            have h1 := gt u (W.order u i _ hup) hCu
            rw [hlen u i _ hCu hup hk]
            have h2 : (s.calls i).length < G.slots i * (s.calls u).length := by
              rw [V.turn u i _ he hst, Nat.mul_comm (G.slots i), Nat.mul_assoc] at h1
              exact Nat.lt_of_mul_lt_mul_left (a := v i) (by omega)
            have h3 := Nat.div_add_mod (s.calls i).length (G.slots i)
            rw [← hx] at h3
            rw [Nat.div_lt_iff_lt_mul hs, Nat.mul_comm]
            have h4 : (s.calls i).length / G.slots i < (s.calls u).length := by
              rw [Nat.div_lt_iff_lt_mul hs, Nat.mul_comm]; exact h2
            have h5 : G.slots i * ((s.calls i).length / G.slots i + 1) ≤ G.slots i * (s.calls u).length :=
              Nat.mul_le_mul_left _ h4
            rw [Nat.mul_add] at h5
            omega
        | unord => exact absurd hst hu
      -- so it waits for a process that has not taken its results
      obtain ⟨d, k, hup, hk, hqd⟩ := I.quiet_waits Q (hF i hC) (.inl hne)
      have he := (W.edges i d k).2 ⟨hup, hk⟩
      have hCd := (V.closed i d k he).1 hC
      have h1 := ge d hCd
      have h2 := hq d k hCd
      have hcd := H.count W hk (V.ordered d hCd)
      rw [hpc d hCd] at hcd
      rw [hlen i d k hC hup hk, hcd] at h2
      have h3 : 0 < (s.q d k).length := List.length_pos_iff.2 hqd
      by_cases hr : G.strat d = .rr
      · rw [if_pos hr] at h2
        have hvd := V.pos d hCd
        have h4 : G.slots d * (s.calls i).length ≤ (s.calls d).length := by
          rw [← hp, V.turn i d k he hr, Nat.mul_comm (G.slots d), Nat.mul_assoc] at h1
          exact Nat.le_of_mul_le_mul_left h1 hvd
        have h5 : (s.calls i).length ≤ ((s.calls d).length + (G.slots d - 1 - k)) / G.slots d := by
          rw [Nat.le_div_iff_mul_le (W.slots d), Nat.mul_comm]
          omega
        omega
      · rw [if_neg hr] at h2
        rw [← hp, V.same i d k he hr] at h1
        have := Nat.le_of_mul_le_mul_left h1 hpos
        omega

/-- **C95**: if as much was sent to every channel, then at rest everything has been handled, by every process, and as the functions
compute it. -/
theorem c95_complete (W : G.Wf) (T : G.Tight) (h : Reachable G s) (Q : Quiet s) {C : Nat → Prop} {v : Nat → Nat} (V : Rates G C v)
    (hF : ∀ i, C i → ¬Failed s i) {n : Nat} (hX : ∀ i, C i → G.up i 0 = none → v i * (s.inp i 0).length = n)
    {F : Nat → List Args → Msg} {X : Nat → List Msg} (R : Runs G C F X s) {i : Nat} (hC : C i) :
    v i * (s.calls i).length = n ∧ (∀ k, k < G.slots i → s.inp i k = fromSlot k (s.calls i) ∧ s.q i k = []) ∧
      collect (callAt G F X (i + 1) i) (s.calls i).length = some (s.calls i) := by
  have I := h.inv W T
  have H := h.hist W
  have eq : ∀ i, C i → v i * (s.calls i).length = n := fun i hC =>
    Nat.le_antisymm (c95_at_most W T h V (fun i hC hu => Nat.le_of_eq (hX i hC hu)) i hC)
      (c95_at_least W T h Q V hF (fun i hC hu => Nat.le_of_eq (hX i hC hu).symm) i hC)
  have hpc : s.pops i = s.calls i := by
    have := I.ca i
    rw [pcm_none (I.quiet_main Q (hF i hC))] at this
    simpa [Pc.tocall] using this
  have hbelow : ∀ {u d}, Below G u d → C d → C u := by
    intro u d b
    induction b with
    | refl => exact id
    | step _ he ih => exact fun hd => ih ((V.closed _ _ _ he).2 hd)
  refine ⟨eq i hC, fun k hk => ?_, ?_⟩
  · suffices hq : s.q i k = [] by
      refine ⟨?_, hq⟩
      have := H.inp i k
      rwa [hq, List.append_nil, hpc] at this
    have hc := H.count W hk (V.ordered i hC)
    have hi := congrArg List.length (H.inp i k)
    rw [List.length_append, hc, hpc] at hi
    suffices (s.inp i k).length ≤ if G.strat i = .rr then ((s.calls i).length + (G.slots i - 1 - k)) / G.slots i else (s.calls i).length from
      List.eq_nil_of_length_eq_zero (by omega)
    have hpos := V.pos i hC
    cases hup : G.up i k with
    | none =>
      have hd := W.head i k hk hup
      have := W.dflt i hd
      have : k = 0 := by omega
      subst this
      rw [if_neg (by rw [hd]; simp)]
      have h1 := hX i hC hup
      rw [← eq i hC] at h1
      exact Nat.le_of_mul_le_mul_left (Nat.le_of_eq h1) hpos
    | some u =>
      have he := (W.edges u i k).2 ⟨hup, hk⟩
      have hCu := (V.closed u i k he).2 hC
      have hle : (s.inp i k).length ≤ (s.calls u).length := by
        obtain ⟨l, -, hl⟩ := c39_results W T h hup hk
        have h1 := I.cb u
        rw [hl, List.length_append] at h1
        omega
      have h1 := (eq u hCu).trans (eq i hC).symm
      split
      · rename_i hr
        rw [V.turn u i k he hr, Nat.mul_comm (G.slots i), Nat.mul_assoc] at h1
        have h2 := Nat.eq_of_mul_eq_mul_left hpos h1
        rw [Nat.le_div_iff_mul_le (W.slots i), Nat.mul_comm]
        have := Nat.mul_le_mul_left (G.slots i) hle
        omega
      · rename_i hr
        rw [← V.same u i k he hr] at h1
        have h2 := Nat.eq_of_mul_eq_mul_left hpos h1
        omega
  · rw [collect_take (l := s.calls i) (Nat.le_refl _), List.take_length]
    intro t ht
    rw [List.getElem?_eq_getElem ht]
    exact c95_calls W T h R (by omega) (fun u hu => ⟨hbelow hu hC, V.ordered u (hbelow hu hC)⟩) (List.getElem?_eq_getElem ht)

/-! ## Examples -/

/-- `receiver` of a channel (0) twice `|` a process (1 and 2), and `zip_with` of these (3). -/
def diamond : Net where
  strat := fun i => if i = 3 then .zip else .dflt
  slots := fun i => if i = 3 then 2 else 1
  up := fun d k => if (d = 1 ∨ d = 2) ∧ k = 0 then some 0 else if d = 3 ∧ k < 2 then some (k + 1) else none
  down := fun i => if i = 0 then [(1, 0), (2, 0)] else if i = 1 ∨ i = 2 then [(3, i - 1)] else []
  buf := fun _ => 1
  recv := fun i => if i < 4 then 1 else 0

theorem diamond_wf : diamond.Wf := by
  constructor <;> grind [diamond]

theorem diamond_tight : diamond.Tight := by
  constructor
  · intro i h
    match hd : diamond.down i, h with
    | e :: es, _ => exact ⟨e, by simp, rfl⟩
  · intro d h
    exact ⟨by simp [diamond], by simp [diamond]⟩

theorem diamond_rates : Rates diamond (· < 4) (fun _ => 1) := by
  constructor <;> grind [diamond]

/-- A round robin merge of two channels and a process after it: a message of each channel is a unit, for two calls of the merge. -/
theorem merge_rates : Rates (merge .rr 1) (· < 4) (fun i => if i < 2 then 2 else 1) := by
  constructor <;> grind [merge]

/-- The sum of all messages so far, as of a function object with state. -/
def total (_ : Nat) (cs : List Args) : Msg := .val (cs.flatten.map fun x => match x.2 with | .val v => v | .err => 0).sum

/-- `Runs` for the processes below `N`. -/
def runsB (G : Net) (N : Nat) (X : Nat → List Msg) (s : St) : Bool :=
  (List.range N).all fun i => (decide (G.up i 0 = none → s.inp i 0 <+: X i)) &&
    (List.range (s.outs i).length).all fun t => (s.outs i)[t]? = some (total i ((s.calls i).take (t + 1)))

theorem runs_of {N : Nat} {X : Nat → List Msg} (h : runsB G N X s = true) : Runs G (· < N) total X s := by
  simp only [runsB, List.all_eq_true, List.mem_range, Bool.and_eq_true, decide_eq_true_eq] at h
  constructor
  · intro i t r hi hr
    have := (h i hi).2 t (List.getElem?_eq_some_iff.1 hr).1
    rw [hr] at this
    exact Option.some.inj this
  · exact fun i hi hu => (h i hi).1 hu

/-- Two messages go through `diamond`. -/
def runDiamond : List Act := ready4 ++ [.send 0 0 (.val 1), .send 0 0 (.val 2)] ++ go 4 3 ++ [.ret 4 (.val 1)] ++ go 4 10 ++
  go 5 5 ++ [.ret 5 (.val 1)] ++ go 5 8 ++ go 6 5 ++ [.ret 6 (.val 1)] ++ go 6 8 ++ go 7 7 ++ [.ret 7 (.val 2)] ++ go 7 5 ++
  go 8 3 ++ [.ret 8 (.val 3)] ++ go 8 10 ++ go 9 5 ++ [.ret 9 (.val 4)] ++ go 9 8 ++ go 10 5 ++ [.ret 10 (.val 4)] ++ go 10 8 ++
  go 11 7 ++ [.ret 11 (.val 10)] ++ go 11 5

set_option maxRecDepth 20000 in
/-- All hypotheses of `c95_complete` are met by a run of `diamond` with two messages. -/
example : ∃ s, Reachable diamond s ∧ Quiet s ∧ (∀ i, i < 4 → ¬Failed s i) ∧ Runs diamond (· < 4) total (fun _ => [.val 1, .val 2]) s ∧
    (∀ i, i < 4 → diamond.up i 0 = none → 1 * (s.inp i 0).length = 2) ∧
    s.calls 3 = [[(0, .val 1), (1, .val 1)], [(0, .val 4), (1, .val 4)]] := by
  obtain ⟨s, h, hp⟩ := witness (G := diamond) (as := runDiamond) (fun s => ((List.range s.next).all fun j => s.pc j = .none) &&
    (List.range 4).all (fun i => s.rcv i = 0) && runsB diamond 4 (fun _ => [.val 1, .val 2]) s && (s.inp 0 0).length == 2 &&
    s.calls 3 == [[(0, .val 1), (1, .val 1)], [(0, .val 4), (1, .val 4)]]) (by decide)
  simp only [Bool.and_eq_true, List.all_eq_true, List.mem_range, decide_eq_true_eq, beq_iff_eq] at hp
  obtain ⟨⟨⟨⟨h1, h2⟩, h3⟩, h4⟩, h5⟩ := hp
  have hn : ∀ j, s.pc j = .none := by
    intro j
    by_cases hj : j < s.next
    · exact h1 j hj
    · exact h.once.fr j (by omega)
  refine ⟨s, h, ⟨fun j => by rw [hn j]; rfl, fun i => ?_⟩, ?_, runs_of h3, ?_, h5⟩
  · by_cases hi : i < 4
    · exact h2 i hi
    · exact h.rcv (if_neg hi)
  · rintro i - ⟨j, m, hj⟩
    rw [hn j] at hj
    cases hj
  · intro i hi hu
    have : i = 0 := by grind [diamond]
    subst this
    omega

/-- What the network computes. -/
example : callAt diamond total (fun _ => [.val 1, .val 2]) 4 3 1 = some [(0, .val 4), (1, .val 4)] := by decide

example : callAt (merge .rr 1) total (fun i => [.val i, .val 7]) 4 3 3 = some [(0, .val 16)] := by decide

end Verif.Channel
