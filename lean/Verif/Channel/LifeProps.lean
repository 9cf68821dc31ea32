import Verif.Channel.LifeTrack

/-!
# C71 How long processes live, C72 Attaching processes to receivers
-/

namespace Verif.Life

open Handles (Handle)

/-- `p` is `r`, or upstream of it. -/
inductive Up (s : St) (r : Nat) : Nat → Prop where
  | refl : Up s r r
  | up {q p : Nat} : Up s r q → p ∈ (s.pr q).up → Up s r p

/-- **C71** A process exists exactly as long as it is, or is upstream of, the process of a receiver or one that somebody is
using at that moment. -/
theorem c71_lifetime {s : St} (h : Reachable s) (p : Nat) :
    (s.pr p).alive = true ↔ ∃ r, ((∃ i rdy, s.hs.get i = some ⟨some r, rdy⟩) ∨ some r ∈ s.locks) ∧ Up s r p := by
  have I := h.inv
  constructor
  · intro hp
    have key : ∀ k p, s.n - p ≤ k → (s.pr p).alive = true → ∃ r, Held s r ∧ Up s r p := by
      intro k
      induction k with
      | zero => intro p hk hp; have := I.C.lt p hp; omega
      | succ k ih =>
        intro p hk hp
        rcases owned_iff.1 (I.good p hp) with h1 | ⟨q, hq, ha, hu⟩
        · exact ⟨p, h1, .refl⟩
        · have := I.C.low q p hu
          obtain ⟨r, h2, h3⟩ := ih q (by omega) ha
          exact ⟨r, h2, .up h3 hu⟩
    exact key _ p (Nat.le_refl _) hp
  · rintro ⟨r, h1, h2⟩
    induction h2 with
    | refl => exact I.C.held r h1
    | up _ hu ih => exact I.C.up _ ih _ hu

/-- **C71** Without receivers, and with nobody using a process, there are no processes. -/
theorem c71_no_leak {s : St} (h : Reachable s) (hr : ∀ i x, s.hs.get i = some x → x.p = none) (hl : ∀ p, some p ∉ s.locks) (p : Nat) :
    (s.pr p).alive = false := by
  cases hp : (s.pr p).alive with
  | false => rfl
  | true =>
    obtain ⟨r, ⟨i, rdy, h1⟩ | h1, -⟩ := (c71_lifetime h p).1 hp
    · cases hr i _ h1
    · exact absurd h1 (hl r)

/-- **C71** An operation on receivers, or that somebody stops using a process, is well defined; it leaves the processes that
it does not destroy with all they had: no sender is taken from them and no receiver. -/
theorem c71_destruction {s : St} (h : Reachable s) {a : Op} (ha : (∃ b, a = .obj b) ∨ ∃ k, a = .unlock k) :
    step s a ≠ .ub ∧ ∀ t, step s a = .ok t → ∀ q, ((t.pr q).alive = true → t.pr q = s.pr q) := by
  have I := h.inv
  have key : ∀ u : St, Closed u → ∀ (l : List Nat) f, ∀ q, ((l.foldl (release f) u).pr q).alive = true → (l.foldl (release f) u).pr q = u.pr q := by
    intro u C l f q hq
    have S := fold_same (release_same f) l u
    have h1 := fold_snd (fun s p C => ⟨C.release f s p, release_same f s p, release_snd f s p C⟩) l C hq
    have h2 := S.dead q hq
    have h3 := S.down q hq
    have h4 := S.up q
    have h9 := S.mo q
    have h5 := S.started q
    have h6 := S.closed q
    have h7 := S.outs q
    have h8 := S.inbox q
    revert hq h1 h2 h3 h4 h5 h6 h7 h8 h9
    cases (l.foldl (release f) u).pr q
    cases u.pr q
    intros
    simp_all
  constructor
  · rcases ha with ⟨b, rfl⟩ | ⟨k, rfl⟩
    · intro hu
      simp only [Life.step] at hu
      split at hu
      · split at hu
        · cases hu
        · next h1 => exact I.H.no_ub b h1
        · cases hu
      · cases hu
    · intro hu
      simp only [Life.step] at hu
      split at hu <;> cases hu
  · intro t ht q hq
    rcases ha with ⟨b, rfl⟩ | ⟨k, rfl⟩
    · simp only [Life.step] at ht
      split at ht
      · next ho =>
        split at ht
        · next u hu =>
          cases ht
          have hn : u.cnt.length = s.hs.cnt.length := step_length ho hu
          have hn' : s.n = St.n { s with hs := u } := hn.symm
          refine key { s with hs := u } ⟨fun p hp => I.C.held p ?_, I.C.up, fun q h => ?_, I.C.low, fun p e he => ?_⟩ _ _ q hq
          · rcases hp with ⟨i, r, h⟩ | h
            · obtain ⟨j, r', h, -⟩ := has_of_step ho hu h; exact .inl ⟨j, r', h⟩
            · exact .inr h
          · rw [← hn']; exact I.C.lt q h
          · rw [← hn']; exact I.C.tgt p e he
        · cases ht
        · cases ht
      · cases ht
    · simp only [Life.step] at ht
      split at ht
      · next p hp =>
        cases ht
        refine key { s with locks := s.locks.set k none } ⟨fun p hp => I.C.held p ?_, I.C.up, I.C.lt, I.C.low, I.C.tgt⟩ [p] s.n q hq
        rcases hp with h | h
        · exact .inl h
        · rcases List.mem_or_eq_of_mem_set h with h | h
          · exact .inr h
          · cases h
      · cases ht

/-- **C72** `r | f` for a receiver without process throws `broken_channel`, for one that is ready it throws
`process_already_running`; otherwise it makes a process. It is well defined in any case. -/
theorem c72_errors {s : St} (i : Nat) (v : Kind) {x : Handle} (hx : s.hs.get i = some x) :
    (x.p = none → step s (.pipe i v) = .error .brokenChannel) ∧
    (∀ p, x.p = some p → x.ready = true → step s (.pipe i v) = .error .processAlreadyRunning) ∧
    (∀ p, x.p = some p → x.ready = false → ∃ t, step s (.pipe i v) = .ok t ∧ (t.pr s.n).up = [p] ∧
      (Reachable s → (t.pr s.n).alive = true)) := by
  obtain ⟨o, r⟩ := x
  refine ⟨?_, ?_, ?_⟩
  · rintro rfl; simp [step, hx]
  · rintro p rfl rfl; simp [step, hx]
  · rintro p rfl rfl
    refine ⟨attach s [p] v, by simp [step, hx], ?_, fun h => ?_⟩
    · simp only [attach, add, map, upd]
      split
      · next e => subst e; simp
      · simp
    · have I := h.inv
      rw [attach_pr I, if_pos rfl]
      intro q hq
      rw [List.mem_singleton] at hq; subst hq
      exact I.C.held _ (.inl ⟨i, false, hx⟩)

theorem not_started {s : St} (I : Inv s) {i p c : Nat} (hi : s.hs.get i = some ⟨some p, false⟩) (hc : s.hs.cnt[p]? = some (some c)) :
    (s.pr p).started = false := by
  cases hs : (s.pr p).started with
  | false => rfl
  | true => exact absurd hi (I.st p c hs hc i)

/-- **C72** A process that `r | f` has made gets all results of the process of `r`, each once and in order, and nothing
else, as long as it exists; it is closed exactly with the process of `r`. This is for `r` with results; if they cannot be
copied then nothing else may be attached to the process of `r` later. -/
theorem c72_pipe_partial {s s1 t : St} (h : Reachable s) {i p c : Nat} {v : Kind} {rdy : Bool} (hi : s.hs.get i = some ⟨some p, rdy⟩)
    (hc : s.hs.cnt[p]? = some (some c)) (h1 : step s (.pipe i v) = .ok s1) {as : List Op} (h2 : exec s1 as = .ok t)
    (hmo : (s.pr p).mo = true → ∀ q, s.n < q → q < t.n → p ∉ (t.pr q).up) (hq : (t.pr s.n).alive = true) :
    (t.pr s.n).inbox = (t.pr p).outs.map (fun v => (0, v)) ∧ ((t.pr s.n).snd = 0 ↔ (t.pr p).closed = true) := by
  have I := h.inv
  simp only [step, hi] at h1
  split at h1
  · cases h1
  · next hr =>
    cases h1
    have hr : rdy = false := by simpa using hr
    subst hr
    have T : Track (attach s [p] v) s.n [p] := Track.new I (by simp)
      (fun q hq => by rw [List.mem_singleton] at hq; subst hq; exact I.C.held _ (.inl ⟨i, false, hi⟩))
      (fun q hq => by rw [List.mem_singleton] at hq; subst hq; exact not_started I hi hc)
      (fun q hq _ => by rw [List.mem_singleton] at hq; subst hq; simp)
    have I1 : Inv (attach s [p] v) := I.attach
      (fun q hq => by rw [List.mem_singleton] at hq; subst hq; exact I.C.held _ (.inl ⟨i, false, hi⟩))
    have hlt := I.C.lt p (I.C.held p (.inl ⟨i, false, hi⟩))
    have hm : ((attach s [p] v).pr p).mo = (s.pr p).mo := by
      rw [attach_pr I fun q hq => by rw [List.mem_singleton] at hq; subst hq; exact I.C.held _ (.inl ⟨i, false, hi⟩), if_neg (by omega)]
    have T2 := T.exec I1 h2
      (fun q h1 h5 r hr h3 => by
        rw [List.mem_singleton] at hr; subst hr
        rw [attach_n] at h1
        rw [hm] at h3
        exact hmo h3 q (by omega) h5)
      (fun r hr => by rw [List.mem_singleton] at hr; subst hr; rw [attach_n]; omega)
    constructor
    · rw [← T2.inb hq 0 p rfl]
      symm
      rw [List.filter_eq_self]
      intro e he
      have := T2.inr hq e he
      simp at this; simp [this]
    · rw [T2.snd hq]
      cases h : (t.pr p).closed <;> simp [h]

/-- **C72** The same for the processes that `zip_with`, `zip` and `merge_channel` make, if all receivers are not ready: each
receiver has its queue, and the process is closed with the last of the upstream processes. -/
theorem c72_merge_partial {s s1 t : St} (h : Reachable s) {is : List Nat} {ps : List Nat} {v : Kind}
    (hlen : is.length = ps.length)
    (hi : ∀ (k i p : Nat), is[k]? = some i → ps[k]? = some p → s.hs.get i = some ⟨some p, false⟩ ∧ ∃ c, s.hs.cnt[p]? = some (some c))
    (h1 : step s (.merge is v) = .ok s1) {as : List Op} (h2 : exec s1 as = .ok t)
    (hmo : ∀ p ∈ ps, (s.pr p).mo = true → ps.count p = 1 ∧ ∀ q, s.n < q → q < t.n → p ∉ (t.pr q).up)
    (hq : (t.pr s.n).alive = true) :
    (∀ (k p : Nat), ps[k]? = some p → (t.pr s.n).inbox.filter (·.1 == k) = (t.pr p).outs.map fun v => (k, v)) ∧
    (∀ e ∈ (t.pr s.n).inbox, e.1 < ps.length) ∧ ((t.pr s.n).snd = 0 ↔ ∀ p ∈ ps, (t.pr p).closed = true) := by
  have I := h.inv
  have ht : ∀ (is ps : List Nat), is.length = ps.length →
      (∀ (k i p : Nat), is[k]? = some i → ps[k]? = some p → s.hs.get i = some ⟨some p, false⟩ ∧ ∃ c, s.hs.cnt[p]? = some (some c)) →
      targets s.hs is = some (some ps) := by
    intro is
    induction is with
    | nil => intro ps hl _; cases ps with
      | nil => rfl
      | cons => cases hl
    | cons i is ih =>
      intro ps hl hi
      cases ps with
      | nil => cases hl
      | cons p ps =>
        have h1 := (hi 0 i p rfl rfl).1
        have h2 := ih ps (by simpa using hl) (fun k i p hi' hp => hi (k + 1) i p hi' hp)
        simp [targets, h1, h2]
  have hm : ∀ p ∈ ps, ∃ i, s.hs.get i = some ⟨some p, false⟩ ∧ ∃ c, s.hs.cnt[p]? = some (some c) := by
    intro p hp
    obtain ⟨k, hk, rfl⟩ := List.mem_iff_getElem.1 hp
    exact ⟨is[k], hi k _ _ (List.getElem?_eq_getElem (by omega)) (List.getElem?_eq_getElem hk)⟩
  simp only [step, ht is ps hlen hi] at h1
  split at h1
  · cases h1
  · next hne =>
    cases h1
    have ha : ∀ p ∈ ps, (s.pr p).alive = true := fun p hp => by
      obtain ⟨i, h1, -⟩ := hm p hp; exact I.C.held p (.inl ⟨i, false, h1⟩)
    have T : Track (attach s ps v) s.n ps := Track.new I hne ha (fun p hp => by
      obtain ⟨i, h1, c, h2⟩ := hm p hp; exact not_started I h1 h2) (fun p hp h => by rw [(hmo p hp h).1]; exact Nat.le_refl _)
    have hlt : ∀ p ∈ ps, p < s.n := fun p hp => I.C.lt p (ha p hp)
    have T2 := T.exec (I.attach ha) h2
      (fun q h1 h5 r hr h3 => by
        rw [attach_n] at h1
        rw [attach_pr I ha, if_neg (by have := hlt r hr; omega)] at h3
        exact (hmo r hr h3).2 q (by omega) h5)
      (fun r hr => by rw [attach_n]; have := hlt r hr; omega)
    refine ⟨T2.inb hq, T2.inr hq, ?_⟩
    rw [T2.snd hq, List.countP_eq_zero]
    simp

/-- A process whose upstream is closed is not sent to, and not closed. -/
theorem still {s t : St} {a : Op} (I : Inv s) (h : step s a = .ok t) {q : Nat} (hlt : q < s.n) (hne : (s.pr q).up ≠ [])
    (hc : ∀ u ∈ (s.pr q).up, (s.pr u).closed = true) (hq : (t.pr q).alive = true) :
    (s.pr q).alive = true ∧ (t.pr q).snd = (s.pr q).snd ∧ (t.pr q).inbox = (s.pr q).inbox ∧ (t.pr q).up = (s.pr q).up ∧ q < t.n ∧
      ∀ u ∈ (s.pr q).up, (t.pr u).closed = true := by
  have hin : ∀ p, (s.pr p).closed ≠ true → ∀ e ∈ (s.pr p).down, ¬ (e.1 == q) = true := by
    intro p hp e he h
    have h1 := (I.C.tgt p e he).2
    have h2 : e.1 = q := by simpa using h
    rw [h2] at h1
    exact hp (hc p h1)
  have hatt : ∀ (ps : List Nat) (v : Kind), (∀ p ∈ ps, (s.pr p).alive = true) → ((attach s ps v).pr q).alive = true →
      (s.pr q).alive = true ∧ ((attach s ps v).pr q).snd = (s.pr q).snd ∧ ((attach s ps v).pr q).inbox = (s.pr q).inbox ∧
      ((attach s ps v).pr q).up = (s.pr q).up ∧ q < (attach s ps v).n ∧
      ∀ u ∈ (s.pr q).up, ((attach s ps v).pr u).closed = true := by
    intro ps v hps hq
    rw [attach_pr I hps, if_neg (by omega)] at hq
    rw [attach_pr I hps, if_neg (by omega)]
    refine ⟨hq, rfl, rfl, rfl, by rw [attach_n]; omega, fun u hu => ?_⟩
    have := I.C.low q u hu
    rw [attach_pr I hps, if_neg (by omega)]
    exact hc u hu
  have hone : ∀ (p : Nat) (x : Proc), x.alive = (s.pr p).alive → x.up = (s.pr p).up → x.closed = (s.pr p).closed →
      (p = q → x.snd = (s.pr p).snd ∧ x.inbox = (s.pr p).inbox) → (upd s.pr p x q).alive = true →
      (s.pr q).alive = true ∧ (upd s.pr p x q).snd = (s.pr q).snd ∧ (upd s.pr p x q).inbox = (s.pr q).inbox ∧
      (upd s.pr p x q).up = (s.pr q).up ∧ q < s.n ∧ ∀ u ∈ (s.pr q).up, (upd s.pr p x u).closed = true := by
    intro p x h1 h2 h3 h4 h5
    have hcl : ∀ u ∈ (s.pr q).up, (upd s.pr p x u).closed = true := by
      intro u hu
      simp only [upd]
      split
      · next e => subst e; rw [h3]; exact hc u hu
      · exact hc u hu
    by_cases e : q = p
    · subst e
      simp only [upd, if_true] at h5 ⊢
      exact ⟨by rw [← h1]; exact h5, (h4 rfl).1, (h4 rfl).2, h2, hlt, hcl⟩
    · simp only [upd, if_neg e] at h5 ⊢
      exact ⟨h5, trivial, trivial, trivial, hlt, hcl⟩
  cases a with
  | chan v =>
    cases h
    have hp : ∀ p, p ≠ s.n → (add s v ⟨v == .moveOnly, true, [], [], if v = .void then 0 else 1, false, false, [], []⟩).pr p = s.pr p := by
      intro p hp; simp only [add, upd, if_neg hp]
    rw [hp q (by omega)] at hq
    rw [hp q (by omega)]
    refine ⟨hq, rfl, rfl, rfl, by rw [add_n]; omega, fun u hu => ?_⟩
    have := I.C.low q u hu
    rw [hp u (by omega)]
    exact hc u hu
  | obj b =>
    have h0 := h
    simp only [step] at h
    split at h
    · next ho =>
      split at h
      · next u hu =>
        have hn : u.cnt.length = s.hs.cnt.length := step_length ho hu
        have hC : Closed { s with hs := u } := by
          have hn' : s.n = St.n { s with hs := u } := hn.symm
          refine ⟨fun p hp => I.C.held p ?_, I.C.up, fun q h => ?_, I.C.low, fun p e he => ?_⟩
          · rcases hp with ⟨i, r, h⟩ | h
            · obtain ⟨j, r', h, -⟩ := has_of_step ho hu h; exact .inl ⟨j, r', h⟩
            · exact .inr h
          · rw [← hn']; exact I.C.lt q h
          · rw [← hn']; exact I.C.tgt p e he
        cases h
        have S := fold_same (release_same s.n) (lost s.hs b) { s with hs := u }
        have h1 := fold_snd (fun s' p C => ⟨C.release s.n s' p, release_same s.n s' p, release_snd s.n s' p C⟩) (lost s.hs b) hC hq
        exact ⟨S.dead q hq, h1, S.inbox q, S.up q, by rw [S.n, St.n]; exact hn ▸ hlt, fun u hu => by rw [S.closed]; exact hc u hu⟩
      · cases h
      · cases h
    · cases h
  | pipe i v =>
    simp only [step] at h
    split at h
    · cases h
    · next x hx =>
      split at h
      · cases h
      · next p hp =>
        split at h
        · cases h
        · cases h
          refine hatt _ _ (fun q hq => ?_) hq
          rw [List.mem_singleton] at hq; subst hq
          exact I.C.held _ (.inl ⟨i, x.ready, by rw [Has, hx, ← hp]⟩)
  | merge is v =>
    simp only [step] at h
    split at h
    · cases h
    · cases h
    · next ps hps =>
      split at h
      · cases h
      · cases h
        exact hatt _ _ (fun q hq => I.C.held _ (.inl (targets_has hps q hq))) hq
  | lock p =>
    simp only [step] at h
    split at h
    · cases h; exact ⟨hq, rfl, rfl, rfl, hlt, hc⟩
    · cases h
  | unlock k =>
    simp only [step] at h
    split at h
    · next p hp =>
      cases h
      have hC : Closed { s with locks := s.locks.set k none } := by
        refine ⟨fun p hp => I.C.held p ?_, I.C.up, I.C.lt, I.C.low, I.C.tgt⟩
        rcases hp with h | h
        · exact .inl h
        · rcases List.mem_or_eq_of_mem_set h with h | h
          · exact .inr h
          · cases h
      have S := release_same s.n { s with locks := s.locks.set k none } p
      have h1 := release_snd s.n _ p hC q hq
      exact ⟨S.dead q hq, h1, S.inbox q, S.up q, by rw [S.n]; exact hlt, fun u hu => by rw [S.closed]; exact hc u hu⟩
    · cases h
  | addSender p =>
    simp only [step] at h
    split at h
    · next hp => cases h; exact hone p _ rfl rfl rfl (fun e => absurd (e ▸ hp.1) hne) hq
    · cases h
  | removeSender p =>
    simp only [step] at h
    split at h
    · next hp => cases h; exact hone p _ rfl rfl rfl (fun e => absurd (e ▸ hp.1) hne) hq
    · cases h
  | send p w =>
    simp only [step] at h
    split at h
    · next hp =>
      cases h
      split at hq
      · next ha => rw [if_pos ha]; exact hone p _ rfl rfl rfl (fun e => absurd (e ▸ hp.1) hne) hq
      · next ha => rw [if_neg ha]; exact ⟨hq, rfl, rfl, rfl, hlt, hc⟩
    · cases h
  | start p =>
    simp only [step] at h
    split at h
    · next hp => cases h; exact hone p _ rfl rfl rfl (fun _ => ⟨rfl, rfl⟩) hq
    · cases h
  | emit p w =>
    simp only [step] at h
    split at h
    · next hp =>
      cases h
      have hf : (s.pr p).down.filter (·.1 == q) = [] := List.filter_eq_nil_iff.2 (hin p hp.2.2)
      have h1 := hone p { s.pr p with outs := (s.pr p).outs ++ [w] } rfl rfl rfl (fun _ => ⟨rfl, rfl⟩) (by
        have := hq; simp only [deliver_alive] at this; exact this)
      refine ⟨h1.1, ?_, ?_, ?_, hlt, fun u hu => ?_⟩
      · rw [← h1.2.1]; simp only [deliver]; split <;> rfl
      · rw [← h1.2.2.1]; simp only [deliver, hf]; split <;> simp
      · rw [← h1.2.2.2.1]; simp only [deliver]; split <;> rfl
      · rw [← h1.2.2.2.2.2 u hu]; simp only [deliver]; split <;> rfl
    · cases h
  | finish p =>
    simp only [step] at h
    split at h
    · next hp =>
      cases h
      have hf : (s.pr p).down.countP (·.1 == q) = 0 := List.countP_eq_zero.2 (hin p hp.2.2.1)
      have hal : (s.pr q).alive = true := by
        have := hq; simp only [dropSenders_alive, upd] at this; split at this
        · next e => rw [e]; exact this
        · exact this
      refine ⟨hal, ?_, ?_, ?_, hlt, fun u hu => ?_⟩
      · simp only [dropSenders, hf, upd]
        by_cases e : q = p
        · subst e; simp
        · simp only [if_neg e]; split <;> rfl
      · simp only [dropSenders, upd]
        by_cases e : q = p
        · subst e; simp only [if_true]; split <;> rfl
        · simp only [if_neg e]; split <;> rfl
      · simp only [dropSenders, upd]
        by_cases e : q = p
        · subst e; simp only [if_true]; split <;> rfl
        · simp only [if_neg e]; split <;> rfl
      · simp only [dropSenders, upd]
        by_cases e : u = p
        · subst e; simp only [if_true]; split <;> rfl
        · simp only [if_neg e]; split <;> exact hc u hu
    · cases h

/-- **C72** Once all upstream processes are closed, nothing is sent to a process any more and its count of senders stays. -/
theorem c72_still {s t : St} (h : Reachable s) {as : List Op} (he : exec s as = .ok t) {q : Nat} (hlt : q < s.n) (hne : (s.pr q).up ≠ [])
    (hc : ∀ u ∈ (s.pr q).up, (s.pr u).closed = true) (hq : (t.pr q).alive = true) :
    (t.pr q).snd = (s.pr q).snd ∧ (t.pr q).inbox = (s.pr q).inbox := by
  have key : ∀ (as : List Op) (s : St), Inv s → exec s as = .ok t → q < s.n → (s.pr q).up ≠ [] → (∀ u ∈ (s.pr q).up, (s.pr u).closed = true) →
      (s.pr q).alive = true ∧ (t.pr q).snd = (s.pr q).snd ∧ (t.pr q).inbox = (s.pr q).inbox := by
    intro as
    induction as with
    | nil => intro s _ h _ _ _; cases h; exact ⟨hq, rfl, rfl⟩
    | cons a as ih =>
      intro s I h h1 h2 h3
      simp only [exec] at h
      split at h
      · next u hu =>
        have J := I.step hu
        -- the process is still there in `u`, as it is in the end
        have hmono : (u.pr q).alive = true → q < u.n ∧ (u.pr q).up ≠ [] ∧ ∀ r ∈ (u.pr q).up, (u.pr r).closed = true := by
          intro ha
          obtain ⟨-, -, -, h4, h5, h6⟩ := still I hu h1 h2 h3 ha
          exact ⟨h5, by rw [h4]; exact h2, by rw [h4]; exact h6⟩
        have ha : (u.pr q).alive = true := (const_exec J h (const_step I hu h1).1).2.2.2 hq
        obtain ⟨m1, m2, m3⟩ := hmono ha
        obtain ⟨k1, k2, k3⟩ := ih u J h m1 m2 m3
        obtain ⟨l1, l2, l3, -⟩ := still I hu h1 h2 h3 ha
        exact ⟨l1, k2.trans l2, k3.trans l3⟩
      · exact ih s I h h1 h2 h3
      · cases h
      · cases h
  exact (key as s h.inv he hlt hne hc).2

/-! ## Where the code differs -/

/-- The state after a program that runs to its end. -/
def run (as : List Op) : St :=
  match exec init as with
  | .ok s => s
  | _ => init

/-- A receiver of an `int` channel, and one of a process attached to it, which is not ready. -/
def demo : List Op := [.chan .copyable, .pipe 0 .copyable, .obj (.setReady 0), .send 0 7]

/-- **C71** The hypotheses can be met: a chain of two processes of which the first has no receiver any more. -/
example : ∃ s, exec init (demo ++ [.obj (.destroy 0)]) = .ok s ∧ (s.pr 0).alive = true ∧ (s.pr 1).alive = true ∧ Up s 1 0 :=
  ⟨_, rfl, rfl, rfl, .up .refl (List.mem_singleton.2 rfl)⟩

/-- **C71** With the last receiver the process is gone, and so are the messages it has not handled. -/
theorem c71_discards_counterexample :
    ∃ s, Reachable s ∧ (s.pr 0).inbox = [(0, 7)] ∧ (s.pr 0).started = false ∧ ∀ p, (s.pr p).alive = false := by
  have h : Reachable (run (demo ++ [.obj (.destroy 0), .obj (.destroy 1)])) := ⟨demo ++ [.obj (.destroy 0), .obj (.destroy 1)], rfl⟩
  refine ⟨_, h, rfl, rfl, c71_no_leak h ?_ ?_⟩
  · intro i x hx
    have : i < 2 := get_lt hx
    match i, this with
    | 0, _ => cases hx
    | 1, _ => cases hx
  · intro p hp; cases hp

/-- **C71** A process that runs lives until it has stopped. -/
example : ∃ s t, exec init (demo ++ [.lock 1, .obj (.destroy 0), .obj (.destroy 1)]) = .ok s ∧ (s.pr 0).alive = true ∧
    step s (.unlock 0) = .ok t ∧ (t.pr 0).alive = false :=
  ⟨_, _, rfl, rfl, rfl, rfl⟩

/-- **C72** The hypotheses can be met. -/
example : ∃ s, exec init ([.chan .copyable, .pipe 0 .copyable] ++ [.obj (.setReady 0), .start 0, .emit 0 7, .emit 0 8, .removeSender 0, .finish 0]) = .ok s ∧
    (s.pr 1).inbox = [(0, 7), (0, 8)] ∧ (s.pr 1).snd = 0 :=
  ⟨_, rfl, rfl, rfl⟩

example : ∃ s, exec init ([.chan .copyable, .chan .copyable, .merge [0, 1, 0] .copyable] ++
    [.obj (.setReady 0), .obj (.setReady 1), .start 0, .emit 0 7, .start 1, .emit 1 8]) = .ok s ∧
    (s.pr 2).inbox = [(0, 7), (2, 7), (1, 8)] ∧ (s.pr 2).snd = 3 :=
  ⟨_, rfl, rfl, rfl⟩

/-- **C72** `zip` and `merge_channel` do not look whether the receivers have a process: for one without, they dereference
the null pointer. -/
theorem c72_merge_empty_counterexample : ∃ s, Reachable s ∧ step s (.pipe 1 .copyable) = .error .brokenChannel ∧
    step s (.merge [0, 1] .copyable) = .ub :=
  ⟨_, ⟨[.chan .copyable, .obj .dflt], rfl⟩, rfl, rfl⟩

/-- **C72** Neither do they look whether the receivers are ready: the new process misses what has been broadcast before. -/
theorem c72_merge_late_counterexample : ∃ s t, Reachable s ∧ step s (.pipe 0 .copyable) = .error .processAlreadyRunning ∧
    step s (.merge [0] .copyable) = .ok t ∧ (t.pr 1).alive = true ∧ (t.pr 1).up = [0] ∧ (t.pr 1).inbox = [] ∧ (t.pr 0).outs = [7] :=
  ⟨_, _, ⟨[.chan .copyable, .obj (.setReady 0), .start 0, .emit 0 7], rfl⟩, rfl, rfl, rfl, rfl, rfl, rfl⟩

/-- **C72** If the upstream process is closed already then the new process is never closed, whatever happens. -/
theorem c72_merge_closed_counterexample : ∃ s, Reachable s ∧ (s.pr 1).alive = true ∧ (s.pr 1).up = [0] ∧ (s.pr 0).closed = true ∧
    ∀ as t, exec s as = .ok t → (t.pr 1).alive = true → (t.pr 1).snd = 1 := by
  have h : Reachable (run [.chan .copyable, .obj (.setReady 0), .removeSender 0, .start 0, .finish 0, .merge [0] .copyable]) :=
    ⟨[.chan .copyable, .obj (.setReady 0), .removeSender 0, .start 0, .finish 0, .merge [0] .copyable], rfl⟩
  refine ⟨_, h, rfl, rfl, rfl, fun as t ht hq => ?_⟩
  refine (c72_still h ht (q := 1) (by decide) (by decide) ?_ hq).1
  intro u hu
  have : u = 0 := by simpa using (show u ∈ [0] from hu)
  subst this; rfl

/-- **C72** If results cannot be copied then a process that is attached takes the place of the one that was attached before,
which gets nothing any more and is never closed. -/
theorem c72_move_only_counterexample : ∃ s, Reachable s ∧ (s.pr 1).alive = true ∧ (s.pr 1).up = [0] ∧ (s.pr 0).outs = [7] ∧
    (s.pr 2).inbox = [(0, 7)] ∧ (s.pr 2).snd = 0 ∧ (s.pr 0).closed = true ∧
    ∀ as t, exec s as = .ok t → (t.pr 1).alive = true → (t.pr 1).snd = 1 ∧ (t.pr 1).inbox = [] := by
  have h : Reachable (run [.chan .moveOnly, .pipe 0 .copyable, .pipe 0 .copyable, .obj (.setReady 0), .start 0, .emit 0 7, .removeSender 0, .finish 0]) :=
    ⟨[.chan .moveOnly, .pipe 0 .copyable, .pipe 0 .copyable, .obj (.setReady 0), .start 0, .emit 0 7, .removeSender 0, .finish 0], rfl⟩
  refine ⟨_, h, rfl, rfl, rfl, rfl, rfl, rfl, fun as t ht hq => ?_⟩
  refine c72_still h ht (q := 1) (by decide) (by decide) ?_ hq
  intro u hu
  have : u = 0 := by simpa using (show u ∈ [0] from hu)
  subst this; rfl

/-- **C72** A process without results runs although its receiver is not ready; what is attached then misses what has been
broadcast before. -/
theorem c72_void_counterexample : ∃ s t, Reachable s ∧ s.hs.get 1 = some ⟨some 1, false⟩ ∧ step s (.pipe 1 .copyable) = .ok t ∧
    (t.pr 2).alive = true ∧ (t.pr 2).up = [1] ∧ (t.pr 2).inbox = [] ∧ (t.pr 1).outs = [0] :=
  ⟨_, _, ⟨[.chan .copyable, .pipe 0 .void, .obj (.setReady 0), .send 0 7, .start 0, .emit 0 7, .start 1, .emit 1 0], rfl⟩,
    rfl, rfl, rfl, rfl, rfl, rfl⟩

end Verif.Life
