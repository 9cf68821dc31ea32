import Verif.Sync.Pool

/-! # Invariant and properties of `Verif.Sync.Pool` -/

namespace Verif.Sync.Pool

variable {n l : Nat} {s s' : St}

/-- An access of the constructor. -/
def Ctor (a : Access) : Prop := a.stamp = ⟨0, if a.loc = .threads then 2 else 1⟩

def Joiner.ret : Joiner → Bool
  | .returned _ => true
  | _ => false

structure Inv (n : Nat) (s : St) : Prop where
  own : ∀ a ∈ s.acc, a.stamp.le (s.vc a.stamp.thread)
  born : ∀ a ∈ s.acc, s.pc a.stamp.thread ≠ .unborn
  pool : ∀ u, (s.pc u).pool = true ↔ u ∈ s.threads
  know1 : ∀ u ∈ s.threads, 1 ≤ s.vc u 0
  know2 : ∀ u k, s.pc u = .calling k → 2 ≤ s.vc u 0
  knowq : ∀ i, s.q i ≠ [] → 2 ≤ s.qlm i 0
  nt : ∀ u r, s.nt u = some r → live s u = true ∧ 1 ≤ s.vc u 0 ∧ ∃ i, r = .ready i
  queue : s.joiner.ret = false → ∀ a ∈ s.acc, ∀ i, a.loc = .queue i → Ctor a ∨ a.stamp.le (s.qlm i)
  waiter : ∀ a ∈ s.acc, ∀ j, a.loc = .waiter j → Ctor a ∨ a.stamp.le (s.wlm j)
  thr : ∀ a ∈ s.acc, a.loc = .threads → Ctor a ∨ a.stamp.le s.tlm ∨ (a.write = false ∧ s.joiner ≠ .none)
  writes : s.joiner.ret = false → ∀ a ∈ s.acc, (a.loc = .vec ∨ ∃ i, a.loc = .ready i) → a.write = true → Ctor a
  join : ∀ t, s.joiner.thread = some t → s.pc t = .user ∧ 2 ≤ s.vc t 0 ∧
    ∀ a ∈ s.acc, (s.pc a.stamp.thread = .user ∨ (a.loc = .threads ∧ a.write = true)) → a.stamp.le (s.vc t)
  quiet : s.joiner ≠ .none → ∀ u, s.pc u = .user → s.nt u = none
  joining : ∀ t us, s.joiner = .joining t us → ∀ u ∈ s.threads, u ∈ us ∨ (s.pc u = .ended ∧ leq (s.vc u) (s.vc t))
  returned : ∀ t, s.joiner = .returned t → ∀ u ∈ s.threads, s.pc u = .ended ∧ leq (s.vc u) (s.vc t)
  queued : ∀ i, ∀ k ∈ s.q i, ∃ st, s.subs[k]? = some st ∧ st.le (s.qlm i)
  begun : ∀ x ∈ s.begun, ∃ st, s.subs[x.1]? = some st ∧ st.le x.2
  ends : ∀ x ∈ s.begun, (∃ e, (x.1, e) ∈ s.ended) ∨ ∃ u, s.pc u = .calling x.1
  ended : ∀ x ∈ s.ended, x.2.thread ∈ s.threads ∧ x.2.le (s.vc x.2.thread)

/-! ## Small changes -/

/-- Clocks of threads that have not ended grow. -/
theorem Inv.clock (I : Inv n s) {vc : Nat → Clock} (h : ∀ u, leq (s.vc u) (vc u)) (he : ∀ u, s.pc u = .ended → vc u = s.vc u) :
    Inv n { s with vc := vc } where
  own a ha := (I.own a ha).mono (h _)
  born := I.born
  pool := I.pool
  know1 u hu := Nat.le_trans (I.know1 u hu) (h u 0)
  know2 u k hu := Nat.le_trans (I.know2 u k hu) (h u 0)
  knowq := I.knowq
  nt u r hu := ⟨(I.nt u r hu).1, Nat.le_trans (I.nt u r hu).2.1 (h u 0), (I.nt u r hu).2.2⟩
  queue := I.queue
  waiter := I.waiter
  thr := I.thr
  writes := I.writes
  join t ht := ⟨(I.join t ht).1, Nat.le_trans (I.join t ht).2.1 (h t 0), fun a ha h' => ((I.join t ht).2.2 a ha h').mono (h t)⟩
  quiet := I.quiet
  joining t us hj u hu := (I.joining t us hj u hu).imp id fun ⟨e, h'⟩ => ⟨e, by
    show leq (vc u) (vc t)
    rw [he u e]; exact h'.trans (h t)⟩
  returned t hj u hu := ⟨(I.returned t hj u hu).1, by
    show leq (vc u) (vc t)
    rw [he u (I.returned t hj u hu).1]; exact (I.returned t hj u hu).2.trans (h t)⟩
  queued := I.queued
  begun := I.begun
  ends := I.ends
  ended x hx := ⟨(I.ended x hx).1, (I.ended x hx).2.mono (h _)⟩

theorem Inv.tick (I : Inv n s) {t : Nat} (h : s.pc t ≠ .ended) : Inv n { s with vc := tick s.vc t } :=
  I.clock (fun _ => leq_tick _ _ _) fun u hu => by
    have : u ≠ t := fun e => h (e ▸ hu)
    simp [Sync.tick, upd, this]

theorem Inv.acquire (I : Inv n s) {t : Nat} (h : s.pc t ≠ .ended) (c : Clock) : Inv n { s with vc := acquire s.vc t c } :=
  I.clock (fun _ => leq_acquire _ _ _ _) fun u hu => by
    have : u ≠ t := fun e => h (e ▸ hu)
    simp [Sync.acquire, upd, this]

/-- Clocks of mutexes grow. -/
theorem Inv.locks (I : Inv n s) {qlm wlm : Nat → Clock} {tlm : Clock} (hq : ∀ i, leq (s.qlm i) (qlm i)) (hw : ∀ i, leq (s.wlm i) (wlm i))
    (ht : leq s.tlm tlm) : Inv n { s with qlm := qlm, wlm := wlm, tlm := tlm } where
  own := I.own
  born := I.born
  pool := I.pool
  know1 := I.know1
  know2 := I.know2
  knowq i hi := Nat.le_trans (I.knowq i hi) (hq i 0)
  nt := I.nt
  queue hr a ha i hi := (I.queue hr a ha i hi).imp id fun h => h.mono (hq i)
  waiter a ha j hj := (I.waiter a ha j hj).imp id fun h => h.mono (hw j)
  thr a ha h := (I.thr a ha h).imp id fun h => h.imp (fun h => h.mono ht) id
  writes := I.writes
  join := I.join
  quiet := I.quiet
  joining := I.joining
  returned := I.returned
  queued i k hk := let ⟨st, h1, h2⟩ := I.queued i k hk; ⟨st, h1, h2.mono (hq i)⟩
  begun := I.begun
  ends := I.ends
  ended := I.ended

/-- One more access is on record. -/
theorem Inv.record (I : Inv n s) (a : Access) (own : a.stamp.le (s.vc a.stamp.thread)) (born : s.pc a.stamp.thread ≠ .unborn)
    (queue : s.joiner.ret = false → ∀ i, a.loc = .queue i → a.stamp.le (s.qlm i)) (waiter : ∀ j, a.loc = .waiter j → a.stamp.le (s.wlm j))
    (thr : a.loc = .threads → a.stamp.le s.tlm ∨ (a.write = false ∧ s.joiner ≠ .none))
    (writes : s.joiner.ret = false → (a.loc = .vec ∨ ∃ i, a.loc = .ready i) → a.write = false)
    (join : ∀ t, s.joiner.thread = some t → (s.pc a.stamp.thread = .user ∨ (a.loc = .threads ∧ a.write = true)) → a.stamp.le (s.vc t)) :
    Inv n { s with acc := a :: s.acc } where
  own b hb := by
    rcases List.mem_cons.1 hb with rfl | hb
    · exact own
    · exact I.own b hb
  born b hb := by
    rcases List.mem_cons.1 hb with rfl | hb
    · exact born
    · exact I.born b hb
  pool := I.pool
  know1 := I.know1
  know2 := I.know2
  knowq := I.knowq
  nt := I.nt
  queue hr b hb i hi := by
    rcases List.mem_cons.1 hb with rfl | hb
    · exact .inr (queue hr i hi)
    · exact I.queue hr b hb i hi
  waiter b hb i hi := by
    rcases List.mem_cons.1 hb with rfl | hb
    · exact .inr (waiter i hi)
    · exact I.waiter b hb i hi
  thr b hb h := by
    rcases List.mem_cons.1 hb with rfl | hb
    · exact .inr (thr h)
    · exact I.thr b hb h
  writes hr b hb h hw := by
    rcases List.mem_cons.1 hb with rfl | hb
    · rw [writes hr h] at hw; cases hw
    · exact I.writes hr b hb h hw
  join t ht := ⟨(I.join t ht).1, (I.join t ht).2.1, fun b hb h => by
    rcases List.mem_cons.1 hb with rfl | hb
    · exact join t ht h
    · exact (I.join t ht).2.2 b hb h⟩
  quiet := I.quiet
  joining := I.joining
  returned := I.returned
  queued := I.queued
  begun := I.begun
  ends := I.ends
  ended := I.ended

/-- A thread of the pool goes on. -/
theorem Inv.setpc (I : Inv n s) {u : Nat} {p : Pc} (hu : u ∈ s.threads) (he : s.pc u ≠ .ended) (hp : p.pool = true) (hn : s.nt u = none)
    (hk : ∀ k, p = .calling k → 2 ≤ s.vc u 0) (hc : ∀ k, s.pc u = .calling k → ∃ e, (k, e) ∈ s.ended) :
    Inv n { s with pc := upd s.pc u p } where
  own := I.own
  born a ha := by
    by_cases e : a.stamp.thread = u
    · simp only [upd, e, if_true]; intro h; rw [h] at hp; cases hp
    · simp only [upd, if_neg e]; exact I.born a ha
  pool v := by
    by_cases e : v = u
    · subst e; simp [upd, hp, hu]
    · simp only [upd, if_neg e]; exact I.pool v
  know1 := I.know1
  know2 v k hv := by
    by_cases e : v = u
    · subst e; simp only [upd, if_true] at hv; exact hk k hv
    · simp only [upd, if_neg e] at hv; exact I.know2 v k hv
  knowq := I.knowq
  nt v r hv := by
    have hv : s.nt v = some r := hv
    have e : v ≠ u := by rintro rfl; rw [hn] at hv; cases hv
    refine ⟨?_, (I.nt v r hv).2⟩
    have := (I.nt v r hv).1
    simpa only [live, upd, if_neg e] using this
  queue := I.queue
  waiter := I.waiter
  thr := I.thr
  writes := I.writes
  join t ht := by
    obtain ⟨h1, h2, h3⟩ := I.join t ht
    have hpu : p ≠ .user := by rintro rfl; cases hp
    have e : t ≠ u := by
      rintro rfl
      have := (I.pool t).2 hu
      rw [h1] at this; cases this
    refine ⟨by simp only [upd, if_neg e]; exact h1, h2, fun a ha h => h3 a ha ?_⟩
    refine h.imp (fun h => ?_) id
    by_cases e : a.stamp.thread = u
    · simp only [upd, e, if_true] at h; exact absurd h hpu
    · simpa only [upd, if_neg e] using h
  quiet hj v hv := by
    by_cases e : v = u
    · subst e; exact hn
    · simp only [upd, if_neg e] at hv; exact I.quiet hj v hv
  joining t us hj v hv := by
    by_cases e : v = u
    · subst e
      exact .inl ((I.joining t us hj v hv).resolve_right fun h => he h.1)
    · simp only [upd, if_neg e]; exact I.joining t us hj v hv
  returned t hj v hv := absurd (I.returned t hj u hu).1 he
  queued := I.queued
  begun := I.begun
  ends x hx := by
    rcases I.ends x hx with h | ⟨v, hv⟩
    · exact .inl h
    · by_cases e : v = u
      · subst e; exact .inl (hc _ hv)
      · exact .inr ⟨v, by simp only [upd, if_neg e]; exact hv⟩
  ended := I.ended

/-! ## Accesses -/

theorem access_ok {t : Nat} {l : Loc} {w : Bool} (h : ∀ a ∈ s.acc, a.loc = l → (a.write = true ∨ w = true) → a.stamp.le (s.vc t)) :
    access s t l w = .ok { s with vc := Sync.tick s.vc t, acc := ⟨l, w, ⟨t, s.vc t t + 1⟩⟩ :: s.acc } := by
  have : (s.acc.any fun a => a.loc = l && (a.write || w) && ¬ a.stamp.le (s.vc t)) = false := by
    rw [List.any_eq_false]
    intro a ha h'
    simp only [Bool.and_eq_true, Bool.or_eq_true, decide_eq_true_eq] at h'
    exact h'.2 (h a ha h'.1.1 h'.1.2)
  simp only [access, this]
  rfl

theorem Ctor.le {a : Access} (h : Ctor a) {c : Clock} (hc : 1 ≤ c 0) (hl : a.loc ≠ .threads) : a.stamp.le c := by
  unfold Ctor at h
  rw [if_neg hl] at h
  rw [h]; exact hc

theorem Ctor.le2 {a : Access} (h : Ctor a) {c : Clock} (hc : 2 ≤ c 0) : a.stamp.le c := by
  unfold Ctor at h
  rw [h]
  show (if a.loc = Loc.threads then 2 else 1) ≤ c 0
  split <;> omega

/-- Thread `t` may use the task system: it is in the pool, or it is of the program and `join()` is not in progress, or it is the one that calls `join()`. -/
structure Ok (s : St) (t : Nat) : Prop where
  born : s.pc t ≠ .unborn
  live : s.pc t ≠ .ended
  ret : s.joiner.ret = false
  know : 1 ≤ s.vc t 0
  user : s.pc t = .user → s.joiner.thread = none ∨ s.joiner.thread = some t

/-- The same thread later. -/
theorem Ok.mono (k : Ok s t) (hp : s'.pc = s.pc) (hj : s'.joiner = s.joiner) (hv : leq (s.vc t) (s'.vc t)) : Ok s' t :=
  ⟨hp ▸ k.born, hp ▸ k.live, hj ▸ k.ret, Nat.le_trans k.know (hv 0), hp ▸ hj ▸ k.user⟩

/-- Reading the vector, or using a condition variable. -/
theorem Inv.read (I : Inv n s) {t : Nat} (k : Ok s t) {l : Loc} (hl : l = .vec ∨ ∃ i, l = .ready i) :
    ∃ s', access s t l false = .ok s' ∧ Inv n s' ∧ s' = { s with vc := Sync.tick s.vc t, acc := s'.acc } := by
  refine ⟨_, access_ok ?_, ?_, rfl⟩
  · intro a ha e h
    simp only [reduceCtorEq, or_false] at h
    subst e
    refine (I.writes k.ret a ha hl h).le k.know ?_
    rcases hl with h | ⟨i, h⟩ <;> rw [h] <;> simp
  · refine (I.tick (t := t) k.live).record _ (tick_stamp _ _) k.born ?_ ?_ ?_ ?_ ?_
    · rintro _ i rfl; rcases hl with h | ⟨i, h⟩ <;> cases h
    · rintro i rfl; rcases hl with h | ⟨i, h⟩ <;> cases h
    · rintro rfl; rcases hl with h | ⟨i, h⟩ <;> cases h
    · intro _ _; rfl
    · intro t' ht h
      rcases h with h | ⟨_, h⟩
      · rcases k.user h with h | h
        · have ht : s.joiner.thread = some t' := ht
          rw [h] at ht; cases ht
        · have ht : s.joiner.thread = some t' := ht
          rw [h] at ht; cases ht; exact tick_stamp _ _
      · cases h

/-- What a critical section leaves behind. -/
structure Crit (s s' : St) (t : Nat) : Prop where
  same : s' = { s with vc := s'.vc, acc := s'.acc, qlm := s'.qlm, wlm := s'.wlm, tlm := s'.tlm }
  vc : ∀ u, leq (s.vc u) (s'.vc u)
  others : ∀ u, u ≠ t → s'.vc u = s.vc u

theorem Inv.onQueue (I : Inv n s) {t i : Nat} (k : Ok s t) (f : St → St) :
    ∃ s1, Inv n s1 ∧ Crit s s1 t ∧ leq (s1.vc t) (s1.qlm i) ∧ leq (s.qlm i) (s1.vc t) ∧
      onQueue s t i f = .ok { f { s1 with qlm := s.qlm } with qlm := s1.qlm } := by
  obtain ⟨s0, h0, I0, e0⟩ := I.read k (.inl rfl : Loc.vec = .vec ∨ _)
  have k0 : Ok s0 t := k.mono (by rw [e0]) (by rw [e0]) (by rw [e0]; exact leq_tick _ _ _)
  have hq : s0.qlm = s.qlm := by rw [e0]
  have hok : access { s0 with vc := Sync.acquire s0.vc t (s0.qlm i) } t (.queue i) true = .ok
      { s0 with vc := Sync.tick (Sync.acquire s0.vc t (s0.qlm i)) t,
                acc := ⟨.queue i, true, ⟨t, Sync.acquire s0.vc t (s0.qlm i) t t + 1⟩⟩ :: s0.acc } := by
    refine access_ok ?_
    intro a ha e _
    rcases I0.queue k0.ret a ha i e with h | h
    · refine (h.le k0.know (by rw [e]; simp)).mono (leq_acquire _ _ _ _)
    · exact h.mono (acquire_leq _ _ _)
  have hv : ∀ u, leq (s0.vc u) (Sync.tick (Sync.acquire s0.vc t (s0.qlm i)) t u) := fun u =>
    leq.trans (leq_acquire _ _ _ _) (leq_tick _ _ _)
  have I1 : Inv n { s0 with
      vc := Sync.tick (Sync.acquire s0.vc t (s0.qlm i)) t,
      acc := ⟨.queue i, true, ⟨t, Sync.acquire s0.vc t (s0.qlm i) t t + 1⟩⟩ :: s0.acc,
      qlm := upd s0.qlm i (Sync.join (s0.qlm i) (Sync.tick (Sync.acquire s0.vc t (s0.qlm i)) t t)) } := by
    have J := ((I0.acquire (t := t) k0.live (s0.qlm i)).tick (t := t) k0.live).locks
      (qlm := upd s0.qlm i (Sync.join (s0.qlm i) (Sync.tick (Sync.acquire s0.vc t (s0.qlm i)) t t))) (wlm := s0.wlm) (tlm := s0.tlm)
      (fun j => by
        by_cases e : j = i
        · subst e; simp only [upd, if_true]; exact leq_joinl _ _
        · simp only [upd, if_neg e]; exact leq.refl _) (fun _ => leq.refl _) (leq.refl _)
    refine J.record ⟨.queue i, true, ⟨t, Sync.acquire s0.vc t (s0.qlm i) t t + 1⟩⟩ (tick_stamp _ _) k0.born ?_ ?_ ?_ ?_ ?_
    · rintro _ j e
      cases e
      simp only [upd, if_true]
      exact (tick_stamp _ _).mono (leq_joinr _ _)
    · rintro j e; cases e
    · intro e; cases e
    · rintro _ (e | ⟨_, e⟩) <;> cases e
    · rintro t' ht (h | ⟨h, _⟩)
      · have ht : s0.joiner.thread = some t' := ht
        rcases k0.user h with h | h
        · rw [h] at ht; cases ht
        · rw [h] at ht; cases ht; exact tick_stamp _ _
      · cases h
  refine ⟨_, I1, ⟨by rw [e0], ?_, ?_⟩, ?_, ?_, ?_⟩
  · intro u
    refine leq.trans ?_ (hv u)
    rw [e0]; exact leq_tick _ _ _
  · intro u hu
    simp [Sync.tick, Sync.acquire, upd, hu]
    rw [e0]; simp [Sync.tick, upd, hu]
  · simp only [upd, if_true]; exact leq_joinr _ _
  · rw [← hq]; exact leq.trans (acquire_leq _ _ _) (leq_tick _ _ _)
  · simp only [Pool.onQueue, h0, Out.bind, hok]
    rw [← hq]

theorem Inv.onWaiter (I : Inv n s) {t j : Nat} (k : Ok s t) (f : St → St) :
    ∃ s1, Inv n s1 ∧ Crit s s1 t ∧ onWaiter s t j f = .ok { f { s1 with wlm := s.wlm } with wlm := s1.wlm } := by
  have hok : access { s with vc := Sync.acquire s.vc t (s.wlm j) } t (.waiter j) true = .ok
      { s with vc := Sync.tick (Sync.acquire s.vc t (s.wlm j)) t,
               acc := ⟨.waiter j, true, ⟨t, Sync.acquire s.vc t (s.wlm j) t t + 1⟩⟩ :: s.acc } := by
    refine access_ok ?_
    intro a ha e _
    rcases I.waiter a ha j e with h | h
    · refine (h.le k.know (by rw [e]; simp)).mono (leq_acquire _ _ _ _)
    · exact h.mono (acquire_leq _ _ _)
  have I1 : Inv n { s with
      vc := Sync.tick (Sync.acquire s.vc t (s.wlm j)) t,
      acc := ⟨.waiter j, true, ⟨t, Sync.acquire s.vc t (s.wlm j) t t + 1⟩⟩ :: s.acc,
      wlm := upd s.wlm j (Sync.join (s.wlm j) (Sync.tick (Sync.acquire s.vc t (s.wlm j)) t t)) } := by
    have J := ((I.acquire (t := t) k.live (s.wlm j)).tick (t := t) k.live).locks (qlm := s.qlm)
      (wlm := upd s.wlm j (Sync.join (s.wlm j) (Sync.tick (Sync.acquire s.vc t (s.wlm j)) t t))) (tlm := s.tlm) (fun _ => leq.refl _)
      (fun i => by
        by_cases e : i = j
        · subst e; simp only [upd, if_true]; exact leq_joinl _ _
        · simp only [upd, if_neg e]; exact leq.refl _) (leq.refl _)
    refine J.record ⟨.waiter j, true, ⟨t, Sync.acquire s.vc t (s.wlm j) t t + 1⟩⟩ (tick_stamp _ _) k.born ?_ ?_ ?_ ?_ ?_
    · rintro _ i e; cases e
    · rintro i e
      cases e
      simp only [upd, if_true]
      exact (tick_stamp _ _).mono (leq_joinr _ _)
    · intro e; cases e
    · rintro _ (e | ⟨_, e⟩) <;> cases e
    · rintro t' ht (h | ⟨h, _⟩)
      · have ht : s.joiner.thread = some t' := ht
        rcases k.user h with h | h
        · rw [h] at ht; cases ht
        · rw [h] at ht; cases ht; exact tick_stamp _ _
      · cases h
  refine ⟨_, I1, ⟨rfl, fun u => leq.trans (leq_acquire _ _ _ _) (leq_tick _ _ _), ?_⟩, ?_⟩
  · intro u hu
    simp [Sync.tick, Sync.acquire, upd, hu]
  · simp only [Pool.onWaiter, hok, Out.bind]

theorem Inv.onThreads (I : Inv n s) {t : Nat} (k : Ok s t) (k2 : 2 ≤ s.vc t 0) {w : Bool} (hw : w = true → s.joiner = .none) (f : St → St) :
    ∃ s1, Inv n s1 ∧ Crit s s1 t ∧ onThreads s t w f = .ok { f { s1 with tlm := s.tlm } with tlm := s1.tlm } := by
  have hok : access { s with vc := Sync.acquire s.vc t s.tlm } t .threads w = .ok
      { s with vc := Sync.tick (Sync.acquire s.vc t s.tlm) t,
               acc := ⟨.threads, w, ⟨t, Sync.acquire s.vc t s.tlm t t + 1⟩⟩ :: s.acc } := by
    refine access_ok ?_
    intro a ha e h'
    rcases I.thr a ha e with h | h | ⟨h, hj⟩
    · exact (h.le2 k2).mono (leq_acquire _ _ _ _)
    · exact h.mono (acquire_leq _ _ _)
    · rcases h' with h' | h'
      · rw [h] at h'; cases h'
      · exact absurd (hw h') hj
  have I1 : Inv n { s with
      vc := Sync.tick (Sync.acquire s.vc t s.tlm) t,
      acc := ⟨.threads, w, ⟨t, Sync.acquire s.vc t s.tlm t t + 1⟩⟩ :: s.acc,
      tlm := Sync.join s.tlm (Sync.tick (Sync.acquire s.vc t s.tlm) t t) } := by
    have J := ((I.acquire (t := t) k.live s.tlm).tick (t := t) k.live).locks (qlm := s.qlm) (wlm := s.wlm)
      (tlm := Sync.join s.tlm (Sync.tick (Sync.acquire s.vc t s.tlm) t t)) (fun _ => leq.refl _) (fun _ => leq.refl _) (leq_joinl _ _)
    refine J.record ⟨.threads, w, ⟨t, Sync.acquire s.vc t s.tlm t t + 1⟩⟩ (tick_stamp _ _) k.born ?_ ?_ ?_ ?_ ?_
    · rintro _ i e; cases e
    · rintro i e; cases e
    · intro _; exact .inl ((tick_stamp _ _).mono (leq_joinr _ _))
    · rintro _ (e | ⟨_, e⟩) <;> cases e
    · rintro t' ht h
      have ht : s.joiner.thread = some t' := ht
      rcases h with h | ⟨_, h⟩
      · rcases k.user h with h | h
        · rw [h] at ht; cases ht
        · rw [h] at ht; cases ht; exact tick_stamp _ _
      · rw [hw h] at ht; cases ht
  refine ⟨_, I1, ⟨rfl, fun u => leq.trans (leq_acquire _ _ _ _) (leq_tick _ _ _), ?_⟩, ?_⟩
  · intro u hu
    simp [Sync.tick, Sync.acquire, upd, hu]
  · simp only [Pool.onThreads, hok, Out.bind]

/-- Who knows all accesses may do anything. -/
theorem accesses_ok {t : Nat} {w : Bool} (ls : List Loc) (h : ∀ a ∈ s.acc, a.stamp.le (s.vc t)) :
    ∃ s', accesses s t w ls = .ok s' ∧ s' = { s with vc := s'.vc, acc := s'.acc } ∧ (∀ u, leq (s.vc u) (s'.vc u)) ∧
      (∀ u, u ≠ t → s'.vc u = s.vc u) ∧ ∀ a ∈ s'.acc, a ∈ s.acc ∨ (a.stamp.thread = t ∧ a.stamp.le (s'.vc t) ∧ a.loc ∈ ls) := by
  induction ls generalizing s with
  | nil => exact ⟨s, rfl, rfl, fun _ => leq.refl _, fun _ _ => rfl, fun a ha => .inl ha⟩
  | cons l ls ih =>
    simp only [accesses]
    rw [access_ok (s := s) (t := t) (l := l) (w := w) fun a ha _ _ => h a ha]
    simp only [Out.bind]
    obtain ⟨s', h1, h2, h3, h4, h5⟩ := ih (s := { s with vc := Sync.tick s.vc t, acc := ⟨l, w, ⟨t, s.vc t t + 1⟩⟩ :: s.acc }) (by
      intro a ha
      rcases List.mem_cons.1 ha with rfl | ha
      · exact tick_stamp _ _
      · exact (h a ha).mono (leq_tick _ _ _))
    refine ⟨s', h1, h2, fun u => leq.trans (leq_tick _ _ _) (h3 u), fun u hu => ?_, fun a ha => ?_⟩
    · rw [h4 u hu]; simp [Sync.tick, upd, hu]
    · rcases h5 a ha with h | ⟨h6, h7, h8⟩
      · rcases List.mem_cons.1 h with rfl | h
        · exact .inr ⟨rfl, (tick_stamp _ _).mono (h3 t), List.mem_cons_self⟩
        · exact .inl h
      · exact .inr ⟨h6, h7, List.mem_cons_of_mem _ h8⟩

/-! ## Who may use the task system -/

theorem Inv.okPool (I : Inv n s) {u : Nat} (h : (s.pc u).pool = true) (he : s.pc u ≠ .ended) : Ok s u where
  born e := by rw [e] at h; cases h
  live := he
  ret := by
    cases hj : s.joiner with
    | returned t => exact absurd (I.returned t hj u ((I.pool u).1 h)).1 he
    | _ => rfl
  know := I.know1 u ((I.pool u).1 h)
  user e := by rw [e] at h; cases h

theorem Inv.okLive (I : Inv n s) {t : Nat} (h : live s t = true) (k : 1 ≤ s.vc t 0) (hp : s.joiner = .none ∨ s.pc t ≠ .user) : Ok s t := by
  cases e : s.pc t with
  | calling c => exact I.okPool (by rw [e]; rfl) (by rw [e]; simp)
  | user =>
    have hj := hp.resolve_right (by simp [e])
    exact ⟨by simp [e], by simp [e], by simp [hj, Joiner.ret], k, fun _ => .inl (by rw [hj]; rfl)⟩
  | _ => simp [live, e] at h

theorem active_iff {t : Nat} : active s t = true ↔ live s t = true ∧ 2 ≤ s.vc t 0 ∧ s.nt t = none := by
  simp [active, and_assoc]

theorem Inv.okJoin (I : Inv n s) {t : Nat} (h : s.joiner.thread = some t) (hr : s.joiner.ret = false) : Ok s t where
  born e := by rw [(I.join t h).1] at e; cases e
  live e := by rw [(I.join t h).1] at e; cases e
  ret := hr
  know := Nat.le_of_succ_le (I.join t h).2.1
  user _ := .inr h

theorem Inv.ntNone (I : Inv n s) {u : Nat} (h : live s u = false) : s.nt u = none := by
  cases e : s.nt u with
  | none => rfl
  | some r => rw [(I.nt u r e).1] at h; cases h

/-! ## The effects of the steps -/

theorem Inv.setnt (I : Inv n s) {t : Nat} {r : Option Loc}
    (h : ∀ l, r = some l → live s t = true ∧ 1 ≤ s.vc t 0 ∧ (s.joiner = .none ∨ s.pc t ≠ .user) ∧ ∃ i, l = .ready i) :
    Inv n { s with nt := upd s.nt t r } :=
  { I with
    nt := fun u l hu => by
      by_cases e : u = t
      · subst e; simp only [upd, if_true] at hu; exact ⟨(h l hu).1, (h l hu).2.1, (h l hu).2.2.2⟩
      · simp only [upd, if_neg e] at hu; exact I.nt u l hu
    quiet := fun hj u hu => by
      by_cases e : u = t
      · subst e
        simp only [upd, if_true]
        cases hr : r with
        | none => rfl
        | some l => rcases (h l hr).2.2.1 with h | h; exact absurd h hj; exact absurd hu h
      · simp only [upd, if_neg e]; exact I.quiet hj u hu }

theorem sub_append {k : Nat} {st x : Stamp} {L : List Stamp} (h : L[k]? = some st) : (L ++ [x])[k]? = some st := by
  rw [List.getElem?_append_left]
  · exact h
  · rcases Nat.lt_or_ge k L.length with h' | h'
    · exact h'
    · rw [List.getElem?_eq_none h'] at h; cases h

/-- A task is pushed. -/
theorem Inv.push (I : Inv n s) {t i : Nat} (k2 : 2 ≤ s.vc t 0) (hl : leq (s.vc t) (s.qlm i)) :
    Inv n { s with q := upd s.q i (s.q i ++ [s.subs.length]), subs := s.subs ++ [⟨t, s.vc t t⟩] } :=
  { I with
    knowq := fun j hj => by
      by_cases e : j = i
      · subst e; exact Nat.le_trans k2 (hl 0)
      · simp only [upd, if_neg e] at hj; exact I.knowq j hj
    queued := fun j k hk => by
      have old : k ∈ s.q j → ∃ st, (s.subs ++ [⟨t, s.vc t t⟩])[k]? = some st ∧ st.le (s.qlm j) := fun hk =>
        let ⟨st, h1, h2⟩ := I.queued j k hk; ⟨st, sub_append h1, h2⟩
      by_cases e : j = i
      · subst e
        simp only [upd, if_true] at hk
        rcases List.mem_append.1 hk with hk | hk
        · exact old hk
        · obtain rfl := List.mem_singleton.1 hk
          exact ⟨⟨t, s.vc t t⟩, by simp, hl t⟩
      · simp only [upd, if_neg e] at hk; exact old hk
    begun := fun x hx => let ⟨st, h1, h2⟩ := I.begun x hx; ⟨st, sub_append h1, h2⟩ }

/-- A task is popped and called. -/
theorem Inv.call (I : Inv n s) {u i k p : Nat} (hc : s.pc u = .calling k) {c : Clock} (h : ∃ st, s.subs[k]? = some st ∧ st.le c) :
    Inv n { s with q := upd s.q i ((s.q i).eraseIdx p), begun := s.begun ++ [(k, c)] } :=
  { I with
    knowq := fun j hj => by
      by_cases e : j = i
      · subst e
        simp only [upd, if_true] at hj
        exact I.knowq j fun h => hj (by rw [h]; rfl)
      · simp only [upd, if_neg e] at hj; exact I.knowq j hj
    queued := fun j k hk => by
      by_cases e : j = i
      · subst e; simp only [upd, if_true] at hk; exact I.queued j k (List.mem_of_mem_eraseIdx hk)
      · simp only [upd, if_neg e] at hk; exact I.queued j k hk
    begun := fun x hx => by
      rcases List.mem_append.1 hx with hx | hx
      · exact I.begun x hx
      · obtain rfl := List.mem_singleton.1 hx
        exact h
    ends := fun x hx => by
      rcases List.mem_append.1 hx with hx | hx
      · exact I.ends x hx
      · obtain rfl := List.mem_singleton.1 hx
        exact .inr ⟨u, hc⟩ }

/-- The end of a task is on record. -/
theorem Inv.recordEnd (I : Inv n s) (x : Nat × Stamp) (h : x.2.thread ∈ s.threads) (h' : x.2.le (s.vc x.2.thread)) :
    Inv n { s with ended := s.ended ++ [x] } :=
  { I with
    ends := fun y hy => (I.ends y hy).imp (fun ⟨e, h⟩ => ⟨e, List.mem_append_left _ h⟩) id
    ended := fun y hy => by
      rcases List.mem_append.1 hy with hy | hy
      · exact I.ended y hy
      · obtain rfl := List.mem_singleton.1 hy
        exact ⟨h, h'⟩ }

/-- A new thread of the pool. -/
theorem Inv.newThread (I : Inv n s) {u : Nat} (hu : s.pc u = .unborn) (hj : s.joiner = .none) (k : 1 ≤ s.vc u 0) :
    Inv n { s with threads := s.threads ++ [u], pc := upd s.pc u .loop } :=
  { I with
    born := fun a ha => by
      by_cases e : a.stamp.thread = u
      · simp [upd, e]
      · simp only [upd, if_neg e]; exact I.born a ha
    pool := fun v => by
      by_cases e : v = u
      · subst e; simp [upd, Pc.pool]
      · simp only [upd, List.mem_append, List.mem_singleton, e, or_false]; exact I.pool v
    know1 := fun v hv => by
      rcases List.mem_append.1 hv with hv | hv
      · exact I.know1 v hv
      · obtain rfl := List.mem_singleton.1 hv
        exact k
    know2 := fun v c hv => by
      by_cases e : v = u
      · subst e; simp [upd] at hv
      · simp only [upd, if_neg e] at hv; exact I.know2 v c hv
    nt := fun v r hv => by
      obtain ⟨h1, h2⟩ := I.nt v r hv
      refine ⟨?_, h2⟩
      have e : v ≠ u := by rintro rfl; simp [live, hu] at h1
      simpa only [live, upd, if_neg e] using h1
    join := fun t ht => by
      have ht : s.joiner.thread = some t := ht
      rw [hj] at ht; cases ht
    quiet := fun h => absurd hj h
    joining := fun t us h => by
      have h : s.joiner = .joining t us := h
      rw [hj] at h; cases h
    returned := fun t h => by
      have h : s.joiner = .returned t := h
      rw [hj] at h; cases h
    ends := fun x hx => (I.ends x hx).imp id fun ⟨v, hv⟩ => ⟨v, by
      have e : v ≠ u := by rintro rfl; rw [hu] at hv; cases hv
      simp only [upd, if_neg e]; exact hv⟩
    ended := fun x hx => ⟨List.mem_append_left _ (I.ended x hx).1, (I.ended x hx).2⟩ }

/-- `join()` goes on. -/
theorem Inv.setjoin (I : Inv n s) {t : Nat} {j : Joiner} (h : s.joiner.thread = some t) (hr : s.joiner.ret = false) (h' : j.thread = some t)
    (hr' : j.ret = false) (hj : ∀ us, j = .joining t us → ∀ u ∈ s.threads, u ∈ us ∨ (s.pc u = .ended ∧ leq (s.vc u) (s.vc t))) :
    Inv n { s with joiner := j } :=
  { I with
    queue := fun _ => I.queue hr
    thr := fun a ha e => (I.thr a ha e).imp id fun h => h.imp id fun h => ⟨h.1, fun e => by
      have e : j = .none := e
      rw [e] at h'; cases h'⟩
    writes := fun _ => I.writes hr
    join := fun t' ht => by
      have ht : j.thread = some t' := ht
      rw [h'] at ht; cases ht; exact I.join t h
    quiet := fun _ => I.quiet fun e => by rw [e] at h; cases h
    joining := fun t' us e => by
      have e : j = .joining t' us := e
      have e' : t' = t := by rw [e] at h'; injection h'
      subst e'
      exact hj us e
    returned := fun t' e => by
      have e : j = .returned t' := e
      rw [e] at hr'; cases hr' }

theorem Inv.init : Inv n (init n l) where
  own a ha := by
    simp only [Pool.init, List.cons_append, List.mem_cons, List.mem_append, List.mem_map] at ha
    rcases ha with rfl | rfl | (⟨i, _, rfl⟩ | ⟨i, _, rfl⟩) | ⟨j, _, rfl⟩ <;> simp [Stamp.le, Pool.init]
  born a ha := by
    simp only [Pool.init, List.cons_append, List.mem_cons, List.mem_append, List.mem_map] at ha
    rcases ha with rfl | rfl | (⟨i, _, rfl⟩ | ⟨i, _, rfl⟩) | ⟨j, _, rfl⟩ <;> simp [Pool.init]
  pool u := by
    simp only [Pool.init, List.mem_map, List.mem_range]
    by_cases h0 : u = 0
    · subst h0; simp [Pc.pool]
    · by_cases hn : u ≤ n
      · simp only [if_neg h0, if_pos hn, Pc.pool, true_iff]; exact ⟨u - 1, by omega, by omega⟩
      · simp only [if_neg h0, if_neg hn, Pc.pool, Bool.false_eq_true, false_iff]; rintro ⟨i, h1, h2⟩; omega
  know1 u hu := by
    simp only [Pool.init, List.mem_map, List.mem_range] at hu ⊢
    obtain ⟨i, h1, rfl⟩ := hu
    rw [if_neg (by omega), if_pos (by omega)]; simp
  know2 u k hu := by
    simp only [Pool.init] at hu
    split at hu
    · cases hu
    · split at hu <;> cases hu
  knowq i hi := absurd rfl hi
  nt u r hu := by cases hu
  queue _ a ha i hi := by
    simp only [Pool.init, List.cons_append, List.mem_cons, List.mem_append, List.mem_map] at ha
    rcases ha with rfl | rfl | (⟨i, _, rfl⟩ | ⟨i, _, rfl⟩) | ⟨j, _, rfl⟩ <;> exact .inl (by simp [Ctor])
  waiter a ha i hi := by
    simp only [Pool.init, List.cons_append, List.mem_cons, List.mem_append, List.mem_map] at ha
    rcases ha with rfl | rfl | (⟨i, _, rfl⟩ | ⟨i, _, rfl⟩) | ⟨j, _, rfl⟩ <;> exact .inl (by simp [Ctor])
  thr a ha i := by
    simp only [Pool.init, List.cons_append, List.mem_cons, List.mem_append, List.mem_map] at ha
    rcases ha with rfl | rfl | (⟨i, _, rfl⟩ | ⟨i, _, rfl⟩) | ⟨j, _, rfl⟩ <;> exact .inl (by simp [Ctor])
  writes _ a ha i _ := by
    simp only [Pool.init, List.cons_append, List.mem_cons, List.mem_append, List.mem_map] at ha
    rcases ha with rfl | rfl | (⟨i, _, rfl⟩ | ⟨i, _, rfl⟩) | ⟨j, _, rfl⟩ <;> simp [Ctor]
  join t ht := by cases ht
  quiet h := absurd rfl h
  joining t us h := by cases h
  returned t h := by cases h
  queued i k hk := by cases hk
  begun x hx := by cases hx
  ends x hx := by cases hx
  ended x hx := by cases hx

theorem Crit.ok {t : Nat} (c : Crit s s' t) (k : Ok s t) : Ok s' t :=
  k.mono (by rw [c.same]) (by rw [c.same]) (c.vc t)

theorem inv_step (I : Inv n s) (a : Act) (hp : polite s a) : step n l s a ≠ .race ∧ ∀ s', step n l s a = .ok s' → Inv n s' := by
  have no : (Out.no ≠ Out.race) ∧ ∀ s', Out.no = .ok s' → Inv n s' := ⟨by simp, by simp⟩
  have yes : ∀ s1, Inv n s1 → (Out.ok s1 ≠ Out.race) ∧ ∀ s', Out.ok s1 = .ok s' → Inv n s' := fun s1 h =>
    ⟨by simp, fun s' e => by cases e; exact h⟩
  cases a with
  | born u =>
    simp only [step]
    split
    · rename_i hu
      refine yes _ { I with born := ?_, pool := ?_, know2 := ?_, nt := ?_, join := ?_, quiet := ?_, joining := ?_, returned := ?_, ends := ?_ }
      · intro a ha
        by_cases e : a.stamp.thread = u
        · simp [upd, e]
        · simp only [upd, if_neg e]; exact I.born a ha
      · intro v
        by_cases e : v = u
        · subst e
          have := I.pool v
          rw [hu] at this
          simpa [upd, Pc.pool] using this
        · simp only [upd, if_neg e]; exact I.pool v
      · intro v k hv
        by_cases e : v = u
        · subst e; simp [upd] at hv
        · simp only [upd, if_neg e] at hv; exact I.know2 v k hv
      · intro v r hv
        obtain ⟨h1, h2⟩ := I.nt v r hv
        refine ⟨?_, h2⟩
        have e : v ≠ u := by rintro rfl; simp [live, hu] at h1
        simpa only [live, upd, if_neg e] using h1
      · intro t ht
        obtain ⟨h1, h2, h3⟩ := I.join t ht
        have e : t ≠ u := by rintro rfl; rw [hu] at h1; cases h1
        refine ⟨by simp only [upd, if_neg e]; exact h1, h2, fun a ha h => h3 a ha (h.imp (fun h => ?_) id)⟩
        have e : a.stamp.thread ≠ u := by rintro e; exact I.born a ha (e ▸ hu)
        simpa only [upd, if_neg e] using h
      · intro hj v hv
        by_cases e : v = u
        · subst e; exact I.ntNone (by simp [live, hu])
        · simp only [upd, if_neg e] at hv; exact I.quiet hj v hv
      · intro t us hj v hv
        have e : v ≠ u := by
          rintro rfl
          have := (I.pool v).2 hv
          rw [hu] at this; cases this
        simp only [upd, if_neg e]; exact I.joining t us hj v hv
      · intro t hj v hv
        have e : v ≠ u := by
          rintro rfl
          have := (I.pool v).2 hv
          rw [hu] at this; cases this
        simp only [upd, if_neg e]; exact I.returned t hj v hv
      · intro x hx
        refine (I.ends x hx).imp id fun ⟨v, hv⟩ => ⟨v, ?_⟩
        have e : v ≠ u := by rintro rfl; rw [hu] at hv; cases hv
        simp only [upd, if_neg e]; exact hv
    · exact no
  | work t =>
    simp only [step]
    split
    · rename_i h
      exact yes _ (I.tick fun e => by simp [live, e] at h)
    · exact no
  | sync t u =>
    simp only [step]
    split
    · rename_i h
      simp only [Bool.and_eq_true] at h
      exact yes _ (I.acquire (fun e => by simp [live, e] at h) _)
    · exact no
  | execute t i =>
    simp only [step]
    split
    · rename_i h
      simp only [Bool.and_eq_true, active_iff] at h
      obtain ⟨⟨h1, h2, h3⟩, h4⟩ := h
      have k := I.okLive h1 (by omega) hp
      obtain ⟨s1, I1, c, hl, hl', e⟩ := I.onQueue (i := i) k fun s => { s with
        q := upd s.q i (s.q i ++ [s.subs.length]), subs := s.subs ++ [⟨t, s.vc t t⟩], nt := upd s.nt t (some (.ready i)) }
      rw [e]
      have k1 := c.ok k
      have J := (I1.push (Nat.le_trans h2 (c.vc t 0)) hl).setnt (t := t) (r := some (.ready i)) (by
        intro r hr
        cases hr
        refine ⟨?_, k1.know, ?_, i, rfl⟩
        · show live s1 t = true
          rw [c.same]; exact h1
        · show s1.joiner = .none ∨ s1.pc t ≠ .user
          rw [c.same]; exact hp)
      exact yes _ J
    · exact no
  | notify t =>
    simp only [step]
    split
    · rename_i r hr
      obtain ⟨h1, h2, i, rfl⟩ := I.nt t r hr
      have hq : s.joiner = .none ∨ s.pc t ≠ .user := by
        by_cases h : s.joiner = .none
        · exact .inl h
        · right; intro hu; rw [I.quiet h t hu] at hr; cases hr
      obtain ⟨s1, e, I1, _⟩ := I.read (I.okLive h1 h2 hq) (.inr ⟨i, rfl⟩ : Loc.ready i = .vec ∨ _)
      rw [e]
      exact yes _ (I1.setnt (by intro l hl; cases hl))
    · exact no
  | wake t i =>
    cases i with
    | none =>
      simp only [step]
      split
      · rename_i h
        obtain ⟨h1, h2, h3⟩ := active_iff.1 h
        obtain ⟨s1, e, I1, _⟩ := I.read (I.okLive h1 (by omega) hp) (.inl rfl : Loc.vec = .vec ∨ _)
        rw [e]
        exact yes _ I1
      · exact no
    | some i =>
      simp only [step]
      split
      · rename_i h
        simp only [Bool.and_eq_true, active_iff] at h
        obtain ⟨⟨h1, h2, h3⟩, h4⟩ := h
        have k := I.okLive h1 (by omega) hp
        obtain ⟨s1, I1, c, hl, hl', e⟩ := I.onQueue (i := i) k fun s => { s with nt := upd s.nt t (some (.ready i)) }
        rw [e]
        have k1 := c.ok k
        have J := I1.setnt (t := t) (r := some (.ready i)) (by
          intro r hr
          cases hr
          refine ⟨?_, k1.know, ?_, i, rfl⟩
          · rw [c.same]; exact h1
          · rw [c.same]; exact hp)
        exact yes _ J
      · exact no
  | wakeW t j =>
    simp only [step]
    split
    · rename_i h
      simp only [Bool.and_eq_true, active_iff] at h
      obtain ⟨⟨h1, h2, h3⟩, h4⟩ := h
      obtain ⟨s1, I1, c, e⟩ := I.onWaiter (j := j) (I.okLive h1 (by omega) hp) id
      rw [e]
      exact yes _ I1
    · exact no
  | size t =>
    simp only [step]
    split
    · rename_i h
      obtain ⟨h1, h2, h3⟩ := active_iff.1 h
      obtain ⟨s1, I1, c, e⟩ := I.onThreads (I.okLive h1 (by omega) hp) h2 (w := false) (by simp) id
      rw [e]
      exact yes _ I1
    · exact no
  | addThread t u =>
    simp only [step]
    split
    · rename_i h
      simp only [Bool.and_eq_true, active_iff, decide_eq_true_eq] at h
      obtain ⟨⟨⟨h1, h2, h3⟩, h4⟩, h5⟩ := h
      have hj : s.joiner = .none := hp
      obtain ⟨s1, I1, c, e⟩ := I.onThreads (I.okLive h1 (by omega) (.inl hj)) h2 (w := true) (fun _ => hj)
        fun s => { s with threads := s.threads ++ [u], pc := upd s.pc u .loop, vc := acquire s.vc u (s.vc t) }
      rw [e]
      have hu : s1.pc u = .unborn := by rw [c.same]; exact h4
      have J := (I1.acquire (t := u) (by rw [hu]; simp) (s1.vc t)).newThread (u := u) hu (by rw [c.same]; exact hj)
        (Nat.le_trans (Nat.le_of_succ_le h2) (Nat.le_trans (c.vc t 0) (acquire_leq _ _ _ 0)))
      exact yes _ J
    · exact no
  | look u =>
    simp only [step]
    split
    · rename_i h
      obtain ⟨s1, e, I1, _⟩ := I.read (I.okPool (u := u) (by rw [h]; rfl) (by rw [h]; simp)) (.inl rfl : Loc.vec = .vec ∨ _)
      rw [e]
      exact yes _ I1
    · exact no
  | pop u i p =>
    simp only [step]
    split
    · rename_i h
      obtain ⟨h, hi⟩ := h
      obtain ⟨s1, I1, c, hl, hl', e⟩ := I.onQueue (i := i) (I.okPool (u := u) (by rw [h]; rfl) (by rw [h]; simp)) (popped u i p)
      rw [e]
      have eq : s1.q = s.q := by rw [c.same]
      have es : s1.subs = s.subs := by rw [c.same]
      have ep : s1.pc u = .loop := by rw [c.same]; exact h
      cases hk : (s1.q i)[p]? with
      | none =>
        simp only [popped, hk]
        exact yes _ I1
      | some k =>
        simp only [popped, hk]
        have hm : k ∈ s.q i := by rw [← eq]; exact List.mem_of_getElem? hk
        have J := (I1.setpc (u := u) (p := .calling k) ((I1.pool u).1 (by rw [ep]; rfl)) (by rw [ep]; simp) rfl
          (I1.ntNone (by simp [live, ep])) (fun k' _ => by
            have := I.knowq i (fun h => by rw [h] at hm; cases hm)
            exact Nat.le_trans this (hl' 0)) (fun k' h => by rw [ep] at h; cases h)).call (u := u) (i := i) (k := k) (p := p) (c := s1.vc u)
          (by simp [upd]) (by
            obtain ⟨st, h1, h2⟩ := I.queued i k hm
            exact ⟨st, by show s1.subs[k]? = some st; rw [es]; exact h1, h2.mono hl'⟩)
        exact yes _ J
    · exact no
  | finish u =>
    simp only [step]
    split
    · rename_i k h
      split
      · rename_i hn
        have hu := (I.pool u).1 (by rw [h]; rfl)
        have J := ((I.tick (t := u) (by rw [h]; simp)).recordEnd (k, ⟨u, s.vc u u + 1⟩) hu (tick_stamp _ _)).setpc (u := u) (p := .loop) hu
          (by show s.pc u ≠ _; rw [h]; simp) rfl hn (by simp) (fun k' h' => by
            have h' : s.pc u = .calling k' := h'
            rw [h] at h'; cases h'
            exact ⟨_, List.mem_append_right _ (List.mem_singleton.2 rfl)⟩)
        exact yes _ J
      · exact no
    · exact no
  | wait u j =>
    simp only [step]
    split
    · rename_i h
      obtain ⟨s1, I1, c, e⟩ := I.onWaiter (j := j) (I.okPool (u := u) (by rw [h.1]; rfl) (by rw [h.1]; simp)) id
      rw [e]
      exact yes _ I1
    · exact no
  | stop u i =>
    simp only [step]
    split
    · rename_i h
      obtain ⟨h, _⟩ := h
      have k := I.okPool (u := u) (by rw [h]; rfl) (by rw [h]; simp)
      have fin : ∀ s1, Inv n s1 → Crit s s1 u → Inv n { s1 with pc := upd s1.pc u .ended } := fun s1 I1 c => by
        have ep : s1.pc u = .loop := by rw [c.same]; exact h
        exact I1.setpc (u := u) (p := .ended) ((I1.pool u).1 (by rw [ep]; rfl)) (by rw [ep]; simp) rfl (I1.ntNone (by simp [live, ep]))
          (by simp) (fun k' h => by rw [ep] at h; cases h)
      split
      · split
        · obtain ⟨s1, I1, c, hl, hl', e⟩ := I.onQueue (i := i) k fun s => { s with pc := upd s.pc u .ended }
          rw [e]
          exact yes _ (fin s1 I1 c)
        · exact no
      · split
        · obtain ⟨s1, I1, c, e⟩ := I.onWaiter (j := i - n) k fun s => { s with pc := upd s.pc u .ended }
          rw [e]
          exact yes _ (fin s1 I1 c)
        · exact no
    · exact no
  | join t =>
    simp only [step]
    split
    · rename_i h
      simp only [Bool.and_eq_true, active_iff, decide_eq_true_eq] at h
      obtain ⟨⟨⟨h1, h2, h3⟩, h4⟩, h5⟩ := h
      have hr : s.joiner.ret = false := by rw [h5]; rfl
      refine yes _ { I with queue := fun _ => I.queue hr, thr := ?_, writes := fun _ => I.writes hr, join := ?_, quiet := fun _ => hp.2,
                            joining := by simp, returned := by simp }
      · intro a ha e
        refine (I.thr a ha e).imp id fun h => h.imp id fun h => absurd h5 h.2
      · intro t' ht
        simp only [Joiner.thread, Option.some.injEq] at ht
        subst ht
        exact ⟨h4, h2, hp.1⟩
    · exact no
  | joinStep =>
    simp only [step]
    split
    · exact no
    · rename_i t i hj
      have ht : s.joiner.thread = some t := by rw [hj]; rfl
      have hr : s.joiner.ret = false := by rw [hj]; rfl
      split
      · have k := I.okJoin ht hr
        obtain ⟨s1, I1, c, hl, hl', e⟩ := I.onQueue (i := i) k fun s => { s with qdone := upd s.qdone i true }
        rw [e]
        simp only [Out.bind]
        have I2 : Inv n { s1 with qdone := upd s1.qdone i true } := { I1 with }
        have k1 := c.ok k
        obtain ⟨s2, e2, I3, e3⟩ := I2.read (t := t) (l := .ready i) ⟨k1.born, k1.live, k1.ret, k1.know, k1.user⟩ (.inr ⟨i, rfl⟩)
        have e2' : access { s1 with qdone := upd s1.qdone i true } t (.ready i) false = .ok s2 := e2
        rw [e2']
        have j3 : s2.joiner = s.joiner := by rw [e3]; show s1.joiner = _; rw [c.same]
        exact yes _ (I3.setjoin (t := t) (by rw [j3]; exact ht) (by rw [j3]; exact hr) rfl rfl (by simp))
      · exact yes _ (I.setjoin ht hr rfl rfl (by simp))
    · rename_i t j hj
      have ht : s.joiner.thread = some t := by rw [hj]; rfl
      have hr : s.joiner.ret = false := by rw [hj]; rfl
      split
      · obtain ⟨s1, I1, c, e⟩ := I.onWaiter (j := j) (I.okJoin ht hr) fun s => { s with wdone := upd s.wdone j true }
        rw [e]
        simp only [Out.bind]
        have I2 : Inv n { s1 with wdone := upd s1.wdone j true } := { I1 with }
        have j1 : s1.joiner = s.joiner := by rw [c.same]
        exact yes _ (I2.setjoin (t := t) (j := .doneW t (j + 1)) (by rw [j1]; exact ht) (by rw [j1]; exact hr) rfl rfl (by simp))
      · exact yes _ (I.setjoin ht hr rfl rfl (by simp))
    · rename_i t hj
      have ht : s.joiner.thread = some t := by rw [hj]; rfl
      have hr : s.joiner.ret = false := by rw [hj]; rfl
      obtain ⟨h1, h2, h3⟩ := I.join t ht
      rw [access_ok (by
        intro a ha e h
        exact h3 a ha (.inr ⟨e, by simpa using h⟩))]
      simp only [Out.bind]
      have J := (I.tick (t := t) (by rw [h1]; simp)).record ⟨.threads, false, ⟨t, s.vc t t + 1⟩⟩ (tick_stamp _ _) (by simp [h1])
        (by rintro _ i e; cases e) (by rintro i e; cases e) (fun _ => .inr ⟨rfl, by simp [hj]⟩) (fun _ _ => rfl)
        (by
          intro t' h' _
          have h' : s.joiner.thread = some t' := h'
          rw [ht] at h'; cases h'
          exact tick_stamp _ _)
      exact yes _ (J.setjoin (t := t) ht hr rfl rfl (by
        intro us e u hu
        cases e
        exact .inl hu))
    · rename_i t u us hj
      have ht : s.joiner.thread = some t := by rw [hj]; rfl
      have hr : s.joiner.ret = false := by rw [hj]; rfl
      split
      · rename_i hu
        obtain ⟨h1, h2, h3⟩ := I.join t ht
        have J := I.acquire (t := t) (by rw [h1]; simp) (s.vc u)
        have hne : ∀ v, s.pc v = .ended → acquire s.vc t (s.vc u) v = s.vc v := fun v hv => by
          have : v ≠ t := by rintro rfl; rw [h1] at hv; cases hv
          simp [Sync.acquire, upd, this]
        refine yes _ (J.setjoin (t := t) ht hr rfl rfl ?_)
        intro us' e v hv
        cases e
        rcases I.joining t _ hj v hv with h | ⟨h, h'⟩
        · rcases List.mem_cons.1 h with rfl | h
          · refine .inr ⟨hu, ?_⟩
            show leq (acquire s.vc t (s.vc v) v) (acquire s.vc t (s.vc v) t)
            rw [hne v hu]; exact acquire_leq _ _ _
          · exact .inl h
        · refine .inr ⟨h, ?_⟩
          show leq (acquire s.vc t (s.vc u) v) (acquire s.vc t (s.vc u) t)
          rw [hne v h]; exact h'.trans (leq_acquire _ _ _ _)
      · exact no
    · rename_i t hj
      have ht : s.joiner.thread = some t := by rw [hj]; rfl
      obtain ⟨h1, h2, h3⟩ := I.join t ht
      have all : ∀ a ∈ s.acc, a.stamp.le (s.vc t) := by
        intro a ha
        cases hu : s.pc a.stamp.thread with
        | unborn => exact absurd hu (I.born a ha)
        | user => exact h3 a ha (.inl hu)
        | _ =>
          have := (I.joining t _ hj a.stamp.thread ((I.pool _).1 (by rw [hu]; rfl))).resolve_left (by simp)
          exact (I.own a ha).mono this.2
      obtain ⟨s1, e, hs, hv, ho, ha⟩ := accesses_ok (t := t) (w := true)
        (.vec :: ((List.range n).map .queue ++ (List.range n).map .ready)) all
      rw [e]
      simp only [Out.bind]
      have I0 : Inv n { s with vc := s1.vc } := I.clock hv fun u hu => ho u fun e => by rw [e, h1] at hu; cases hu
      have new : ∀ a ∈ s1.acc, a ∈ s.acc ∨ (a.stamp.thread = t ∧ a.stamp.le (s1.vc t) ∧ a.loc ≠ .threads ∧ ∀ j, a.loc ≠ .waiter j) := by
        intro a h
        rcases ha a h with h | ⟨h4, h5, h6⟩
        · exact .inl h
        · refine .inr ⟨h4, h5, ?_, ?_⟩
          · intro e; rw [e] at h6; simp at h6
          · intro j e; rw [e] at h6; simp at h6
      have J : Inv n { s with vc := s1.vc, acc := s1.acc, joiner := .returned t } :=
        { I0 with
          own := fun a h => by
            rcases new a h with h | ⟨h4, h5, _⟩
            · exact I0.own a h
            · rw [h4]; exact h5
          born := fun a h => by
            rcases new a h with h | ⟨h4, _⟩
            · exact I0.born a h
            · rw [h4]; show s.pc t ≠ _; rw [h1]; simp
          queue := by simp [Joiner.ret]
          waiter := fun a h j e => by
            rcases new a h with h | ⟨_, _, _, h4⟩
            · exact I0.waiter a h j e
            · exact absurd e (h4 j)
          thr := fun a h e => by
            rcases new a h with h | ⟨_, _, h4, _⟩
            · exact (I0.thr a h e).imp id fun h => h.imp id fun h => ⟨h.1, by simp⟩
            · exact absurd e h4
          writes := by simp [Joiner.ret]
          join := fun t' h' => by
            simp only [Joiner.thread, Option.some.injEq] at h'
            subst h'
            refine ⟨h1, Nat.le_trans h2 (hv _ 0), fun a h _ => ?_⟩
            rcases new a h with h | ⟨_, h4, _⟩
            · exact (all a h).mono (hv _)
            · exact h4
          quiet := fun _ => I.quiet (by simp [hj])
          joining := by simp
          returned := fun t' e u hu => by
            simp only [Joiner.returned.injEq] at e
            subst e
            exact (I0.joining t [] hj u hu).resolve_left (by simp) }
      rw [hs]
      exact yes _ J
    · exact no

theorem inv (h : Polite n l s) : Inv n s := by
  induction h with
  | init => exact Inv.init
  | step _ hp hs ih => exact (inv_step ih _ hp).2 _ hs

/-! ## What holds of every execution -/

theorem access_eq {t : Nat} {l : Loc} {w : Bool} (h : access s t l w = .ok s') :
    s' = { s with vc := Sync.tick s.vc t, acc := s'.acc } := by
  simp only [access] at h
  split at h
  · cases h
  · cases h; rfl

theorem Out.bind_ok {o : Out} {f : St → Out} (h : o.bind f = .ok s') : ∃ s1, o = .ok s1 ∧ f s1 = .ok s' := by
  cases o with
  | ok s1 => exact ⟨s1, rfl, h⟩
  | _ => cases h

/-- The tasks in the queues and the tasks called were submitted before. -/
structure Sub (s : St) : Prop where
  queued : ∀ i, ∀ k ∈ s.q i, ∃ st, s.subs[k]? = some st ∧ st.le (s.qlm i)
  begun : ∀ x ∈ s.begun, ∃ st, s.subs[x.1]? = some st ∧ st.le x.2

theorem Sub.same (I : Sub s) (h1 : s'.q = s.q) (h2 : s'.subs = s.subs) (h3 : s'.begun = s.begun) (h4 : ∀ i, leq (s.qlm i) (s'.qlm i)) : Sub s' where
  queued i k hk := by
    rw [h1] at hk
    obtain ⟨st, h5, h6⟩ := I.queued i k hk
    exact ⟨st, h2 ▸ h5, h6.mono (h4 i)⟩
  begun x hx := by rw [h3] at hx; rw [h2]; exact I.begun x hx

theorem Sub.access (I : Sub s) {t : Nat} {l : Loc} {w : Bool} (h : access s t l w = .ok s') : Sub s' := by
  have e := access_eq h
  exact I.same (by rw [e]) (by rw [e]) (by rw [e]) (fun i => by rw [e]; exact leq.refl _)

/-- A critical section of a queue. -/
theorem onQueue_eq {t i : Nat} {f : St → St} (h : onQueue s t i f = .ok s') :
    ∃ s1, s1.q = s.q ∧ s1.subs = s.subs ∧ s1.begun = s.begun ∧ s1.qlm = s.qlm ∧ leq (s.qlm i) (s1.vc t) ∧
      s' = { f s1 with qlm := upd s1.qlm i (Sync.join (s1.qlm i) (s1.vc t)) } := by
  obtain ⟨s1, h1, h⟩ := Out.bind_ok h
  obtain ⟨s2, h2, h⟩ := Out.bind_ok h
  cases h
  have e1 := access_eq h1
  have e2 := access_eq h2
  refine ⟨s2, by rw [e2, e1], by rw [e2, e1], by rw [e2, e1], by rw [e2, e1], ?_, rfl⟩
  rw [e2]
  have : s1.qlm = s.qlm := by rw [e1]
  rw [← this]
  exact leq.trans (acquire_leq _ _ _) (leq_tick _ _ _)

theorem leq_upd (q : Nat → Clock) (i : Nat) (c : Clock) (j : Nat) : leq (q j) (upd q i (Sync.join (q i) c) j) := by
  by_cases e : j = i
  · subst e; simp only [upd, if_true]; exact leq_joinl _ _
  · simp only [upd, if_neg e]; exact leq.refl _

theorem Sub.onQueue (I : Sub s) {t i : Nat} {f : St → St} (hf : ∀ s, (f s).q = s.q ∧ (f s).subs = s.subs ∧ (f s).begun = s.begun)
    (h : onQueue s t i f = .ok s') : Sub s' := by
  obtain ⟨s1, h1, h2, h3, h4, h5, rfl⟩ := onQueue_eq h
  refine I.same ((hf s1).1.trans h1) ((hf s1).2.1.trans h2) ((hf s1).2.2.trans h3) fun j => ?_
  rw [← h4]; exact leq_upd _ _ _ _

theorem Sub.onWaiter (I : Sub s) {t j : Nat} {f : St → St}
    (hf : ∀ s, (f s).q = s.q ∧ (f s).subs = s.subs ∧ (f s).begun = s.begun ∧ (f s).qlm = s.qlm) (h : onWaiter s t j f = .ok s') : Sub s' := by
  obtain ⟨s1, h1, h⟩ := Out.bind_ok h
  cases h
  have e := access_eq h1
  refine I.same ((hf s1).1.trans (by rw [e])) ((hf s1).2.1.trans (by rw [e])) ((hf s1).2.2.1.trans (by rw [e])) fun j => ?_
  show leq _ ((f s1).qlm j)
  rw [(hf s1).2.2.2, e]; exact leq.refl _

theorem Sub.onThreads (I : Sub s) {t : Nat} {w : Bool} {f : St → St}
    (hf : ∀ s, (f s).q = s.q ∧ (f s).subs = s.subs ∧ (f s).begun = s.begun ∧ (f s).qlm = s.qlm) (h : onThreads s t w f = .ok s') : Sub s' := by
  obtain ⟨s1, h1, h⟩ := Out.bind_ok h
  cases h
  have e := access_eq h1
  refine I.same ((hf s1).1.trans (by rw [e])) ((hf s1).2.1.trans (by rw [e])) ((hf s1).2.2.1.trans (by rw [e])) fun j => ?_
  show leq _ ((f s1).qlm j)
  rw [(hf s1).2.2.2, e]; exact leq.refl _

theorem Sub.accesses {t : Nat} {w : Bool} (ls : List Loc) (I : Sub s) (h : accesses s t w ls = .ok s') : Sub s' := by
  induction ls generalizing s with
  | nil => cases h; exact I
  | cons l ls ih =>
    obtain ⟨s1, h1, h⟩ := Out.bind_ok h
    exact ih (I.access h1) h

theorem sub_step (I : Sub s) (a : Act) (h : step n l s a = .ok s') : Sub s' := by
  cases a with
  | execute t i =>
    simp only [step] at h
    split at h
    · obtain ⟨s1, h1, h2, h3, h4, h5, rfl⟩ := onQueue_eq h
      constructor
      · intro j k hk
        have old : k ∈ s.q j → ∃ st, (s1.subs ++ [⟨t, s1.vc t t⟩])[k]? = some st ∧ st.le (upd s1.qlm i (Sync.join (s1.qlm i) (s1.vc t)) j) :=
          fun hk => by
            obtain ⟨st, h5, h6⟩ := I.queued j k hk
            exact ⟨st, sub_append (by rw [h2]; exact h5), h6.mono (by rw [← h4]; exact leq_upd _ _ _ _)⟩
        by_cases e : j = i
        · subst e
          simp only [upd, if_true] at hk
          rcases List.mem_append.1 hk with hk | hk
          · exact old (by rw [← h1]; exact hk)
          · obtain rfl := List.mem_singleton.1 hk
            refine ⟨⟨t, s1.vc t t⟩, by simp, ?_⟩
            simp only [upd, if_true]
            exact leq_joinr _ _ t
        · simp only [upd, if_neg e] at hk; exact old (by rw [← h1]; exact hk)
      · intro x hx
        have hx : x ∈ s1.begun := hx
        rw [h3] at hx
        obtain ⟨st, h5, h6⟩ := I.begun x hx
        exact ⟨st, sub_append (by rw [h2]; exact h5), h6⟩
    · cases h
  | pop u i p =>
    simp only [step] at h
    split at h
    · obtain ⟨s1, h1, h2, h3, h4, h5, rfl⟩ := onQueue_eq h
      simp only [popped]
      cases hk : (s1.q i)[p]? with
      | none => exact I.same h1 h2 h3 fun j => by rw [← h4]; exact leq_upd _ _ _ _
      | some k =>
        have hm : k ∈ s.q i := by rw [← h1]; exact List.mem_of_getElem? hk
        constructor
        · intro j k' hk'
          have : k' ∈ s.q j := by
            rw [← h1]
            by_cases e : j = i
            · subst e; simp only [upd, if_true] at hk'; exact List.mem_of_mem_eraseIdx hk'
            · simp only [upd, if_neg e] at hk'; exact hk'
          obtain ⟨st, h5, h6⟩ := I.queued j k' this
          exact ⟨st, by show s1.subs[k']? = _; rw [h2]; exact h5, h6.mono (by rw [← h4]; exact leq_upd _ _ _ _)⟩
        · intro x hx
          show ∃ st, s1.subs[x.1]? = some st ∧ st.le x.2
          rw [h2]
          rcases List.mem_append.1 hx with hx | hx
          · exact I.begun x (h3 ▸ hx)
          · obtain rfl := List.mem_singleton.1 hx
            obtain ⟨st, h6, h7⟩ := I.queued i k hm
            exact ⟨st, h6, h7.mono h5⟩
    · cases h
  | born u => simp only [step] at h; split at h <;> cases h; exact I.same rfl rfl rfl fun _ => leq.refl _
  | work t => simp only [step] at h; split at h <;> cases h; exact I.same rfl rfl rfl fun _ => leq.refl _
  | sync t u => simp only [step] at h; split at h <;> cases h; exact I.same rfl rfl rfl fun _ => leq.refl _
  | notify t =>
    simp only [step] at h
    split at h
    · obtain ⟨s1, h1, h⟩ := Out.bind_ok h
      cases h
      exact (I.access h1).same rfl rfl rfl fun _ => leq.refl _
    · cases h
  | wake t i =>
    cases i with
    | none =>
      simp only [step] at h
      split at h
      · exact I.access h
      · cases h
    | some i =>
      simp only [step] at h
      split at h
      · exact I.onQueue (by exact fun _ => ⟨rfl, rfl, rfl⟩) h
      · cases h
  | wakeW t j =>
    simp only [step] at h
    split at h
    · exact I.onWaiter (by exact fun _ => ⟨rfl, rfl, rfl, rfl⟩) h
    · cases h
  | size t =>
    simp only [step] at h
    split at h
    · exact I.onThreads (by exact fun _ => ⟨rfl, rfl, rfl, rfl⟩) h
    · cases h
  | addThread t u =>
    simp only [step] at h
    split at h
    · exact I.onThreads (by exact fun _ => ⟨rfl, rfl, rfl, rfl⟩) h
    · cases h
  | look u =>
    simp only [step] at h
    split at h
    · exact I.access h
    · cases h
  | finish u =>
    simp only [step] at h
    split at h
    · split at h
      · cases h; exact I.same rfl rfl rfl fun _ => leq.refl _
      · cases h
    · cases h
  | wait u j =>
    simp only [step] at h
    split at h
    · exact I.onWaiter (by exact fun _ => ⟨rfl, rfl, rfl, rfl⟩) h
    · cases h
  | stop u i =>
    simp only [step] at h
    split at h
    · split at h
      · split at h
        · exact I.onQueue (by exact fun _ => ⟨rfl, rfl, rfl⟩) h
        · cases h
      · split at h
        · exact I.onWaiter (by exact fun _ => ⟨rfl, rfl, rfl, rfl⟩) h
        · cases h
    · cases h
  | join t => simp only [step] at h; split at h <;> cases h; exact I.same rfl rfl rfl fun _ => leq.refl _
  | joinStep =>
    simp only [step] at h
    split at h
    · cases h
    · split at h
      · obtain ⟨s1, h1, h⟩ := Out.bind_ok h
        obtain ⟨s2, h2, h⟩ := Out.bind_ok h
        cases h
        exact ((I.onQueue (by exact fun _ => ⟨rfl, rfl, rfl⟩) h1).access h2).same rfl rfl rfl fun _ => leq.refl _
      · cases h; exact I.same rfl rfl rfl fun _ => leq.refl _
    · split at h
      · obtain ⟨s1, h1, h⟩ := Out.bind_ok h
        cases h
        exact (I.onWaiter (by exact fun _ => ⟨rfl, rfl, rfl, rfl⟩) h1).same rfl rfl rfl fun _ => leq.refl _
      · cases h; exact I.same rfl rfl rfl fun _ => leq.refl _
    · obtain ⟨s1, h1, h⟩ := Out.bind_ok h
      cases h
      exact (I.access h1).same rfl rfl rfl fun _ => leq.refl _
    · split at h
      · cases h; exact I.same rfl rfl rfl fun _ => leq.refl _
      · cases h
    · obtain ⟨s1, h1, h⟩ := Out.bind_ok h
      cases h
      exact (Sub.accesses _ I h1).same rfl rfl rfl fun _ => leq.refl _
    · cases h

/-! ## The properties -/

/-- **C81**: what a thread did before it gave a task to the executor happens before the task is called, in every execution (up to a data race). -/
theorem c81_submit (h : Reachable n l s) {k : Nat} {c : Clock} (hb : (k, c) ∈ s.begun) : ∃ st, s.subs[k]? = some st ∧ st.le c := by
  have : Sub s := by
    clear hb
    induction h with
    | init => exact ⟨fun i k hk => (by cases hk), fun x hx => (by cases hx)⟩
    | step _ hs ih => exact sub_step ih _ hs
  exact this.begun (k, c) hb

/-- **C81**, partly: no data race and no use of a destroyed member, if `join()` is called after all uses of the pool by other threads of the program and all
calls of `add_thread()`. Missing: the same without these conditions, which is false. -/
theorem c81_no_race_partial (h : Polite n l s) (a : Act) (hp : polite s a) : step n l s a ≠ .race := (inv_step (inv h) a hp).1

/-- **C81**, partly (under the same conditions): when `join()` has returned, each task called has returned, and that happens before what the
thread that called `join()` does next. -/
theorem c81_join_partial (h : Polite n l s) {t : Nat} (hj : s.joiner = .returned t) {k : Nat} {c : Clock} (hb : (k, c) ∈ s.begun) :
    ∃ e, (k, e) ∈ s.ended ∧ e.le (s.vc t) := by
  have I := inv h
  rcases I.ends _ hb with ⟨e, he⟩ | ⟨u, hu⟩
  · obtain ⟨h1, h2⟩ := I.ended _ he
    exact ⟨e, he, h2.mono (I.returned t hj _ h1).2⟩
  · have := (I.returned t hj u ((I.pool u).1 (by rw [hu]; rfl))).1
    rw [hu] at this; cases this

/-! ## Runs -/

def run (n l : Nat) (s : St) : List Act → Option St
  | [] => some s
  | a :: as => match step n l s a with
    | .ok s' => run n l s' as
    | _ => none

theorem reachable_run (h : Reachable n l s) {as : List Act} (e : run n l s as = some s') : Reachable n l s' := by
  induction as generalizing s with
  | nil => simp [run] at e; exact e ▸ h
  | cons a as ih =>
    simp only [run] at e
    split at e
    · rename_i s1 hs
      exact ih (.step h hs) e
    · cases e

theorem run_witness {P : St → Bool} (as : List Act) (h : ((run n l (init n l) as).map P) = some true) : ∃ s, Reachable n l s ∧ P s = true := by
  cases e : run n l (init n l) as with
  | none => rw [e] at h; cases h
  | some s => rw [e] at h; exact ⟨s, reachable_run .init e, by simpa using h⟩

def Out.isRace : Out → Bool
  | .race => true
  | _ => false

theorem Out.isRace_eq {o : Out} (h : o.isRace = true) : o = .race := by
  cases o <;> first | rfl | cases h

/-- `join()` of one queue and eight waiters, up to line 387. -/
def dones : List Act := .join 0 :: List.replicate 11 .joinStep

/-- **C81** fails: `join()` reads `_threads` without `_mutex` (line 387). A task that awaits something adds a thread; nothing orders this before
`join()`, although only the thread that calls `join()` uses the pool otherwise. -/
theorem c81_await_counterexample : ∃ s, Reachable 1 9 s ∧ s.joiner = .reading 0 ∧ s.pc 1 = .calling 0 ∧ s.subs.map Stamp.thread = [0] ∧
    step 1 9 s .joinStep = .race := by
  obtain ⟨s, h, p⟩ := run_witness (n := 1) (l := 9) (P := fun s => decide (s.joiner = .reading 0 ∧ s.pc 1 = .calling 0 ∧
    s.subs.map Stamp.thread = [0]) && (step 1 9 s .joinStep).isRace) ([.execute 0 0, .notify 0, .pop 1 0 0, .addThread 1 2] ++ dones)
    (by decide)
  simp only [Bool.and_eq_true, decide_eq_true_eq] at p
  exact ⟨s, h, p.1.1, p.1.2.1, p.1.2.2, Out.isRace_eq p.2⟩

/-- **C81** fails in the other order too: the task may add the thread while `join()` joins the threads of the vector, with `_mutex` or without. -/
theorem c81_add_thread_counterexample : ∃ s, Reachable 1 9 s ∧ s.joiner = .joining 0 [1] ∧ s.pc 1 = .calling 0 ∧ s.subs.map Stamp.thread = [0] ∧
    step 1 9 s (.addThread 1 2) = .race := by
  obtain ⟨s, h, p⟩ := run_witness (n := 1) (l := 9) (P := fun s => decide (s.joiner = .joining 0 [1] ∧ s.pc 1 = .calling 0 ∧
    s.subs.map Stamp.thread = [0]) && (step 1 9 s (.addThread 1 2)).isRace) ([.execute 0 0, .notify 0, .pop 1 0 0] ++ dones ++ [.joinStep])
    (by decide)
  simp only [Bool.and_eq_true, decide_eq_true_eq] at p
  exact ⟨s, h, p.1.1, p.1.2.1, p.1.2.2, Out.isRace_eq p.2⟩

/-- **C81** fails: thread 2 of the program gives a task to the executor, and `execute` returns before `join()` is called, but nothing else orders the
two. The call of `notify_one` (line 312), outside of the critical section, races with the destruction of the condition variable (line 390). -/
theorem c81_notify_counterexample : ∃ s, Reachable 1 9 s ∧ s.joiner = .joining 0 [] ∧ s.nt 2 = none ∧ s.subs.map Stamp.thread = [2] ∧
    s.ended.map Prod.fst = [0] ∧ step 1 9 s .joinStep = .race := by
  obtain ⟨s, h, p⟩ := run_witness (n := 1) (l := 9) (P := fun s => decide (s.joiner = .joining 0 [] ∧ s.nt 2 = none ∧
    s.subs.map Stamp.thread = [2] ∧ s.ended.map Prod.fst = [0]) && (step 1 9 s .joinStep).isRace)
    ([.born 2, .sync 0 2, .execute 2 0, .notify 2, .pop 1 0 0, .finish 1] ++ dones ++ [.joinStep, .stop 1 0, .joinStep]) (by decide)
  simp only [Bool.and_eq_true, decide_eq_true_eq] at p
  exact ⟨s, h, p.1.1, p.1.2.1, p.1.2.2.1, p.1.2.2.2, Out.isRace_eq p.2⟩

/-- **C81** fails: the same, but `notify_one` comes only after `join()` has returned: it is called on a condition variable that does not exist any more,
though the task given with it has been done. -/
theorem c81_notify_late_counterexample : ∃ s, Reachable 1 9 s ∧ s.joiner = .returned 0 ∧ s.nt 2 = some (.ready 0) ∧
    s.ended.map Prod.fst = [0] ∧ step 1 9 s (.notify 2) = .race := by
  obtain ⟨s, h, p⟩ := run_witness (n := 1) (l := 9) (P := fun s => decide (s.joiner = .returned 0 ∧ s.nt 2 = some (.ready 0) ∧
    s.ended.map Prod.fst = [0]) && (step 1 9 s (.notify 2)).isRace)
    ([.born 2, .sync 0 2, .execute 2 0, .pop 1 0 0, .finish 1] ++ dones ++ [.joinStep, .stop 1 0, .joinStep, .joinStep]) (by decide)
  simp only [Bool.and_eq_true, decide_eq_true_eq] at p
  exact ⟨s, h, p.1.1, p.1.2.1, p.1.2.2, Out.isRace_eq p.2⟩

/-! ## Concrete cases -/

/-- `polite`, for actions other than `join`. -/
def politeB (s : St) : Act → Bool
  | .join _ => false
  | .execute t _ | .wake t _ | .wakeW t _ | .size t => decide (s.joiner = .none ∨ s.pc t ≠ .user)
  | .addThread _ _ => decide (s.joiner = .none)
  | _ => true

theorem polite_of_politeB {a : Act} (h : politeB s a = true) : polite s a := by
  cases a <;> simp_all [politeB, polite]

def runP (n l : Nat) (s : St) : List Act → Option St
  | [] => some s
  | a :: as => if politeB s a then match step n l s a with
    | .ok s' => runP n l s' as
    | _ => none
    else none

theorem polite_runP (h : Polite n l s) {as : List Act} (e : runP n l s as = some s') : Polite n l s' := by
  induction as generalizing s with
  | nil => simp [runP] at e; exact e ▸ h
  | cons a as ih =>
    simp only [runP] at e
    split at e
    · rename_i hp
      split at e
      · rename_i s1 hs
        exact ih (.step h (polite_of_politeB hp) hs) e
      · cases e
    · cases e

/-- Thread 0 gives a task to the executor; the task gives another one, and calls `add_thread()` before; thread 0 waits until both are done. -/
def before : List Act :=
  [.work 0, .execute 0 0, .notify 0, .pop 1 0 0, .addThread 1 2, .execute 1 0, .notify 1, .pop 2 0 0, .sync 2 0, .finish 2, .finish 1]

/-- The rest of `join()`. -/
def rest : List Act := List.replicate 12 .joinStep ++ [.stop 1 0, .stop 2 1] ++ List.replicate 3 .joinStep

/-- A polite program: its threads do tasks, `join()` returns, and all of it is in the clock of thread 0 then, but was not before. -/
example : ∃ s0 s, Polite 1 9 s0 ∧ Polite 1 9 s ∧ polite s0 (.join 0) ∧ s.joiner = .returned 0 ∧ s.begun.map Prod.fst = [0, 1] ∧
    s.subs.map Stamp.thread = [0, 1] ∧ (∀ x ∈ s.ended, ¬ x.2.le (s0.vc 0)) ∧ (∀ x ∈ s.ended, x.2.le (s.vc 0)) := by
  have hr : (runP 1 9 (init 1 9) before).map (·.nt) =
      some (upd (upd (upd (upd (fun _ => none) 0 (some (.ready 0))) 0 none) 1 (some (.ready 0))) 1 none) := rfl
  have hacc : (runP 1 9 (init 1 9) before).map (fun s => s.acc.all fun a =>
      decide (s.pc a.stamp.thread = .user ∨ (a.loc = .threads ∧ a.write = true) → a.stamp.le (s.vc 0))) = some true := by decide
  have hall : (runP 1 9 (init 1 9) before).map (fun s0 => (match step 1 9 s0 (.join 0) with
      | .ok s1 => (runP 1 9 s1 rest).map fun s => decide (s.joiner = .returned 0 ∧ s.begun.map Prod.fst = [0, 1] ∧
        s.subs.map Stamp.thread = [0, 1] ∧ (∀ x ∈ s.ended, ¬ x.2.le (s0.vc 0)) ∧ (∀ x ∈ s.ended, x.2.le (s.vc 0)))
      | _ => none)) = some (some true) := by decide +kernel
  cases e : runP 1 9 (init 1 9) before with
  | none => rw [e] at hr; cases hr
  | some s0 =>
    rw [e] at hr hacc hall
    have hp0 := polite_runP .init e
    have hj : polite s0 (.join 0) := by
      refine ⟨fun a ha hc => ?_, fun u _ => ?_⟩
      · have := Option.some.inj hacc
        rw [List.all_eq_true] at this
        exact of_decide_eq_true (this a ha) hc
      · rw [show s0.nt = _ from Option.some.inj hr]
        by_cases h0 : u = 0 <;> by_cases h1 : u = 1 <;> simp [upd, h0, h1]
    have hall := Option.some.inj hall
    simp only at hall
    split at hall
    · rename_i s1 hs
      cases e2 : runP 1 9 s1 rest with
      | none => rw [e2] at hall; cases hall
      | some s =>
        rw [e2] at hall
        have := of_decide_eq_true (Option.some.inj hall)
        exact ⟨s0, s, hp0, polite_runP (.step hp0 hj hs) e2, hj, this.1, this.2.1, this.2.2.1, this.2.2.2.1, this.2.2.2.2⟩
    · cases hall

end Verif.Sync.Pool
