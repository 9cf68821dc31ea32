import Verif.Sync.Serial

/-! # Invariant and properties of `Verif.Sync.Serial` -/

namespace Verif.Sync.Serial

variable {m : Mode} {s s' : St}

/-- The ends of the tasks, and with `schedule_mode::all` their destruction. -/
def done (m : Mode) (s : St) : List (Nat × Stamp) := s.ended ++ if m = .all then s.gone else []

/-- All this is known to a thread with clock `c`, and the construction of the queue. -/
def Full (m : Mode) (s : St) (c : Clock) : Prop := 1 ≤ c 0 ∧ ∀ x ∈ done m s, x.2.le c

/-- Who has the right to run tasks knows all tasks that ended. -/
inductive Token (m : Mode) (s : St) : Prop where
  | idle (r : s.running = false) (q : s.queue = []) (k : s.kicks = []) (p : s.pending = []) (n : ∀ t, s.pc t = .none)
      (f : ∀ x ∈ done m s, x.2.le s.lm)
  | kick (t : Nat) (r : s.running = true) (q : s.queue ≠ []) (k : s.kicks = [t]) (p : s.pending = []) (n : ∀ t, s.pc t = .none)
      (f : Full m s (s.vc t))
  | pending (c : Clock) (r : s.running = true) (q : s.queue ≠ []) (k : s.kicks = []) (p : s.pending = [c]) (n : ∀ t, s.pc t = .none)
      (f : Full m s c)
  | job (t : Nat) (r : s.running = true) (q : s.pc t = .begin ∨ s.pc t = .resubmit → s.queue ≠ []) (k : s.kicks = [])
      (p : s.pending = []) (h : s.pc t ≠ .none) (n : ∀ u, u ≠ t → s.pc u = .none) (f : Full m s (s.vc t))

/-- Tasks fetched and not begun. -/
def Pc.rest : Pc → List Nat
  | .loop ts => ts
  | .calling _ ts => ts
  | _ => []

/-- The task being called. -/
def Pc.cur : Pc → List Nat
  | .calling k _ => [k]
  | _ => []

structure Inv (m : Mode) (s : St) : Prop where
  token : Token m s
  acc : ∀ a ∈ s.acc, (a.stamp = ⟨0, 1⟩) ∨ a.stamp.le s.lm
  /-- the order of the tasks -/
  order : ∃ l cur, (∀ t, s.pc t ≠ .none → (s.pc t).rest = l ∧ (s.pc t).cur = cur) ∧ ((∀ t, s.pc t = .none) → l = [] ∧ cur = []) ∧
    s.begun.map Prod.fst ++ l ++ s.queue = List.range s.subs.length ∧ s.ended.map Prod.fst ++ cur = s.begun.map Prod.fst
  queued : ∀ k ∈ s.queue, ∀ st, s.subs[k]? = some st → st.le s.lm
  fetched : ∀ t, ∀ k ∈ (s.pc t).rest, ∀ st, s.subs[k]? = some st → st.le (s.vc t)
  begun : ∀ i k c, s.begun[i]? = some (k, c) → (∀ st, s.subs[k]? = some st → st.le c) ∧
    (∀ x ∈ s.ended.take i, x.2.le c) ∧ (m = .all → ∀ x ∈ s.gone.take i, x.2.le c)
  gone : m = .all → s.gone.map Prod.fst = s.ended.map Prod.fst ∧ ∀ t, s.held t = none

theorem access_ok {t : Nat} (h : ∀ a ∈ s.acc, a.stamp.le (s.vc t)) (l : Loc) (w : Bool) :
    access s t l w = .ok { s with vc := tick s.vc t, acc := ⟨l, w, ⟨t, s.vc t t + 1⟩⟩ :: s.acc } := by
  have : (s.acc.any fun a => a.loc = l && (a.write || w) && ¬ a.stamp.le (s.vc t)) = false := by
    rw [List.any_eq_false]
    intro a ha
    simp [h a ha]
  simp only [access, this]
  rfl

/-- In a critical section of a thread that knows the construction of the queue all accesses are known. -/
theorem Inv.known (I : Inv m s) {t : Nat} (h : 1 ≤ s.vc t 0) : ∀ a ∈ (lock s t).acc, a.stamp.le ((lock s t).vc t) := by
  intro a ha
  rcases I.acc a ha with e | e
  · refine Stamp.le.mono (c := s.vc t) ?_ (leq_acquire s.vc t t s.lm)
    rw [e]; exact h
  · exact e.mono (acquire_leq s.vc t s.lm)

/-- A critical section of thread `t` with one access. -/
def crit1 (s : St) (t : Nat) (l : Loc) (w : Bool) : St :=
  { s with vc := tick (acquire s.vc t s.lm) t, acc := ⟨l, w, ⟨t, acquire s.vc t s.lm t t + 1⟩⟩ :: s.acc }

theorem Inv.access1 (I : Inv m s) {t : Nat} (h : 1 ≤ s.vc t 0) (l : Loc) (w : Bool) :
    access (lock s t) t l w = .ok (crit1 s t l w) := access_ok (I.known h) l w

/-- ... and with two. -/
def crit2 (s : St) (t : Nat) (l l' : Loc) (w w' : Bool) : St :=
  { s with vc := tick (tick (acquire s.vc t s.lm) t) t,
           acc := ⟨l', w', ⟨t, tick (acquire s.vc t s.lm) t t t + 1⟩⟩ :: ⟨l, w, ⟨t, acquire s.vc t s.lm t t + 1⟩⟩ :: s.acc }

theorem Inv.access2 (I : Inv m s) {t : Nat} (h : 1 ≤ s.vc t 0) (l l' : Loc) (w w' : Bool) :
    access (crit1 s t l w) t l' w' = .ok (crit2 s t l l' w w') := by
  refine access_ok ?_ l' w'
  intro a ha
  rcases List.mem_cons.1 ha with rfl | ha
  · exact tick_stamp _ t
  · exact (I.known h a ha).mono (leq_tick _ t t)

theorem Inv.init : Inv m init := by
  refine ⟨.idle rfl rfl rfl rfl (fun _ => rfl) (by intro x hx; simp [Serial.init, done] at hx), ?_, ⟨[], [], ?_, ?_, rfl, rfl⟩, ?_, ?_, ?_, fun _ => ⟨rfl, fun _ => rfl⟩⟩
  · intro a ha
    simp [Serial.init] at ha
    rcases ha with rfl | rfl <;> exact .inl rfl
  · intro t h; exact absurd rfl h
  · exact fun _ => ⟨rfl, rfl⟩
  · intro k h; simp [Serial.init] at h
  · intro t k h; simp [Serial.init, Pc.rest] at h
  · intro i k c h; simp [Serial.init] at h

theorem Full.mono {c d : Clock} (h : Full m s c) (hc : leq c d) : Full m s d :=
  ⟨Nat.le_trans h.1 (hc 0), fun x hx => (h.2 x hx).mono hc⟩

/-- Nothing but the clocks changes, and these grow. -/
theorem Inv.clocks (I : Inv m s) {vc : Nat → Clock} (h : ∀ t, leq (s.vc t) (vc t)) : Inv m { s with vc := vc } := by
  refine ⟨?_, I.acc, I.order, I.queued, fun t k hk st hs => (I.fetched t k hk st hs).mono (h t), I.begun, I.gone⟩
  cases I.token with
  | idle r q k p n f => exact .idle r q k p n f
  | kick t r q k p n f => exact .kick t r q k p n (f.mono (h t))
  | pending c r q k p n f => exact .pending c r q k p n f
  | job t r q k p h' n f => exact .job t r q k p h' n (f.mono (h t))

/-- What a critical section changes besides. -/
theorem leq_crit1 (s : St) (t : Nat) (l : Loc) (w : Bool) (u : Nat) : leq (s.vc u) ((crit1 s t l w).vc u) :=
  (leq_acquire _ _ _ _).trans (leq_tick _ _ _)

theorem leq_crit2 (s : St) (t : Nat) (l l' : Loc) (w w' : Bool) (u : Nat) : leq (s.vc u) ((crit2 s t l l' w w').vc u) :=
  ((leq_acquire _ _ _ _).trans (leq_tick _ _ _)).trans (leq_tick _ _ _)

theorem lm_crit1 (s : St) (t : Nat) (l : Loc) (w : Bool) : leq s.lm ((crit1 s t l w).vc t) :=
  (acquire_leq _ _ _).trans (leq_tick _ _ _)

theorem lm_crit2 (s : St) (t : Nat) (l l' : Loc) (w w' : Bool) : leq s.lm ((crit2 s t l l' w w').vc t) :=
  ((acquire_leq _ _ _).trans (leq_tick _ _ _)).trans (leq_tick _ _ _)

theorem Inv.acc1 (I : Inv m s) (t : Nat) (l : Loc) (w : Bool) :
    ∀ a ∈ (crit1 s t l w).acc, (a.stamp = ⟨0, 1⟩) ∨ a.stamp.le (join s.lm ((crit1 s t l w).vc t)) := by
  intro a ha
  rcases List.mem_cons.1 ha with rfl | ha
  · exact .inr ((tick_stamp _ t).mono (leq_joinr _ _))
  · exact (I.acc a ha).imp id fun h => h.mono (leq_joinl _ _)

theorem Inv.acc2 (I : Inv m s) (t : Nat) (l l' : Loc) (w w' : Bool) :
    ∀ a ∈ (crit2 s t l l' w w').acc, (a.stamp = ⟨0, 1⟩) ∨ a.stamp.le (join s.lm ((crit2 s t l l' w w').vc t)) := by
  intro a ha
  rcases List.mem_cons.1 ha with rfl | ha
  · exact .inr ((tick_stamp _ t).mono (leq_joinr _ _))
  · rcases List.mem_cons.1 ha with rfl | ha
    · exact .inr (((tick_stamp _ t).mono (leq_tick _ _ _)).mono (leq_joinr _ _))
    · exact (I.acc a ha).imp id fun h => h.mono (leq_joinl _ _)

theorem Inv.job (I : Inv m s) {t : Nat} (h : s.pc t ≠ .none) :
    s.running = true ∧ (s.pc t = .begin ∨ s.pc t = .resubmit → s.queue ≠ []) ∧ s.kicks = [] ∧ s.pending = [] ∧
      (∀ u, u ≠ t → s.pc u = .none) ∧ Full m s (s.vc t) := by
  cases I.token with
  | idle r q k p n f => exact absurd (n t) h
  | kick t' r q k p n f => exact absurd (n t) h
  | pending c r q k p n f => exact absurd (n t) h
  | job t' r q k p h' n f =>
    by_cases e : t = t'
    · subst e; exact ⟨r, q, k, p, n, f⟩
    · exact absurd (n t e) h

theorem inv_step (I : Inv m s) (a : Act) : step m s a ≠ .race ∧ step m s a ≠ .ub ∧ ∀ s', step m s a = .ok s' → Inv m s' := by
  cases a with
  | work t =>
    refine ⟨by simp [step], by simp [step], fun s' h => ?_⟩
    simp only [step, Out.ok.injEq] at h
    subst h
    exact I.clocks fun u => leq_tick _ _ _
  | sync t u =>
    refine ⟨by simp [step], by simp [step], fun s' h => ?_⟩
    simp only [step, Out.ok.injEq] at h
    subst h
    exact I.clocks fun u => leq_acquire _ _ _ _
  | kick t =>
    simp only [step]
    split
    · rename_i ht
      refine ⟨by simp, by simp, fun s' h => ?_⟩
      simp only [Out.ok.injEq] at h
      subst h
      refine ⟨?_, I.acc, I.order, I.queued, I.fetched, I.begun, I.gone⟩
      cases I.token with
      | idle r q k p n f => simp [k] at ht
      | kick t' r q k p n f =>
        rw [k] at ht
        obtain rfl := List.mem_singleton.1 ht
        exact .pending _ r q (by simp [k]) (by simp [p]) n f
      | pending c r q k p n f => simp [k] at ht
      | job t r q k p h' n f => simp [k] at ht
    · exact ⟨by simp, by simp, by simp⟩
  | start t i =>
    simp only [step]
    split
    · rename_i c hc
      split
      · rename_i hp
        refine ⟨by simp, by simp, fun s' h => ?_⟩
        simp only [Out.ok.injEq] at h
        subst h
        have hx := I.token
        have hv : ∀ u, leq (s.vc u) (acquire s.vc t c u) := fun u => leq_acquire _ _ _ _
        refine ⟨?_, I.acc, ?_, I.queued, ?_, I.begun, I.gone⟩
        · cases hx with
          | idle r q k p n f => simp [p] at hc
          | kick t' r q k p n f => simp [p] at hc
          | pending c' r q k p n f =>
            rw [p] at hc
            match i, hc with
            | 0, hc =>
              simp at hc
              subst hc
              refine .job t r (fun _ => q) k (by simp [p]) (by simp [upd]) ?_ (f.mono (acquire_leq _ _ _))
              intro u hu
              simp [upd, hu, n u]
            | i + 1, hc => simp at hc
          | job t r q k p h' n f => simp [p] at hc
        · cases hx with
          | idle r q k p n f => simp [p] at hc
          | kick t' r q k p n f => simp [p] at hc
          | pending c' r q k p n f =>
            obtain ⟨l, cur, h1, h2, h3, h4⟩ := I.order
            obtain ⟨rfl, rfl⟩ := h2 n
            refine ⟨[], [], ?_, fun _ => ⟨rfl, rfl⟩, h3, h4⟩
            intro u hu
            by_cases e : u = t
            · subst e; simp [upd, Pc.rest, Pc.cur]
            · simp [upd, e, n u] at hu
          | job t r q k p h' n f => simp [p] at hc
        · intro u k hk st hs
          by_cases e : u = t
          · subst e; simp [upd, Pc.rest] at hk
          · simp only [upd, if_neg e] at hk
            exact (I.fetched u k hk st hs).mono (hv u)
      · exact ⟨by simp, by simp, by simp⟩
    · exact ⟨by simp, by simp, by simp⟩
  | enqueue t =>
    simp only [step]
    split
    · rename_i hk
      rw [I.access1 hk]
      simp only [Out.bind]
      rw [I.access2 hk]
      refine ⟨by simp, by simp, fun s' h => ?_⟩
      simp only [Out.ok.injEq] at h
      subst h
      have hv := leq_crit2 s t .queue .running true true
      have hl := lm_crit2 s t .queue .running true true
      have ha := I.acc2 t .queue .running true true
      generalize hS : crit2 s t .queue .running true true = S at *
      have e : S.running = s.running ∧ S.queue = s.queue ∧ S.kicks = s.kicks ∧ S.pending = s.pending ∧ S.pc = s.pc ∧
        S.subs = s.subs ∧ S.begun = s.begun ∧ S.ended = s.ended ∧ S.gone = s.gone ∧ S.held = s.held ∧ S.lm = s.lm := by subst hS; simp [crit2]
      obtain ⟨er, eq, ek, ep, epc, es, eb, ee, eg, eh, elm⟩ := e
      have hsub : ∀ k st, (S.subs ++ [⟨t, S.vc t t⟩])[k]? = some st → s.subs[k]? = some st ∨ (k = s.subs.length ∧ st = ⟨t, S.vc t t⟩) := by
        intro k st h
        rw [es, List.getElem?_append] at h
        split at h
        · exact .inl h
        · rename_i hge
          rcases Nat.lt_or_ge s.subs.length k with h' | h'
          · rw [List.getElem?_eq_none (by simp; omega)] at h; cases h
          · have : k = s.subs.length := by omega
            subst this
            simp at h
            exact .inr ⟨rfl, h.symm⟩
      refine ⟨?_, ?_, ?_, ?_, ?_, ?_, by simpa [unlock, eg, ee, eh] using I.gone⟩
      · cases I.token with
        | idle r q k p n f =>
          refine .kick t rfl (by simp [unlock]) (by simp [unlock, er, r, ek, k]) (by simp [unlock, ep, p]) (by simp [unlock, epc, n]) ?_
          simp only [unlock, Full, done, ee, eg]
          exact ⟨Nat.le_trans hk (hv t 0), fun x hx => (f x hx).mono hl⟩
        | kick t' r q k p n f =>
          refine .kick t' rfl (by simp [unlock]) (by simp [unlock, er, r, ek, k]) (by simp [unlock, ep, p]) (by simp [unlock, epc, n]) ?_
          simp only [unlock, Full, done, ee, eg]
          exact f.mono (hv t')
        | pending c r q k p n f =>
          refine .pending c rfl (by simp [unlock]) (by simp [unlock, er, r, ek, k]) (by simp [unlock, ep, p]) (by simp [unlock, epc, n]) ?_
          simp only [unlock, Full, done, ee, eg]
          exact f
        | job t' r q k p h' n f =>
          refine .job t' rfl (by simp [unlock]) (by simp [unlock, er, r, ek, k]) (by simp [unlock, ep, p]) (by simp [unlock, epc, h'])
            (by simpa [unlock, epc] using n) ?_
          simp only [unlock, Full, done, ee, eg]
          exact f.mono (hv t')
      · simpa [unlock, elm] using ha
      · obtain ⟨l, cur, h1, h2, h3, h4⟩ := I.order
        refine ⟨l, cur, by simpa [unlock, epc] using h1, by simpa [unlock, epc] using h2, ?_, by simpa [unlock, eb, ee] using h4⟩
        simp only [unlock, eb, eq, es, List.length_append, List.length_singleton, List.range_succ, ← h3]
        simp
      · intro k hk' st hst
        simp only [unlock] at hk' hst ⊢
        rcases hsub k st hst with h | ⟨rfl, rfl⟩
        · have hlt : k < s.subs.length := by
            rcases Nat.lt_or_ge k s.subs.length with h' | h'
            · exact h'
            · rw [List.getElem?_eq_none h'] at h; cases h
          rw [eq, es] at hk'
          rcases List.mem_append.1 hk' with h' | h'
          · rw [elm]; exact (I.queued k h' st h).mono (leq_joinl _ _)
          · simp at h'; omega
        · exact Stamp.le.mono (c := S.vc t) (Nat.le_refl _) (leq_joinr _ _)
      · intro u k hk' st hst
        simp only [unlock] at hk' hst ⊢
        rw [epc] at hk'
        rcases hsub k st hst with h | ⟨rfl, rfl⟩
        · exact (I.fetched u k hk' st h).mono (hv u)
        · exfalso
          obtain ⟨l, cur, h1, h2, h3, h4⟩ := I.order
          have hne : s.pc u ≠ .none := by intro h; simp [h, Pc.rest] at hk'
          obtain ⟨rfl, -⟩ := h1 u hne
          have : s.subs.length ∈ List.range s.subs.length := by rw [← h3]; simp [hk']
          simp at this
      · intro i k c hb
        simp only [unlock] at hb ⊢
        rw [eb] at hb
        obtain ⟨h1, h2⟩ := I.begun i k c hb
        refine ⟨fun st hst => ?_, by simpa [ee, eg] using h2⟩
        rcases hsub k st hst with h | ⟨rfl, rfl⟩
        · exact h1 st h
        · exfalso
          obtain ⟨l, cur, -, -, h3, -⟩ := I.order
          have : s.subs.length ∈ List.range s.subs.length := by
            rw [← h3]
            have := List.mem_of_getElem? hb
            simp only [List.mem_append, List.mem_map]
            exact .inl (.inl ⟨_, this, rfl⟩)
          simp at this
    · exact ⟨by simp, by simp, by simp⟩
  | next t =>
    simp only [step]
    split
    · exact ⟨by simp, by simp, by simp⟩
    · rename_i hp
      -- begin
      obtain ⟨r, q, k, p, n, f⟩ := I.job (t := t) (by simp [hp])
      rw [I.access1 f.1]
      simp only [Out.bind]
      have hv := leq_crit1 s t .queue true
      have hl := lm_crit1 s t .queue true
      have ha := I.acc1 t .queue true
      generalize hS : crit1 s t .queue true = S at *
      have e : S.running = s.running ∧ S.queue = s.queue ∧ S.kicks = s.kicks ∧ S.pending = s.pending ∧ S.pc = s.pc ∧
        S.subs = s.subs ∧ S.begun = s.begun ∧ S.ended = s.ended ∧ S.gone = s.gone ∧ S.held = s.held ∧ S.lm = s.lm := by subst hS; simp [crit1]
      obtain ⟨er, eq, ek, ep, epc, es, eb, ee, eg, eh, elm⟩ := e
      have hq := q (.inl hp)
      have hf : ∃ ts q', fetch m S.queue = some (ts, q') ∧ ts ++ q' = s.queue := by
        rw [eq]
        cases m with
        | single => cases hq' : s.queue with
          | nil => exact absurd hq' hq
          | cons k q => exact ⟨[k], q, rfl, rfl⟩
        | all => exact ⟨s.queue, [], rfl, by simp⟩
      obtain ⟨ts, q', hf, hts⟩ := hf
      rw [hf]
      refine ⟨by simp, by simp, fun s' h => ?_⟩
      simp only [Out.ok.injEq] at h
      subst h
      have hpc : ∀ u, u ≠ t → upd S.pc t (.loop ts) u = .none := fun u hu => by simp [upd, hu, epc, n u hu]
      refine ⟨.job t (by simp [unlock, er, r]) (by simp [unlock, upd]) (by simp [unlock, ek, k]) (by simp [unlock, ep, p]) (by simp [unlock, upd]) hpc ?_, ?_, ?_, ?_, ?_, ?_, ?_⟩
      · simp only [unlock, Full, done, ee, eg]
        exact f.mono (hv t)
      · simpa [unlock, elm] using ha
      · obtain ⟨l, cur, h1, h2, h3, h4⟩ := I.order
        obtain ⟨rfl, rfl⟩ := h1 t (by simp [hp])
        refine ⟨ts, [], ?_, ?_, ?_, ?_⟩
        · intro u hu
          by_cases e : u = t
          · subst e; simp [unlock, upd, Pc.rest, Pc.cur]
          · exact absurd (hpc u e) hu
        · intro h; have := h t; simp [unlock, upd] at this
        · simp only [hp, Pc.rest, List.append_nil] at h3
          simp only [unlock, eb, es, ← h3, ← hts, List.append_assoc]
        · simpa [unlock, eb, ee, hp, Pc.cur] using h4
      · intro k hk st hst
        simp only [unlock] at hk hst ⊢
        rw [es] at hst
        rw [elm]
        exact (I.queued k (by rw [← hts]; simp [hk]) st hst).mono (leq_joinl _ _)
      · intro u k hk st hst
        by_cases e : u = t
        · subst e
          simp only [unlock, upd_same, Pc.rest, es] at hk hst ⊢
          exact (I.queued k (by rw [← hts]; simp [hk]) st hst).mono hl
        · simp only [unlock] at hk
          rw [hpc u e] at hk; simp [Pc.rest] at hk
      · simpa [unlock, eb, es, ee, eg] using I.begun
      · simpa [unlock, eg, ee, eh] using I.gone
    · rename_i k ts hp
      -- a task begins
      obtain ⟨r, q, kk, p, n, f⟩ := I.job (t := t) (by simp [hp])
      refine ⟨by simp, by simp, fun s' h => ?_⟩
      simp only [Out.ok.injEq] at h
      subst h
      have hpc : ∀ u, u ≠ t → upd s.pc t (.calling k ts) u = .none := fun u hu => by simp [upd, hu, n u hu]
      obtain ⟨l, cur, h1, h2, h3, h4⟩ := I.order
      obtain ⟨rfl, rfl⟩ := h1 t (by simp [hp])
      simp only [hp, Pc.rest, Pc.cur, List.append_nil] at h3 h4
      refine ⟨.job t r (by simp [upd]) kk p (by simp [upd]) hpc (f.mono (leq_tick _ _ _)), I.acc, ⟨ts, [k], ?_, ?_, ?_, ?_⟩, I.queued, ?_, ?_, I.gone⟩
      · intro u hu
        by_cases e : u = t
        · subst e; simp [upd, Pc.rest, Pc.cur]
        · exact absurd (hpc u e) hu
      · intro h; have := h t; simp [upd] at this
      · rw [← h3]; simp
      · simp [h4]
      · intro u j hj st hst
        by_cases e : u = t
        · subst e
          simp only [upd_same, Pc.rest] at hj
          exact (I.fetched u j (by simp [hp, Pc.rest, hj]) st hst).mono (leq_tick _ _ _)
        · simp only at hj
          rw [hpc u e] at hj; simp [Pc.rest] at hj
      · intro i j c hb
        simp only [List.getElem?_append] at hb
        split at hb
        · exact I.begun i j c hb
        · rename_i hge
          have hi : i = s.begun.length := by
            rcases Nat.lt_or_ge s.begun.length i with h' | h'
            · rw [List.getElem?_eq_none (by simp; omega)] at hb; cases hb
            · omega
          subst hi
          simp at hb
          obtain ⟨rfl, rfl⟩ := hb
          refine ⟨fun st hst => I.fetched t k (by simp [hp, Pc.rest]) st hst, fun x hx => f.2 x (List.mem_append_left _ (List.mem_of_mem_take hx)),
            fun hm x hx => f.2 x (List.mem_append_right _ (by rw [if_pos hm]; exact List.mem_of_mem_take hx))⟩
    · rename_i k ts hp
      -- a task ends
      obtain ⟨r, q, kk, p, n, f⟩ := I.job (t := t) (by simp [hp])
      have hpc : ∀ u, u ≠ t → upd s.pc t (.loop ts) u = .none := fun u hu => by simp [upd, hu, n u hu]
      obtain ⟨l, cur, h1, h2, h3, h4⟩ := I.order
      obtain ⟨rfl, rfl⟩ := h1 t (by simp [hp])
      simp only [hp, Pc.rest, Pc.cur] at h3 h4
      have o1 : ∀ u, upd s.pc t (.loop ts) u ≠ .none → (upd s.pc t (.loop ts) u).rest = ts ∧ (upd s.pc t (.loop ts) u).cur = [] := by
        intro u hu
        by_cases e : u = t
        · subst e; simp [upd, Pc.rest, Pc.cur]
        · exact absurd (hpc u e) hu
      have o2 : (∀ u, upd s.pc t (.loop ts) u = .none) → ts = [] ∧ ([] : List Nat) = [] := by
        intro h; have := h t; simp [upd] at this
      have o4 : ∀ x : Stamp, (s.ended ++ [(k, x)]).map Prod.fst ++ [] = s.begun.map Prod.fst := by simp [← h4]
      have hfe : ∀ vc : Nat → Clock, leq (s.vc t) (vc t) → ∀ u, ∀ j ∈ (upd s.pc t (.loop ts) u).rest, ∀ st,
          s.subs[j]? = some st → st.le (vc u) := by
        intro vc hvc u j hj st hst
        by_cases e : u = t
        · subst e
          simp only [upd_same, Pc.rest] at hj
          exact (I.fetched u j (by simp [hp, Pc.rest, hj]) st hst).mono hvc
        · rw [hpc u e] at hj; simp [Pc.rest] at hj
      have hbe : ∀ i j c, s.begun[i]? = some (j, c) → i ≤ s.ended.length := by
        intro i j c hb
        have hi : i < s.begun.length := by
          rcases Nat.lt_or_ge i s.begun.length with h' | h'
          · exact h'
          · rw [List.getElem?_eq_none h'] at hb; cases hb
        have hlen : s.begun.length = s.ended.length + 1 := by
          have := congrArg List.length h4; simpa using this.symm
        omega
      cases m with
      | single =>
        refine ⟨by simp, by simp, fun s' h => ?_⟩
        simp only [Out.ok.injEq] at h
        subst h
        refine ⟨.job t r (by simp [upd]) kk p (by simp [upd]) hpc ?_, I.acc, ⟨ts, [], o1, o2, h3, o4 _⟩, I.queued, hfe _ (leq_tick _ _ _), ?_,
          by simp⟩
        · refine ⟨Nat.le_trans f.1 (leq_tick _ _ _ 0), fun x hx => ?_⟩
          simp only [done, reduceCtorEq, if_false, List.append_nil] at hx
          rcases List.mem_append.1 hx with hx | hx
          · exact (f.2 x (List.mem_append_left _ hx)).mono (leq_tick _ _ _)
          · obtain rfl := List.mem_singleton.1 hx
            exact tick_stamp _ _
        · intro i j c hb
          obtain ⟨b1, b2, b3⟩ := I.begun i j c hb
          refine ⟨b1, ?_, by simp⟩
          simp only
          rw [List.take_append_of_le_length (hbe i j c hb)]
          exact b2
      | all =>
        refine ⟨by simp, by simp, fun s' h => ?_⟩
        simp only [Out.ok.injEq] at h
        subst h
        have hv : leq (s.vc t) (tick (tick s.vc t) t t) := leq.trans (leq_tick _ _ _) (leq_tick _ _ _)
        refine ⟨.job t r (by simp [upd]) kk p (by simp [upd]) hpc ?_, I.acc, ⟨ts, [], o1, o2, h3, o4 _⟩, I.queued, hfe _ hv, ?_,
          fun _ => ⟨by simp [(I.gone rfl).1], (I.gone rfl).2⟩⟩
        · refine ⟨Nat.le_trans f.1 (hv 0), fun x hx => ?_⟩
          simp only [done, if_true] at hx
          rcases List.mem_append.1 hx with hx | hx <;> rcases List.mem_append.1 hx with hx | hx
          · exact (f.2 x (List.mem_append_left _ hx)).mono hv
          · obtain rfl := List.mem_singleton.1 hx
            exact Stamp.le.mono (tick_stamp _ _) (leq_tick _ _ _)
          · exact (f.2 x (List.mem_append_right _ hx)).mono hv
          · obtain rfl := List.mem_singleton.1 hx
            exact tick_stamp _ _
        · intro i j c hb
          obtain ⟨b1, b2, b3⟩ := I.begun i j c hb
          have hg : s.gone.length = s.ended.length := by simpa using congrArg List.length (I.gone rfl).1
          have hi := hbe i j c hb
          simp only
          rw [List.take_append_of_le_length hi, List.take_append_of_le_length (hg ▸ hi)]
          exact ⟨b1, b2, fun _ => b3 rfl⟩
    · rename_i hp
      -- `empty()`
      obtain ⟨r, q, k, p, n, f⟩ := I.job (t := t) (by simp [hp])
      rw [I.access1 f.1]
      simp only [Out.bind]
      obtain ⟨l, cur, h1, h2, h3, h4⟩ := I.order
      obtain ⟨rfl, rfl⟩ := h1 t (by simp [hp])
      simp only [hp, Pc.rest, Pc.cur, List.append_nil] at h3 h4
      split
      · rename_i hq
        rw [I.access2 f.1]
        refine ⟨by simp, by simp, fun s' h => ?_⟩
        simp only [Out.ok.injEq] at h
        subst h
        have hv := leq_crit2 s t .queue .running false true
        have ha := I.acc2 t .queue .running false true
        have hS : crit2 s t .queue .running false true = { s with vc := (crit2 s t .queue .running false true).vc, acc := (crit2 s t .queue .running false true).acc } := rfl
        have hq' : s.queue = [] := hq
        have hpc : ∀ u, upd s.pc t Pc.none u = .none := fun u => by
          by_cases e : u = t
          · subst e; simp [upd]
          · simp [upd, e, n u e]
        refine ⟨.idle rfl hq' k p hpc ?_, ha, ⟨[], [], ?_, fun _ => ⟨rfl, rfl⟩, by simpa [unlock, crit2] using h3, by simpa [unlock, crit2] using h4⟩, ?_, ?_, ?_, I.gone⟩
        · intro x hx
          exact ((f.2 x hx).mono (hv t)).mono (leq_joinr _ _)
        · intro u hu; exact absurd (hpc u) hu
        · intro j hj; simp only [unlock, crit2, hq'] at hj; simp at hj
        · intro u j hj
          simp only [unlock] at hj
          have : (upd (crit2 s t .queue .running false true).pc t Pc.none u) = .none := hpc u
          rw [this] at hj; simp [Pc.rest] at hj
        · exact I.begun
      · rename_i hq
        refine ⟨by simp, by simp, fun s' h => ?_⟩
        simp only [Out.ok.injEq] at h
        subst h
        have hv := leq_crit1 s t .queue false
        have ha := I.acc1 t .queue false
        have hpc : ∀ u, u ≠ t → upd s.pc t Pc.resubmit u = .none := fun u e => by simp [upd, e, n u e]
        refine ⟨.job t r (fun _ => hq) k p (by simp [unlock, upd]) hpc (f.mono (hv t)), ha, ⟨[], [], ?_, ?_, by simpa [unlock, crit1] using h3, by simpa [unlock, crit1] using h4⟩, ?_, ?_, I.begun, I.gone⟩
        · intro u hu
          by_cases e : u = t
          · subst e; simp [unlock, upd, Pc.rest, Pc.cur]
          · exact absurd (hpc u e) hu
        · exact fun _ => ⟨rfl, rfl⟩
        · intro j hj st hst
          exact (I.queued j hj st hst).mono (leq_joinl _ _)
        · intro u j hj
          by_cases e : u = t
          · subst e; simp [unlock, upd, Pc.rest] at hj
          · have : (upd (crit1 s t .queue false).pc t Pc.resubmit u) = .none := hpc u e
            simp only [unlock] at hj
            rw [this] at hj; simp [Pc.rest] at hj
    · rename_i hp
      -- the executor is called again
      obtain ⟨r, q, k, p, n, f⟩ := I.job (t := t) (by simp [hp])
      refine ⟨by simp, by simp, fun s' h => ?_⟩
      simp only [Out.ok.injEq] at h
      subst h
      obtain ⟨l, cur, h1, h2, h3, h4⟩ := I.order
      obtain ⟨rfl, rfl⟩ := h1 t (by simp [hp])
      simp only [hp, Pc.rest, Pc.cur] at h3 h4
      have hpc : ∀ u, upd s.pc t Pc.none u = .none := fun u => by
        by_cases e : u = t
        · subst e; simp [upd]
        · simp [upd, e, n u e]
      refine ⟨.pending _ r (q (.inr hp)) k (by simp [p]) hpc f, I.acc, ⟨[], [], ?_, fun _ => ⟨rfl, rfl⟩, h3, h4⟩, I.queued, ?_, I.begun, I.gone⟩
      · intro u hu; exact absurd (hpc u) hu
      · intro u j hj
        simp only at hj
        rw [hpc u] at hj; simp [Pc.rest] at hj
  | drop t =>
    simp only [step]
    split
    · rename_i k hk
      split
      · rename_i hp
        refine ⟨by simp, by simp, fun s' h => ?_⟩
        simp only [Out.ok.injEq] at h
        subst h
        cases m with
        | all => rw [(I.gone rfl).2 t] at hk; cases hk
        | single =>
          have hv : ∀ u, leq (s.vc u) (tick s.vc t u) := fun u => leq_tick _ _ _
          refine ⟨?_, I.acc, I.order, I.queued, fun u j hj st hst => (I.fetched u j hj st hst).mono (hv u), ?_, by simp⟩
          · cases I.token with
            | idle r q k p n f => exact .idle r q k p n f
            | kick t r q k p n f => exact .kick t r q k p n (f.mono (hv t))
            | pending c r q k p n f => exact .pending c r q k p n f
            | job t r q k p h' n f => exact .job t r q k p h' n (f.mono (hv t))
          · intro i j c hb
            obtain ⟨b1, b2, b3⟩ := I.begun i j c hb
            exact ⟨b1, b2, by simp⟩
      · exact ⟨by simp, by simp, by simp⟩
    · exact ⟨by simp, by simp, by simp⟩

theorem inv (h : Reachable m s) : Inv m s := by
  induction h with
  | init => exact Inv.init
  | step _ hs ih => exact (inv_step ih _).2.2 _ hs

/-! ## The properties -/

/-- **C80**: no step of any thread is a data race on the members of the queue, or undefined otherwise. -/
theorem c80_no_race (h : Reachable m s) (a : Act) : step m s a ≠ .race ∧ step m s a ≠ .ub :=
  ⟨(inv_step (inv h) a).1, (inv_step (inv h) a).2.1⟩

/-- **C80**: the tasks begin in the order in which they were submitted; before task `i` begins, the call of `enqueue` that submitted it
and the ends of all tasks submitted before happened; with `schedule_mode::all` also the destruction of these tasks. -/
theorem c80_order (h : Reachable m s) {i k : Nat} {c : Clock} (hb : s.begun[i]? = some (k, c)) :
    k = i ∧ (∃ st, s.subs[i]? = some st ∧ st.le c) ∧ (∀ j < i, ∃ e, s.ended[j]? = some (j, e) ∧ e.le c) ∧
      (m = .all → ∀ j < i, ∃ e, s.gone[j]? = some (j, e) ∧ e.le c) := by
  have I := inv h
  obtain ⟨l, cur, h1, h2, h3, h4⟩ := I.order
  have hi : i < s.begun.length := by
    rcases Nat.lt_or_ge i s.begun.length with h' | h'
    · exact h'
    · rw [List.getElem?_eq_none h'] at hb; cases hb
  have hlen := congrArg List.length h3
  simp at hlen
  have hfst : ∀ j, j < s.begun.length → (s.begun.map Prod.fst)[j]? = some j := by
    intro j hj
    have : (List.range s.subs.length)[j]? = (s.begun.map Prod.fst)[j]? := by
      rw [← h3, List.append_assoc, List.getElem?_append_left (by simpa using hj)]
    rw [← this, List.getElem?_range (by omega)]
  have hk : k = i := by
    have := hfst i hi
    simp [hb] at this
    exact this
  subst hk
  obtain ⟨b1, b2, b3⟩ := I.begun k k c hb
  -- at most one task is being executed, the last one begun
  have hcur : cur.length ≤ 1 := by
    cases I.token with
    | idle r q k p n f => simp [(h2 n).2]
    | kick t r q k p n f => simp [(h2 n).2]
    | pending c r q k p n f => simp [(h2 n).2]
    | job t r q k p h' n f => rw [← (h1 t h').2]; cases s.pc t <;> simp [Pc.cur]
  have hel := congrArg List.length h4
  simp at hel
  have hend : ∀ j < k, (s.ended.map Prod.fst)[j]? = some j := fun j hj => by
    rw [← hfst j (by omega), ← h4, List.getElem?_append_left (by simp; omega)]
  have pick : ∀ (L : List (Nat × Stamp)), (∀ x ∈ L.take k, x.2.le c) → (∀ j < k, (L.map Prod.fst)[j]? = some j) →
      ∀ j < k, ∃ e, L[j]? = some (j, e) ∧ e.le c := by
    intro L hL hf j hj
    have h5 := hf j hj
    simp at h5
    obtain ⟨e, he⟩ := h5
    exact ⟨e, he, hL (j, e) (List.mem_of_getElem? (i := j) (by rw [List.getElem?_take]; simp [hj, he]))⟩
  refine ⟨rfl, ⟨s.subs[k]'(by omega), by simp, b1 _ (by simp)⟩, pick _ b2 hend, fun hm => pick _ (b3 hm) ?_⟩
  rw [(I.gone hm).1]
  exact hend

theorem access_some {s s' : St} {t : Nat} {l : Loc} {w : Bool} (h : access s t l w = .ok s') :
    s'.pc = s.pc ∧ s'.held = s.held ∧ s'.gone = s.gone ∧ s'.ended = s.ended ∧ s'.queue = s.queue := by
  unfold access at h
  split at h <;> cases h
  simp

/-- Which tasks are destroyed, and which are kept by `single()`. -/
structure Kept (m : Mode) (s : St) : Prop where
  one : m = .single → ∀ t, match s.pc t with
    | .begin => s.held t = none
    | .loop (_ :: ts) | .calling _ ts => s.held t = none ∧ ts = []
    | _ => True
  once : (s.gone.map Prod.fst).Nodup
  sub : ∀ k ∈ s.gone.map Prod.fst, k ∈ s.ended.map Prod.fst
  held : ∀ t k, s.held t = some k → k ∈ s.ended.map Prod.fst ∧ k ∉ s.gone.map Prod.fst
  inj : ∀ t u k, s.held t = some k → s.held u = some k → t = u
  all : ∀ k ∈ s.ended.map Prod.fst, k ∈ s.gone.map Prod.fst ∨ ∃ t, s.held t = some k

theorem Kept.of (K : Kept m s) {s' : St} (hg : s'.gone = s.gone) (he : s'.ended = s.ended) (hh : s'.held = s.held)
    (hp : m = .single → ∀ t, match s'.pc t with
    | .begin => s.held t = none
    | .loop (_ :: ts) | .calling _ ts => s.held t = none ∧ ts = []
    | _ => True) : Kept m s' :=
  ⟨fun h t => by rw [hh]; exact hp h t, by rw [hg]; exact K.once, by rw [hg, he]; exact K.sub, by rw [hg, he, hh]; exact K.held,
    by rw [hh]; exact K.inj, by rw [hg, he, hh]; exact K.all⟩

theorem upd_pc {p : Pc} {t : Nat} {P : Nat → Pc → Prop} (h : ∀ u, P u (s.pc u)) (hp : P t p) : ∀ u, P u (upd s.pc t p u) := by
  intro u
  unfold upd
  split
  · rename_i h'; subst h'; exact hp
  · exact h u

theorem ended_nodup (h : Reachable m s) {t k : Nat} {ts : List Nat} (hp : s.pc t = .calling k ts) :
    k ∉ s.ended.map Prod.fst := by
  obtain ⟨l, cur, h1, h2, h3, h4⟩ := (inv h).order
  have hc := (h1 t (by rw [hp]; simp)).2
  rw [hp] at hc
  have hn : (s.begun.map Prod.fst).Nodup := by
    have := List.nodup_range (n := s.subs.length)
    rw [← h3, List.append_assoc] at this
    exact (List.nodup_append.1 this).1
  rw [← h4, ← hc] at hn
  intro hk
  exact (List.nodup_append.1 hn).2.2 _ hk _ (by simp [Pc.cur]) rfl

theorem Kept.step (h : Reachable m s) (K : Kept m s) {a : Act} {s' : St} (e : step m s a = .ok s') : Kept m s' := by
  have hone : m = .single → ∀ p t, (match p with
      | Pc.begin => s.held t = none
      | .loop (_ :: ts) | .calling _ ts => s.held t = none ∧ ts = []
      | _ => True) → ∀ u, match upd s.pc t p u with
      | .begin => s.held u = none
      | .loop (_ :: ts) | .calling _ ts => s.held u = none ∧ ts = []
      | _ => True := by
    intro hm p t hp
    exact upd_pc (P := fun u q => match q with
      | Pc.begin => s.held u = none
      | .loop (_ :: ts) | .calling _ ts => s.held u = none ∧ ts = []
      | _ => True) (K.one hm) hp
  cases a with
  | work t => cases e; exact K.of rfl rfl rfl K.one
  | sync t u => cases e; exact K.of rfl rfl rfl K.one
  | enqueue t =>
    simp only [Serial.step] at e
    split at e
    · cases h1 : access (lock s t) t .queue true with
      | ok s1 =>
        rw [h1] at e
        simp only [Out.bind] at e
        cases h2 : access s1 t .running true with
        | ok s2 =>
          rw [h2] at e
          cases e
          obtain ⟨a1, a2, a3, a4, _⟩ := access_some h1
          obtain ⟨b1, b2, b3, b4, _⟩ := access_some h2
          exact K.of (b3.trans a3) (b4.trans a4) (b2.trans a2) (fun hm => by
            show ∀ t, match s2.pc t with
              | .begin => s.held t = none
              | .loop (_ :: ts) | .calling _ ts => s.held t = none ∧ ts = []
              | _ => True
            rw [b1.trans a1]; exact K.one hm)
        | no => rw [h2] at e; cases e
        | ub => rw [h2] at e; cases e
        | race => rw [h2] at e; cases e
      | no => rw [h1] at e; cases e
      | ub => rw [h1] at e; cases e
      | race => rw [h1] at e; cases e
    · cases e
  | kick t => simp only [Serial.step] at e; split at e <;> cases e; exact K.of rfl rfl rfl K.one
  | start t i =>
    simp only [Serial.step] at e
    split at e
    · split at e <;> cases e
      rename_i hh
      exact K.of rfl rfl rfl fun hm => hone hm _ _ hh.2
    · cases e
  | next t =>
    simp only [Serial.step] at e
    split at e
    · cases e
    · rename_i hpc
      cases h1 : access (lock s t) t .queue true with
      | ok s1 =>
        obtain ⟨a1, a2, a3, a4, a5⟩ := access_some h1
        rw [h1] at e
        simp only [Out.bind] at e
        split at e
        · cases e
        · rename_i ts q hf
          cases e
          refine K.of a3 a4 a2 fun hm => ?_
          show ∀ u, match upd s1.pc t (.loop ts) u with
              | .begin => s.held u = none
              | .loop (_ :: ts) | .calling _ ts => s.held u = none ∧ ts = []
              | _ => True
          rw [a1]
          apply hone hm
          subst hm
          have ho := K.one rfl t
          rw [hpc] at ho
          simp only [fetch] at hf
          split at hf <;> cases hf
          exact ⟨ho, rfl⟩
      | no => rw [h1] at e; cases e
      | ub => rw [h1] at e; cases e
      | race => rw [h1] at e; cases e
    · rename_i k ts hpc
      cases e
      refine K.of rfl rfl rfl fun hm => hone hm _ _ ?_
      have ho := K.one hm t
      rw [hpc] at ho
      exact ho
    · rename_i k ts hpc
      have hk := ended_nodup h hpc
      have hk' : k ∉ s.gone.map Prod.fst := fun h' => hk (K.sub k h')
      have hkh : ∀ u, s.held u ≠ some k := fun u hu => hk (K.held u k hu).1
      cases m with
      | all =>
        cases e
        refine ⟨(by intro hm; cases hm), ?_, ?_, ?_, K.inj, ?_⟩
        · simp only [List.map_append, List.map_cons, List.map_nil]
          exact List.nodup_append.2 ⟨K.once, by simp, fun x hx y hy => by simp at hy; subst hy; exact fun h' => hk' (h' ▸ hx)⟩
        · simp only [List.map_append, List.map_cons, List.map_nil, List.mem_append]
          exact fun x hx => hx.imp (K.sub x) id
        · simp only [List.map_append, List.map_cons, List.map_nil, List.mem_append, List.mem_singleton]
          intro u x hu
          have := K.held u x hu
          exact ⟨.inl this.1, fun h' => h'.elim this.2 fun h' => hkh u (h' ▸ hu)⟩
        · simp only [List.map_append, List.map_cons, List.map_nil, List.mem_append, List.mem_singleton]
          intro x hx
          rcases hx with hx | hx
          · exact (K.all x hx).imp .inl id
          · exact .inl (.inr hx)
      | single =>
        have ho := K.one rfl t
        rw [hpc] at ho
        obtain ⟨ho, rfl⟩ := ho
        cases e
        have hu : ∀ u x, upd s.held t (some k) u = some x → u = t ∧ x = k ∨ u ≠ t ∧ s.held u = some x := by
          intro u x hx
          unfold upd at hx
          split at hx
          · cases hx; exact .inl ⟨by assumption, rfl⟩
          · exact .inr ⟨by assumption, hx⟩
        refine ⟨fun _ u => ?_, K.once, ?_, ?_, ?_, ?_⟩
        · show match upd s.pc t (.loop []) u with
              | .begin => upd s.held t (some k) u = none
              | .loop (_ :: ts) | .calling _ ts => upd s.held t (some k) u = none ∧ ts = []
              | _ => True
          by_cases hut : u = t
          · simp [upd, hut]
          · have := K.one rfl u
            simpa [upd, hut] using this
        · simp only [List.map_append, List.mem_append]
          exact fun x hx => .inl (K.sub x hx)
        · simp only [List.map_append, List.map_cons, List.map_nil, List.mem_append, List.mem_singleton]
          intro u x hx
          rcases hu u x hx with ⟨_, rfl⟩ | ⟨_, h'⟩
          · exact ⟨.inr rfl, hk'⟩
          · exact ⟨.inl (K.held u x h').1, (K.held u x h').2⟩
        · intro u v x hx hy
          rcases hu u x hx with ⟨h1, rfl⟩ | ⟨h1, h1'⟩ <;> rcases hu v x hy with ⟨h2, h2'⟩ | ⟨h2, h2'⟩
          · rw [h1, h2]
          · exact absurd h2' (hkh v)
          · exact absurd (h2' ▸ h1') (hkh u)
          · exact K.inj u v x h1' h2'
        · simp only [List.map_append, List.map_cons, List.map_nil, List.mem_append, List.mem_singleton]
          intro x hx
          rcases hx with hx | rfl
          · rcases K.all x hx with h' | ⟨u, h'⟩
            · exact .inl h'
            · refine .inr ⟨u, ?_⟩
              have : u ≠ t := fun hh => by rw [hh, ho] at h'; cases h'
              simp [upd, this, h']
          · exact .inr ⟨t, by simp [upd]⟩
    · rename_i hpc
      cases h1 : access (lock s t) t .queue false with
      | ok s1 =>
        obtain ⟨a1, a2, a3, a4, a5⟩ := access_some h1
        rw [h1] at e
        simp only [Out.bind] at e
        split at e
        · cases h2 : access s1 t .running true with
          | ok s2 =>
            rw [h2] at e
            cases e
            obtain ⟨b1, b2, b3, b4, _⟩ := access_some h2
            refine K.of (b3.trans a3) (b4.trans a4) (b2.trans a2) fun hm => ?_
            show ∀ u, match upd s2.pc t .none u with
              | .begin => s.held u = none
              | .loop (_ :: ts) | .calling _ ts => s.held u = none ∧ ts = []
              | _ => True
            rw [b1.trans a1]
            exact hone hm _ _ trivial
          | no => rw [h2] at e; cases e
          | ub => rw [h2] at e; cases e
          | race => rw [h2] at e; cases e
        · cases e
          refine K.of a3 a4 a2 fun hm => ?_
          show ∀ u, match upd s1.pc t .resubmit u with
              | .begin => s.held u = none
              | .loop (_ :: ts) | .calling _ ts => s.held u = none ∧ ts = []
              | _ => True
          rw [a1]
          exact hone hm _ _ trivial
      | no => rw [h1] at e; cases e
      | ub => rw [h1] at e; cases e
      | race => rw [h1] at e; cases e
    · cases e
      exact K.of rfl rfl rfl fun hm => hone hm _ _ trivial
  | drop t =>
    simp only [Serial.step] at e
    split at e
    · rename_i k hk
      split at e <;> cases e
      rename_i hpc
      have hu : ∀ u x, upd s.held t none u = some x → u ≠ t ∧ s.held u = some x := by
        intro u x hx
        unfold upd at hx
        split at hx
        · cases hx
        · exact ⟨by assumption, hx⟩
      have h1 := K.held t k hk
      refine ⟨fun hm u => ?_, ?_, ?_, ?_, ?_, ?_⟩
      · show match s.pc u with
              | .begin => upd s.held t none u = none
              | .loop (_ :: ts) | .calling _ ts => upd s.held t none u = none ∧ ts = []
              | _ => True
        by_cases hut : u = t
        · subst hut; simp [hpc]
        · have := K.one hm u
          simpa [upd, hut] using this
      · simp only [List.map_append, List.map_cons, List.map_nil]
        exact List.nodup_append.2 ⟨K.once, by simp, fun x hx y hy => by simp at hy; subst hy; exact fun h' => h1.2 (h' ▸ hx)⟩
      · simp only [List.map_append, List.map_cons, List.map_nil, List.mem_append, List.mem_singleton]
        rintro x (hx | rfl)
        · exact K.sub x hx
        · exact h1.1
      · simp only [List.map_append, List.map_cons, List.map_nil, List.mem_append, List.mem_singleton]
        intro u x hx
        obtain ⟨h2, h3⟩ := hu u x hx
        refine ⟨(K.held u x h3).1, fun h' => h'.elim (K.held u x h3).2 fun h' => h2 (K.inj u t x h3 (h' ▸ hk))⟩
      · intro u v x hx hy
        exact K.inj u v x (hu u x hx).2 (hu v x hy).2
      · simp only [List.map_append, List.map_cons, List.map_nil, List.mem_append, List.mem_singleton]
        intro x hx
        rcases K.all x hx with h' | ⟨u, h'⟩
        · exact .inl (.inl h')
        · by_cases hut : u = t
          · subst hut
            rw [hk] at h'
            cases h'
            exact .inl (.inr rfl)
          · exact .inr ⟨u, by simp [upd, hut, h']⟩
    · cases e

theorem kept (h : Reachable m s) : Kept m s := by
  induction h with
  | init => exact ⟨fun _ _ => trivial, by simp [Serial.init], by simp [Serial.init], by simp [Serial.init], by simp [Serial.init],
      by simp [Serial.init]⟩
  | step h hs ih => exact ih.step h hs

/-- **C80**: every task is destroyed at most once, and only after it ended; a task that ended was destroyed or is kept by exactly one
thread, which is about to leave `single()`; with `schedule_mode::all` it was destroyed. -/
theorem c80_destroyed (h : Reachable m s) : (s.gone.map Prod.fst).Nodup ∧
    (∀ k ∈ s.gone.map Prod.fst, k ∈ s.ended.map Prod.fst) ∧
    (∀ k ∈ s.ended.map Prod.fst, k ∈ s.gone.map Prod.fst ∧ (∀ t, s.held t ≠ some k) ∨
      k ∉ s.gone.map Prod.fst ∧ m = .single ∧ ∃ t, s.held t = some k ∧ ∀ u, s.held u = some k → u = t) := by
  have K := kept h
  refine ⟨K.once, K.sub, fun k hk => ?_⟩
  rcases K.all k hk with h' | ⟨t, h'⟩
  · exact .inl ⟨h', fun t ht => (K.held t k ht).2 h'⟩
  · refine .inr ⟨(K.held t k h').2, ?_, t, h', fun u hu => K.inj u t k hu h'⟩
    cases m with
    | single => rfl
    | all => have := ((inv h).gone rfl).2 t; rw [h'] at this; cases this

/-- A run: `no`, a race and undefined behaviour end it. -/
def run (m : Mode) (s : St) : List Act → Option St
  | [] => some s
  | a :: as => match step m s a with
    | .ok s' => run m s' as
    | _ => none

theorem reachable_run (h : Reachable m s) {as : List Act} (e : run m s as = some s') : Reachable m s' := by
  induction as generalizing s with
  | nil => simp [run] at e; exact e ▸ h
  | cons a as ih =>
    simp only [run] at e
    split at e
    · rename_i s1 hs
      exact ih (.step h hs) e
    · cases e

/-- A run to a state with a property. -/
theorem run_witness {P : St → Bool} (as : List Act) (h : ((run m init as).map P) = some true) : ∃ s, Reachable m s ∧ P s = true := by
  cases e : run m init as with
  | none => rw [e] at h; cases h
  | some s => rw [e] at h; exact ⟨s, reachable_run .init e, by simpa using h⟩

/-- Threads 1 and 2 submit a task each, threads 3 and 4 of the executor call them. -/
def two : List Act := [.sync 0 1, .sync 0 2, .enqueue 1, .enqueue 2, .kick 1, .start 3 0, .next 3, .next 3, .next 3, .next 3, .next 3]

/-- Two tasks of threads that do not know of each other, one after the other in two threads: a case for `c80_order`. What thread 1 did after
its call of `enqueue` the second task does not know. -/
example : ∃ s, Reachable .single s ∧ (s.begun.map Prod.fst = [0, 1] ∧ s.pc 4 = .calling 1 [] ∧ (s.ended.map Prod.fst) = [0] ∧
    (∃ x ∈ s.begun, x.1 = 1 ∧ ¬ Stamp.le ⟨1, s.vc 1 1⟩ x.2)) := by
  obtain ⟨s, h, p⟩ := run_witness (m := .single) (P := fun s => decide (s.begun.map Prod.fst = [0, 1] ∧ s.pc 4 = .calling 1 [] ∧
    (s.ended.map Prod.fst) = [0] ∧ (∃ x ∈ s.begun, x.1 = 1 ∧ ¬ Stamp.le ⟨1, s.vc 1 1⟩ x.2)))
    (two ++ [.work 1, .start 4 0, .next 4, .next 4]) (by decide)
  exact ⟨s, h, by simpa using p⟩

/-- The same with `schedule_mode::all`, in one thread: the first task is destroyed when the second begins. -/
example : ∃ s, Reachable .all s ∧ (s.begun.map Prod.fst = [0, 1] ∧ s.pc 3 = .calling 1 [] ∧ s.gone.map Prod.fst = [0]) := by
  obtain ⟨s, h, p⟩ := run_witness (m := .all) (P := fun s => decide (s.begun.map Prod.fst = [0, 1] ∧ s.pc 3 = .calling 1 [] ∧
    s.gone.map Prod.fst = [0])) [.sync 0 1, .enqueue 1, .enqueue 1, .kick 1, .start 3 0, .next 3, .next 3, .next 3, .next 3] (by decide)
  exact ⟨s, h, by simpa using p⟩

/-- Both tasks are destroyed, the second first: a case for `c80_destroyed`. -/
example : ∃ s, Reachable .single s ∧ (s.gone.map Prod.fst = [1, 0] ∧ s.ended.map Prod.fst = [0, 1] ∧ s.held 3 = none) := by
  obtain ⟨s, h, p⟩ := run_witness (m := .single) (P := fun s => decide (s.gone.map Prod.fst = [1, 0] ∧ s.ended.map Prod.fst = [0, 1] ∧
    s.held 3 = none)) (two ++ [.start 4 0, .next 4, .next 4, .next 4, .next 4, .drop 4, .drop 3]) (by decide)
  exact ⟨s, h, by simpa using p⟩

/-- **C80**, as far as it goes beyond `c80_order`, fails: with `schedule_mode::single` a task is destroyed at the end of `single()` (line 97),
after the executor was called for the next one (line 96). Task 1 is being called in thread 4 while thread 3 destroys task 0, neither
knowing of the other. -/
theorem c80_destroy_counterexample : ∃ s s', Reachable .single s ∧ s.pc 4 = .calling 1 [] ∧ s.gone = [] ∧ step .single s (.drop 3) = .ok s' ∧
    s'.pc 4 = .calling 1 [] ∧ (∃ e, s'.gone = [(0, e)] ∧ ¬ e.le (s'.vc 4)) ∧ (∃ b c, s'.begun = [b, (1, c)] ∧ ¬ Stamp.le ⟨4, c 4⟩ (s'.vc 3)) := by
  obtain ⟨s, h, p⟩ := run_witness (m := .single) (P := fun s => decide (s.pc 4 = .calling 1 [] ∧ s.gone = []) &&
    match step .single s (.drop 3) with
    | .ok s' => decide (s'.pc 4 = .calling 1 []) &&
      (match s'.gone with
        | [(0, e)] => decide (¬ e.le (s'.vc 4))
        | _ => false) &&
      (match s'.begun with
        | [_, (1, c)] => decide (¬ Stamp.le ⟨4, c 4⟩ (s'.vc 3))
        | _ => false)
    | _ => false) (two ++ [.start 4 0, .next 4, .next 4]) (by decide)
  simp only [Bool.and_eq_true, decide_eq_true_eq] at p
  obtain ⟨⟨p1, p2⟩, p3⟩ := p
  split at p3
  · rename_i s' hs
    simp only [Bool.and_eq_true, decide_eq_true_eq] at p3
    obtain ⟨⟨p3, p4⟩, p5⟩ := p3
    refine ⟨s, s', h, p1, p2, hs, p3, ?_, ?_⟩
    · split at p4
      · rename_i e he
        exact ⟨e, he, by simpa using p4⟩
      · cases p4
    · split at p5
      · rename_i b c he
        exact ⟨b, c, he, by simpa using p5⟩
      · cases p5
  · cases p3

end Verif.Sync.Serial
