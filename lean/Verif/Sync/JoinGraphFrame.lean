import Verif.Sync.JoinGraph

/-!
# What a step does, for happens-before in graphs with `when_all` and `when_any`
-/

namespace Verif.Sync.JoinGraph

open Verif.JoinGraph (Prog Kind Pc Event Inv Joins Join)
open Verif.Shared (Outcome Err)
open Verif.When (Mode Ctx trig)

/-! ## The context of a join -/

/-- The arguments that decide what the function is called with, or the error: for each of them `R`. -/
def Told (m : Mode) (n : Nat) (w : When.St) (R : Nat → Prop) : Prop :=
  if m.isAll then
    (w.ctx.exc = none → ∀ j, j < n → w.arg j ≠ none ∧ R j) ∧ ∀ e, w.ctx.exc = some e → ∃ j, j < n ∧ w.arg j = some (.exc e) ∧ R j
  else
    (∀ j, w.ctx.index = some j → j < n ∧ w.arg j ≠ none ∧ R j) ∧ (w.ctx.index = none → ∀ j, j < n → w.arg j ≠ none ∧ R j)

theorem allTold {n : Nat} {w : When.St} {R : Nat → Prop} (D : When.AllData n w.trace w.ctx)
    (hs : ∀ i o, .seen i o ∈ w.trace → w.arg i = some o ∧ i < n) (t : w.ctx.exc ≠ none ∨ w.ctx.remaining = 0)
    (h : ∀ j o, .seen j o ∈ w.trace → R j) :
    (w.ctx.exc = none → ∀ j, j < n → w.arg j ≠ none ∧ R j) ∧ ∀ e, w.ctx.exc = some e → ∃ j, j < n ∧ w.arg j = some (.exc e) ∧ R j := by
  refine ⟨fun h0 j hj => ?_, fun e he => ?_⟩
  · have hr : w.ctx.remaining = 0 := t.resolve_left (by simp [h0])
    have hc := D.cnt
    rw [hr, Nat.zero_add] at hc
    obtain ⟨v, hv⟩ := Option.isSome_iff_exists.1 (When.cnt_full hc j hj)
    have := D.slot j v hv
    exact ⟨by rw [(hs _ _ this).1]; simp, h _ _ this⟩
  · have := D.exc
    rw [he] at this
    obtain ⟨j, hj⟩ := When.errs_mem.1 (List.mem_of_mem_head? this.symm)
    exact ⟨j, (hs _ _ hj).2, (hs _ _ hj).1, h _ _ hj⟩

theorem anyTold {n : Nat} {w : When.St} {R : Nat → Prop} (D : When.AnyData n w.trace w.ctx)
    (hs : ∀ i o, .seen i o ∈ w.trace → w.arg i = some o ∧ i < n) (t : w.ctx.index ≠ none ∨ w.ctx.remaining = 0)
    (h : ∀ j o, .seen j o ∈ w.trace → R j) :
    (∀ j, w.ctx.index = some j → j < n ∧ w.arg j ≠ none ∧ R j) ∧ (w.ctx.index = none → ∀ j, j < n → w.arg j ≠ none ∧ R j) := by
  refine ⟨fun j hj => ?_, fun h0 j hj => ?_⟩
  · have hb := D.both
    rw [hj] at hb
    obtain ⟨v, hv⟩ := Option.isSome_iff_exists.1 hb
    have := D.first
    rw [hv, hj] at this
    have := When.vals_mem.1 (List.mem_of_mem_head? this)
    exact ⟨(hs _ _ this).2, by rw [(hs _ _ this).1]; simp, h _ _ this⟩
  · have hr : w.ctx.remaining = 0 := t.resolve_left (by simp [h0])
    have hc := D.cnt
    rw [hr, Nat.zero_add] at hc
    obtain ⟨e, he⟩ := When.bad_iff.1 (When.cnt_full hc j hj)
    exact ⟨by rw [(hs _ _ he).1]; simp, h _ _ he⟩

/-- All that was seen decides. -/
theorem told {m : Mode} {n : Nat} {w : When.St} {R : Nat → Prop} (I : When.Inv m n w) (t : trig m w.ctx)
    (h : ∀ j o, .seen j o ∈ w.trace → R j) : Told m n w R := by
  have hs : ∀ i o, .seen i o ∈ w.trace → w.arg i = some o ∧ i < n := fun i o h => ⟨(I.seen i o h).1, (I.seen i o h).2.1⟩
  have D := I.data
  cases m <;> simp only [Told, When.Mode.isAll, if_true, Bool.false_eq_true, if_false]
  · exact allTold D hs t h
  · exact anyTold D hs t h
  · exact allTold D.1 hs t h
  · exact anyTold D.1 hs t h

/-- After the context was complete nothing that matters changes. -/
theorem Told.crit {m : Mode} {n : Nat} {w w' : When.St} {R R' : Nat → Prop} (I : When.Inv m n w) {i j : Nat} (hf : w.pc i = .fire)
    (e : When.step m n w (.crit j) = .ok w') (T : Told m n w R) (hR : ∀ k, w.arg k ≠ none → R k → R' k) : Told m n w' R' := by
  have hs : ∀ o k, w.pc j = .running k → .seen j o ∉ w.trace := fun o k h h' => by
    rcases (I.seen j o h').2.2 with h1 | h1 <;> rw [h] at h1 <;> cases h1
  have t := (I.fire2 i hf).1
  have D := I.data
  simp only [When.step] at e
  split at e
  · rename_i o ho
    cases e
    have hj : j < n := Nat.lt_of_lt_of_le ((I.attb j).1 (by rw [ho]; simp)) I.attn
    -- not all arguments were seen
    have nall : ∀ {c}, When.AllData n w.trace c → c.remaining ≠ 0 := by
      intro c D h
      have hc := D.cnt
      rw [h, Nat.zero_add] at hc
      obtain ⟨v, hv⟩ := Option.isSome_iff_exists.1 (When.cnt_full hc j hj)
      exact hs _ _ ho (D.slot j v hv)
    have nany : ∀ {c}, When.AnyData n w.trace c → c.remaining ≠ 0 := by
      intro c D h
      have hc := D.cnt
      rw [h, Nat.zero_add] at hc
      obtain ⟨v, hv⟩ := When.bad_iff.1 (When.cnt_full hc j hj)
      exact hs _ _ ho hv
    have key : (m.isAll = true → (When.crit m w.ctx j o).1.exc = w.ctx.exc ∧ w.ctx.exc ≠ none) ∧
        (m.isAll = false → (When.crit m w.ctx j o).1.index = w.ctx.index ∧ w.ctx.index ≠ none) := by
      cases m <;> simp only [When.Mode.isAll, trig, When.Data] at * <;> refine ⟨fun _ => ?_, fun _ => ?_⟩ <;> try contradiction
      · have := t.resolve_right (nall D)
        refine ⟨?_, this⟩
        cases o <;> simp [When.crit, this]
      · have := t.resolve_right (nany D)
        refine ⟨?_, this⟩
        cases o <;> simp only [When.crit, if_neg this]
        split <;> rfl
      · have := t.resolve_right (nall D.1)
        have hsg := D.2
        rw [Option.isSome_iff_ne_none.2 this] at hsg
        refine ⟨?_, this⟩
        cases o <;> simp [When.crit, hsg]
      · have := t.resolve_right (nany D.1)
        have hsg := D.2
        rw [Option.isSome_iff_ne_none.2 this] at hsg
        refine ⟨?_, this⟩
        cases o <;> simp only [When.crit, hsg, Bool.true_eq_false, if_false]
        split <;> rfl
    unfold Told at T ⊢
    split at T
    · rename_i hm
      obtain ⟨h1, h2⟩ := key.1 hm
      rw [if_pos hm]
      simp only [h1]
      refine ⟨fun h => absurd h h2, fun e he => ?_⟩
      obtain ⟨k, h3, h4, h5⟩ := T.2 e he
      exact ⟨k, h3, h4, hR k (by rw [h4]; simp) h5⟩
    · rename_i hm
      obtain ⟨h1, h2⟩ := key.2 (by simpa using hm)
      rw [if_neg hm]
      simp only [h1]
      refine ⟨fun k hk => ?_, fun h => absurd h h2⟩
      obtain ⟨h3, h4, h5⟩ := T.1 k hk
      exact ⟨h3, h4, hR k h4 h5⟩
  · cases e

theorem Told.mono {m : Mode} {n : Nat} {w w' : When.St} {R R' : Nat → Prop} (T : Told m n w R) (hc : w'.ctx = w.ctx)
    (ha : ∀ k o, w.arg k = some o → w'.arg k = some o) (hR : ∀ k, w.arg k ≠ none → R k → R' k) : Told m n w' R' := by
  have ha' : ∀ k, w.arg k ≠ none → w'.arg k ≠ none := fun k h => by
    obtain ⟨o, ho⟩ := Option.ne_none_iff_exists'.1 h
    rw [ha k o ho]; simp
  unfold Told at T ⊢
  rw [hc]
  split at T
  · rename_i hm
    rw [if_pos hm]
    refine ⟨fun h j hj => ⟨ha' j (T.1 h j hj).1, hR j (T.1 h j hj).1 (T.1 h j hj).2⟩, fun e he => ?_⟩
    obtain ⟨k, h3, h4, h5⟩ := T.2 e he
    exact ⟨k, h3, ha k _ h4, hR k (by rw [h4]; simp) h5⟩
  · rename_i hm
    rw [if_neg hm]
    refine ⟨fun k hk => ?_, fun h j hj => ⟨ha' j (T.2 h j hj).1, hR j (T.2 h j hj).1 (T.2 h j hj).2⟩⟩
    obtain ⟨h3, h4, h5⟩ := T.1 k hk
    exact ⟨h3, ha' k h4, hR k h4 h5⟩

/-! ## What the steps of a join know -/

/-- `R j c`: the resolution of argument `j` is known in clock `c`. `at_ i` is passed on with the continuation of argument `i`, `tv i` is the clock of the thread that runs it,
`gd` is passed on with `_guard`. -/
structure JK (m : Mode) (k : Nat) (w : When.St) (R : Nat → Clock → Prop) (at_ tv : Nat → Clock) (gd : Clock) : Prop where
  j1 : ∀ i, w.pc i = .sched → R i (at_ i)
  j2 : ∀ i o, w.pc i = .running o → R i (tv i)
  j3 : ∀ i o, .seen i o ∈ w.trace → R i gd
  j4 : ∀ i, w.pc i = .fire → Told m k w fun j => R j (tv i)

theorem JK.mono {m : Mode} {k : Nat} {w : When.St} {R R' : Nat → Clock → Prop} {at_ at' tv tv' : Nat → Clock} {gd gd' : Clock} (I : When.Inv m k w)
    (K : JK m k w R at_ tv gd) (hR : ∀ j c c', w.arg j ≠ none → leq c c' → R j c → R' j c') (ha : ∀ i, leq (at_ i) (at' i)) (ht : ∀ i, leq (tv i) (tv' i))
    (hg : leq gd gd') : JK m k w R' at' tv' gd' where
  j1 i h := hR i _ _ (I.sch i h) (ha i) (K.j1 i h)
  j2 i o h := hR i _ _ (by rw [I.run i o h]; simp) (ht i) (K.j2 i o h)
  j3 i o h := hR i _ _ (by rw [(I.seen i o h).1]; simp) hg (K.j3 i o h)
  j4 i h := (K.j4 i h).mono rfl (fun _ _ h => h) fun j hj h => hR j _ _ hj (ht i) h

theorem JK.step {m : Mode} {k : Nat} {w w' : When.St} {R R' : Nat → Clock → Prop} {at_ at' tv tv' : Nat → Clock} {gd gd' : Clock} (I : When.Inv m k w)
    (K : JK m k w R at_ tv gd) {a : When.Act} (e : When.step m k w a = .ok w') (hR : ∀ j c c', w.arg j ≠ none → leq c c' → R j c → R' j c')
    (hm : ∀ j c c', leq c c' → R j c → R j c')
    (ha : ∀ i, ¬ (a = .attach ∧ i = w.att) → leq (at_ i) (at' i))
    (hatt : a = .attach → w.arg w.att ≠ none → R' w.att (at' w.att))
    (hres : ∀ i o, a = .resolve i o → R' i (at' i))
    (hrun : ∀ i, a = .run i → leq (at_ i) (tv' i))
    (ht : ∀ i, a ≠ .run i → leq (tv i) (tv' i))
    (hcr : ∀ i, a = .crit i → leq gd (tv' i) ∧ leq (tv' i) gd')
    (hg : leq gd gd') : JK m k w' R' at' tv' gd' := by
  have I' := I.step e
  cases a with
  | resolve i o =>
    have M := K.mono I hR (fun i => ha i (by simp)) (fun i => ht i (by simp)) hg
    simp only [When.step] at e
    split at e
    · rename_i h0
      cases e
      have hpc : ∀ j, j ≠ i → (if w.pc i = .queued then Shared.upd w.pc i .sched else w.pc) j = w.pc j := by
        intro j hj; split <;> simp [Shared.upd, hj]
      have hpi : ∀ x, (if w.pc i = .queued then Shared.upd w.pc i .sched else w.pc) i = x → x = .sched ∨ w.pc i = x := by
        intro x; split <;> simp +contextual [Shared.upd, eq_comm]
      have harg : ∀ j q, w.arg j = some q → Shared.upd w.arg i (some o) j = some q := by
        intro j q h
        simp only [Shared.upd]
        split
        · subst j; rw [h0.1] at h; cases h
        · exact h
      refine ⟨fun j h => ?_, fun j q h => ?_, fun j q h => M.j3 j q (by simpa using h), fun j h => ?_⟩
      · by_cases hj : j = i
        · subst hj; exact hres j o rfl
        · exact M.j1 j (by simpa only [hpc j hj] using h)
      · by_cases hj : j = i
        · subst hj
          rcases hpi _ h with h | h
          · cases h
          · exact M.j2 j q h
        · exact M.j2 j q (by simpa only [hpc j hj] using h)
      · have : w.pc j = .fire := by
          by_cases hj : j = i
          · subst hj
            rcases hpi _ h with h | h
            · cases h
            · exact h
          · simpa only [hpc j hj] using h
        exact (M.j4 j this).mono rfl harg fun _ _ h => h
    · cases e
  | attach =>
    simp only [When.step] at e
    split at e
    · cases e
      have M2 : ∀ i o, w.pc i = .running o → R' i (tv' i) := fun i o h => hR i _ _ (by rw [I.run i o h]; simp) (ht i (by simp)) (K.j2 i o h)
      refine ⟨fun j h => ?_, fun j q h => ?_, fun j q h => hR j _ _ (by rw [(I.seen j q h).1]; simp) hg (K.j3 j q h), fun j h => ?_⟩
      · by_cases hj : j = w.att
        · subst hj
          refine hatt rfl fun h' => ?_
          simp [Shared.upd, h'] at h
        · simp only [Shared.upd, hj, if_false] at h
          exact hR j _ _ (I.sch j h) (ha j (by simp [hj])) (K.j1 j h)
      · by_cases hj : j = w.att
        · subst hj
          simp only [Shared.upd, if_true] at h
          split at h <;> cases h
        · simp only [Shared.upd, hj, if_false] at h
          exact M2 j q h
      · by_cases hj : j = w.att
        · subst hj
          simp only [Shared.upd, if_true] at h
          split at h <;> cases h
        · simp only [Shared.upd, hj, if_false] at h
          exact (K.j4 j h).mono rfl (fun _ _ h => h) fun i hi h => hR i _ _ hi (ht j (by simp)) h
    · cases e
  | store =>
    have M := K.mono I hR (fun i => ha i (by simp)) (fun i => ht i (by simp)) hg
    simp only [When.step] at e
    split at e
    · cases e
      exact ⟨M.j1, M.j2, M.j3, fun j h => (M.j4 j h).mono rfl (fun _ _ h => h) fun _ _ h => h⟩
    · cases e
  | run i =>
    have hd : ∀ {w'' : When.St}, w''.trace = w.trace → w''.ctx = w.ctx → w''.arg = w.arg → (∀ j, j ≠ i → w''.pc j = w.pc j) →
        (w''.pc i = .done ∨ ∃ o, w''.pc i = .running o ∧ w.pc i = .sched) → JK m k w'' R' at' tv' gd' := by
      intro w'' h1 h2 h3 h4 h5
      refine ⟨fun j h => ?_, fun j q h => ?_, fun j q h => ?_, fun j h => ?_⟩
      · by_cases hj : j = i
        · subst hj; rcases h5 with h5 | ⟨o, h5, -⟩ <;> rw [h] at h5 <;> cases h5
        · rw [h4 j hj] at h
          exact hR j _ _ (I.sch j h) (ha j (by simp)) (K.j1 j h)
      · by_cases hj : j = i
        · subst hj
          rcases h5 with h5 | ⟨o, h5, h6⟩
          · rw [h] at h5; cases h5
          · exact hR j _ _ (I.sch j h6) (hrun j rfl) (K.j1 j h6)
        · rw [h4 j hj] at h
          exact hR j _ _ (by rw [I.run j q h]; simp) (ht j (by simpa using Ne.symm hj)) (K.j2 j q h)
      · rw [h1] at h
        exact hR j _ _ (by rw [(I.seen j q h).1]; simp) hg (K.j3 j q h)
      · by_cases hj : j = i
        · subst hj; rcases h5 with h5 | ⟨o, h5, -⟩ <;> rw [h] at h5 <;> cases h5
        · rw [h4 j hj] at h
          exact (K.j4 j h).mono h2 (fun _ _ h => by rw [h3]; exact h) fun l hl h => hR l _ _ hl (ht j (by simpa using Ne.symm hj)) h
    simp only [When.step] at e
    split at e
    · cases e
    · rename_i hs
      split at e
      · cases e
        exact hd rfl rfl rfl (fun j hj => by simp [Shared.upd, hj]) (.inl (by simp [Shared.upd]))
      · split at e
        · cases e
        · cases e
          exact hd rfl rfl rfl (fun j hj => by simp [Shared.upd, hj]) (.inr ⟨_, by simp [Shared.upd]; rfl, by simpa using hs⟩)
  | crit i =>
    have M := K.mono I hR (fun i => ha i (by simp)) (fun i => ht i (by simp)) hg
    have e0 := e
    simp only [When.step] at e
    split at e
    · rename_i o ho
      have hio : R' i (tv' i) := M.j2 i o ho
      have hseen : ∀ j q, .seen j q ∈ w'.trace → w.arg j ≠ none ∧ R' j gd' ∧ R' j (tv' i) := by
        intro j q h
        have ht' : w'.trace = w.trace ++ [.seen i o] := by cases e; rfl
        rw [ht'] at h
        rcases List.mem_append.1 h with h | h
        · have h1 : w.arg j ≠ none := by rw [(I.seen j q h).1]; simp
          exact ⟨h1, M.j3 j q h, hR j _ _ h1 (hcr i rfl).1 (K.j3 j q h)⟩
        · simp only [List.mem_singleton, When.Event.seen.injEq] at h
          obtain ⟨rfl, rfl⟩ := h
          have h1 : w.arg j ≠ none := by rw [I.run j q ho]; simp
          exact ⟨h1, hR j _ _ h1 (leq.refl _) (hm j _ _ ((ht j (by simp)).trans (hcr j rfl).2) (K.j2 j q ho)), hio⟩
      have hpc : ∀ j, j ≠ i → w'.pc j = w.pc j := by
        intro j hj; cases e; simp [Shared.upd, hj]
      have hpi : w'.pc i = .fire ∨ w'.pc i = .done := by
        cases e
        simp only [Shared.upd, if_true]
        split <;> simp
      refine ⟨fun j h => ?_, fun j q h => ?_, fun j q h => (hseen j q h).2.1, fun j h => ?_⟩
      · by_cases hj : j = i
        · subst hj; rcases hpi with h5 | h5 <;> rw [h] at h5 <;> cases h5
        · exact M.j1 j (by rw [← hpc j hj]; exact h)
      · by_cases hj : j = i
        · subst hj; rcases hpi with h5 | h5 <;> rw [h] at h5 <;> cases h5
        · exact M.j2 j q (by rw [← hpc j hj]; exact h)
      · by_cases hj : j = i
        · subst hj
          exact told I' (I'.fire2 j h).1 fun l q hl => (hseen l q hl).2.2
        · have hf : w.pc j = .fire := by rw [← hpc j hj]; exact h
          exact (M.j4 j hf).crit I hf e0 fun _ _ h => h
    · cases e
  | fire i =>
    have M := K.mono I hR (fun i => ha i (by simp)) (fun i => ht i (by simp)) hg
    have hd : w'.ctx = w.ctx ∧ w'.arg = w.arg ∧ (∀ j q, .seen j q ∈ w'.trace → .seen j q ∈ w.trace) ∧ w'.pc = Shared.upd w.pc i .done := by
      simp only [When.step] at e
      (repeat' split at e) <;> cases e <;> simp
    obtain ⟨h2, h3, h1, h4⟩ := hd
    have hp : ∀ j x, w'.pc j = x → x ≠ .done → w.pc j = x := by
      intro j x h hx
      rw [h4] at h
      simp only [Shared.upd] at h
      split at h
      · exact absurd h.symm hx
      · exact h
    exact ⟨fun j h => M.j1 j (hp j _ h (by simp)), fun j q h => M.j2 j q (hp j _ h (by simp)), fun j q h => M.j3 j q (h1 j q h),
      fun j h => (M.j4 j (hp j _ h (by simp))).mono h2 (fun _ _ h => by rw [h3]; exact h) fun _ _ h => h⟩
  | drop =>
    have M := K.mono I hR (fun i => ha i (by simp)) (fun i => ht i (by simp)) hg
    simp only [When.step] at e
    split at e
    · cases e
      exact ⟨M.j1, M.j2, fun j q h => M.j3 j q (by simpa using h), fun j h => (M.j4 j h).mono rfl (fun _ _ h => h) fun _ _ h => h⟩
    · cases e
  | discard i =>
    have M := K.mono I hR (fun i => ha i (by simp)) (fun i => ht i (by simp)) hg
    have hd : w'.ctx = w.ctx ∧ w'.arg = w.arg ∧ (∀ j q, .seen j q ∈ w'.trace → .seen j q ∈ w.trace) ∧ w'.pc = Shared.upd w.pc i .lost := by
      simp only [When.step] at e
      (repeat' split at e) <;> cases e <;> simp
    obtain ⟨h2, h3, h1, h4⟩ := hd
    have hp : ∀ j x, w'.pc j = x → x ≠ .lost → w.pc j = x := by
      intro j x h hx
      rw [h4] at h
      simp only [Shared.upd] at h
      split at h
      · exact absurd h.symm hx
      · exact h
    exact ⟨fun j h => M.j1 j (hp j _ h (by simp)), fun j q h => M.j2 j q (hp j _ h (by simp)), fun j q h => M.j3 j q (h1 j q h),
      fun j h => (M.j4 j (hp j _ h (by simp))).mono h2 (fun _ _ h => by rw [h3]; exact h) fun _ _ h => h⟩

/-! ## A step of the graph -/

/-- The node an event is about. -/
def node : Event → Nat
  | .called n _ | .resolved n _ | .abandoned n => n

variable {P : Prog} {g g' : Verif.JoinGraph.St}

/-- Only the node of the step changes, and at most one event is about it. -/
theorem frame {a : Verif.JoinGraph.Act} (h : Verif.JoinGraph.step P g a = .ok g') :
    (∀ k, k ≠ subj a → g'.pc k = g.pc k ∧ g'.out k = g.out k ∧ g'.w k = g.w k) ∧
    ((g'.trace = g.trace ∧ g'.out = g.out) ∨ (∃ x, g'.trace = g.trace ++ [.called (subj a) x] ∧ g'.pc (subj a) = .running x ∧ g'.out = g.out) ∨
      (∃ o, g'.trace = g.trace ++ [.resolved (subj a) o] ∧ g'.pc (subj a) = .ready ∧ g'.out = Shared.upd g.out (subj a) (some o)) ∨
      (g'.trace = g.trace ++ [.abandoned (subj a)] ∧ g'.pc (subj a) = .dead ∧ g'.out = g.out)) := by
  cases a <;> simp only [Verif.JoinGraph.step, Verif.JoinGraph.start, Verif.JoinGraph.ret, Verif.JoinGraph.call, Verif.JoinGraph.resolve] at h <;> (repeat' split at h) <;>
    (try cases h) <;> (try simp +contextual [subj, Shared.upd])
  all_goals
    rename_i n a' _ _ _ _ _ _ _ _
    cases a' <;> simp only [Verif.JoinGraph.after, Verif.JoinGraph.call, Verif.JoinGraph.resolve] at h <;> (repeat' split at h) <;>
      cases h <;> simp +contextual [Shared.upd]

/-- What a step does to its node. -/
inductive Eff (P : Prog) (g g' : Verif.JoinGraph.St) : Verif.JoinGraph.Act → Prop
  | create (n : Nat) (k : Kind) : P.kind n = some k → g.pc n = .none → g'.pc n = .queued → g'.trace = g.trace → g'.out = g.out →
      g'.w n = When.init k.parents.length → Eff P g g' (.create n)
  | call (n : Nat) (x : Verif.JoinGraph.Input) : g.pc n = .queued → g'.pc n = .running x → g'.trace = g.trace ++ [.called n x] → g'.out = g.out → g'.w = g.w →
      (P.kind n = some .async ∨ ∃ p, (P.kind n = some (.thn p) ∨ P.kind n = some (.rcv p)) ∧ g.out p ≠ none) → Eff P g g' (.start n)
  | fail (n p : Nat) (e : Err) : g.pc n = .queued → g'.pc n = .ready → g'.trace = g.trace ++ [.resolved n (.exc e)] →
      g'.out = Shared.upd g.out n (some (.exc e)) → g'.w = g.w → P.kind n = some (.thn p) → g.out p = some (.exc e) → Eff P g g' (.start n)
  | arg (n : Nat) (m : Mode) (args : List Nat) (a : When.Act) : P.kind n = some (.join m args) → g.pc n ≠ .none → Verif.JoinGraph.argOk g args a = true →
      When.step m args.length (g.w n) a = .ok (g'.w n) → g'.pc n = g.pc n → g'.trace = g.trace → g'.out = g.out → Eff P g g' (.arg n a)
  | drop (n : Nat) (m : Mode) (args : List Nat) : P.kind n = some (.join m args) → g.pc n = .queued →
      When.step m args.length (g.w n) .drop = .ok (g'.w n) → g'.pc n = .dead → g'.trace = g.trace ++ [.abandoned n] → g'.out = g.out → Eff P g g' (.arg n .drop)
  | fireCall (n : Nat) (m : Mode) (args : List Nat) (i : Nat) (xs : List Nat) (idx : Option Nat) : P.kind n = some (.join m args) → g.pc n ≠ .none →
      When.step m args.length (g.w n) (.fire i) = .ok (g'.w n) → (g.w n).kept = true → When.call m args.length (g.w n).ctx = .call xs idx →
      g'.pc n = .running (.many xs idx) → g'.trace = g.trace ++ [.called n (.many xs idx)] → g'.out = g.out → Eff P g g' (.arg n (.fire i))
  | fireFail (n : Nat) (m : Mode) (args : List Nat) (i : Nat) (e : Err) : P.kind n = some (.join m args) → g.pc n ≠ .none →
      When.step m args.length (g.w n) (.fire i) = .ok (g'.w n) → (g.w n).kept = true → When.call m args.length (g.w n).ctx = .throw e →
      g'.pc n = .ready → g'.trace = g.trace ++ [.resolved n (.exc e)] → g'.out = Shared.upd g.out n (some (.exc e)) → Eff P g g' (.arg n (.fire i))
  | ret (n : Nat) (x : Verif.JoinGraph.Input) (o : Outcome) : g.pc n = .running x → (∀ m, P.fn n x ≠ .fut m) → g'.pc n = .ready →
      g'.trace = g.trace ++ [.resolved n o] → g'.out = Shared.upd g.out n (some o) → g'.w = g.w → Eff P g g' (.ret n)
  | wait (n : Nat) (x : Verif.JoinGraph.Input) (m : Nat) : g.pc n = .running x → P.fn n x = .fut m → g'.pc n = .waiting m →
      g'.trace = g.trace → g'.out = g.out → g'.w = g.w → Eff P g g' (.ret n)
  | flatten (n m : Nat) (o : Outcome) : g.pc n = .waiting m → g.out m = some o → g'.pc n = .ready →
      g'.trace = g.trace ++ [.resolved n o] → g'.out = Shared.upd g.out n (some o) → g'.w = g.w → Eff P g g' (.flatten n)
  | abandon (n : Nat) : (g.pc n = .queued ∨ ∃ m, g.pc n = .waiting m) → g'.pc n = .dead → g'.trace = g.trace ++ [.abandoned n] →
      g'.out = g.out → g'.w = g.w → Eff P g g' (.abandon n)

theorem eff {a : Verif.JoinGraph.Act} (h : Verif.JoinGraph.step P g a = .ok g') : Eff P g g' a := by
  cases a with
  | create n =>
    simp only [Verif.JoinGraph.step] at h
    split at h
    · cases h
    · rename_i k hk
      split at h
      · rename_i hc
        cases h
        exact .create n k hk hc.1 (by simp [Shared.upd]) rfl rfl (by simp [Shared.upd])
      · cases h
  | start n =>
    simp only [Verif.JoinGraph.step, Verif.JoinGraph.start] at h
    split at h
    · rename_i hq
      split at h
      · rename_i hk
        cases h
        exact .call n _ hq (by simp [Verif.JoinGraph.call, Shared.upd]) rfl rfl rfl (.inl hk)
      · rename_i p hk
        split at h
        · cases h
        · rename_i v hp
          cases h
          exact .call n _ hq (by simp [Verif.JoinGraph.call, Shared.upd]) rfl rfl rfl (.inr ⟨p, .inl hk, by simp [hp]⟩)
        · rename_i e hp
          cases h
          exact .fail n p e hq (by simp [Verif.JoinGraph.resolve, Shared.upd]) rfl rfl rfl hk hp
      · rename_i p hk
        split at h
        · cases h
        · rename_i v hp
          cases h
          exact .call n _ hq (by simp [Verif.JoinGraph.call, Shared.upd]) rfl rfl rfl (.inr ⟨p, .inr hk, by simp [hp]⟩)
      · cases h
    · cases h
  | arg n a =>
    simp only [Verif.JoinGraph.step] at h
    split at h
    · rename_i m args hk
      split at h
      · cases h
      · rename_i hc
        simp only [not_or, Bool.not_eq_false] at hc
        split at h
        · cases h
        · cases h
        · rename_i w' hw
          have gen : Verif.JoinGraph.Out.ok { g with w := Shared.upd g.w n w' } = .ok g' → Eff P g g' (.arg n a) := by
            intro h
            cases h
            exact .arg n m args a hk hc.1 hc.2 (by simpa [Shared.upd] using hw) rfl rfl rfl
          cases a <;> simp only [Verif.JoinGraph.after] at h
          case drop =>
            split at h
            · rename_i hq
              cases h
              exact .drop n m args hk hq (by simpa [Shared.upd] using hw) (by simp [Shared.upd]) rfl rfl
            · cases h
          case fire i =>
            split at h
            · rename_i hkp
              split at h
              · cases h
              · rename_i xs idx hcall
                cases h
                exact .fireCall n m args i xs idx hk hc.1 (by simpa [Shared.upd, Verif.JoinGraph.call] using hw) hkp hcall (by simp [Verif.JoinGraph.call, Shared.upd]) rfl rfl
              · rename_i e hcall
                cases h
                exact .fireFail n m args i e hk hc.1 (by simpa [Shared.upd, Verif.JoinGraph.resolve] using hw) hkp hcall (by simp [Verif.JoinGraph.resolve, Shared.upd]) rfl rfl
            · exact gen h
          all_goals exact gen h
    · cases h
  | ret n =>
    simp only [Verif.JoinGraph.step, Verif.JoinGraph.ret] at h
    split at h
    · rename_i x hx
      split at h
      · rename_i v hv
        cases h
        exact .ret n x _ hx (by simp [hv]) (by simp [Verif.JoinGraph.resolve, Shared.upd]) rfl rfl rfl
      · rename_i v hv
        cases h
        exact .ret n x _ hx (by simp [hv]) (by simp [Verif.JoinGraph.resolve, Shared.upd]) rfl rfl rfl
      · rename_i m hm
        split at h
        · cases h
        · cases h
          exact .wait n x m hx hm (by simp [Shared.upd]) rfl rfl rfl
    · cases h
  | flatten n =>
    simp only [Verif.JoinGraph.step] at h
    split at h
    · rename_i m hm
      split at h
      · cases h
      · rename_i o ho
        cases h
        exact .flatten n m o hm ho (by simp [Verif.JoinGraph.resolve, Shared.upd]) rfl rfl rfl
    · cases h
  | abandon n =>
    simp only [Verif.JoinGraph.step] at h
    split at h
    · cases h
    · rename_i hq _
      cases h
      exact .abandon n (.inl hq) (by simp [Shared.upd]) rfl rfl rfl
    · rename_i m hq
      cases h
      exact .abandon n (.inr ⟨_, hq⟩) (by simp [Shared.upd]) rfl rfl rfl
    · cases h

end Verif.Sync.JoinGraph
