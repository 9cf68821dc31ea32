import Verif.Future.Ready

/-!
# C65: continuations are given to their executors in the order in which they were attached

They are if all of them are attached before the future is resolved (`_then` is appended to in `recover`, lines 353-357, and worked off
from its beginning, lines 395-397 and 1646-1647). One that is attached later may overtake those attached before: it is given to its
executor at once (line 359), while the resolving thread is still busy with the others.
-/

namespace Verif.Shared

theorem upd_apply {α : Type} (f : Nat → α) (i : Nat) (v : α) (j : Nat) : upd f i v j = if j = i then v else f j := rfl

/-- Continuation `i` is before `j`. -/
def Before (i j : Nat) (s : St) : Prop :=
  [i, j].Sublist s.thens ∨ (∃ h ks, s.rs h = .drain ks ∧ [i, j].Sublist ks) ∨
    (.scheduled i ∈ s.trace ∧ ∃ h ks, s.rs h = .drain ks ∧ j ∈ ks) ∨ [.scheduled i, .scheduled j].Sublist s.trace

structure Ord (i j : Nat) (s : St) : Prop where
  ci : s.cpc i ≠ .none
  cj : s.cpc j ≠ .none
  di : s.isDet i = false
  dj : s.isDet j = false
  be : Before i j s

/-- Only these steps touch the lists. -/
theorem Ord.keep {i j : Nat} {s s' : St} (o : Ord i j s) (hc : ∀ k, s.cpc k ≠ .none → s'.cpc k ≠ .none)
    (hd : ∀ k, s.cpc k ≠ .none → s'.isDet k = s.isDet k) (ht : ∃ l, s'.thens = s.thens ++ l) (hr : ∀ h ks, s.rs h = .drain ks → ks ≠ [] → s'.rs h = .drain ks)
    (htr : ∃ l, s'.trace = s.trace ++ l) : Ord i j s' := by
  obtain ⟨lt, ht⟩ := ht
  obtain ⟨lr, htr⟩ := htr
  refine ⟨hc _ o.ci, hc _ o.cj, ?_, ?_, ?_⟩
  · rw [hd _ o.ci]; exact o.di
  · rw [hd _ o.cj]; exact o.dj
  · rcases o.be with h | ⟨h, ks, h1, h2⟩ | ⟨h0, h, ks, h1, h2⟩ | h
    · exact .inl (ht ▸ h.trans (List.sublist_append_left _ _))
    · exact .inr (.inl ⟨h, ks, hr h ks h1 (by rintro rfl; cases h2), h2⟩)
    · exact .inr (.inr (.inl ⟨by rw [htr]; simp [h0], h, ks, hr h ks h1 (by rintro rfl; cases h2), h2⟩))
    · exact .inr (.inr (.inr (htr ▸ h.trans (List.sublist_append_left _ _))))

theorem startRes_keep {i j : Nat} {s : St} (o : Ord i j s) {h : Nat} (hh : s.rs h = .none) (hd : Handle) (x : Outcome) :
    Ord i j (startRes s h hd x) := by
  unfold startRes
  split
  · exact o.keep (fun _ h => h) (fun _ _ => rfl) ⟨[], by simp⟩ (fun _ _ h _ => h) ⟨[], by simp⟩
  · refine o.keep (fun _ h => h) (fun _ _ => rfl) ⟨[], by simp⟩ (fun h' ks e _ => ?_) ⟨[], by simp⟩
    simp only [upd_apply]
    split
    · subst h'; rw [hh] at e; cases e
    · exact e

theorem Ord.step {i j : Nat} {s s' : St} (o : Ord i j s) {a : Act} (e : Shared.step s a = .ok s') : Ord i j s' := by
  by_cases h1 : ∃ h, a = .rLock h
  · obtain ⟨h, rfl⟩ := h1
    simp only [Shared.step] at e
    split at e
    · rename_i ou hw
      cases e
      refine ⟨?_, ?_, o.di, o.dj, ?_⟩
      · have := o.ci; dsimp only; split <;> simp_all
      · have := o.cj; dsimp only; split <;> simp_all
      · have hr : ∀ h' ks, s.rs h' = .drain ks → upd s.rs h (.drain s.thens) h' = .drain ks := by
          intro h' ks e
          simp only [upd_apply]
          split
          · subst h'; rw [hw] at e; cases e
          · exact e
        rcases o.be with hb | ⟨h', ks, e1, e2⟩ | ⟨h0, h', ks, e1, e2⟩ | hb
        · exact .inr (.inl ⟨h, s.thens, by simp [upd_apply], hb⟩)
        · exact .inr (.inl ⟨h', ks, hr _ _ e1, e2⟩)
        · exact .inr (.inr (.inl ⟨by simp [h0], h', ks, hr _ _ e1, e2⟩))
        · exact .inr (.inr (.inr (hb.trans (List.sublist_append_left _ _))))
    · cases e
  by_cases h2 : ∃ h, a = .rSched h
  · obtain ⟨h, rfl⟩ := h2
    simp only [Shared.step] at e
    split at e
    · rename_i k ks hw
      have hr : ∀ h' ks', h' ≠ h → s.rs h' = .drain ks' → upd s.rs h (.drain ks) h' = .drain ks' := by
        intro h' ks' hn e
        simp only [upd_apply, hn, if_false, e]
      have hl : s.isDet k = true → k ≠ i ∧ k ≠ j := by
        intro hd
        constructor <;> rintro rfl
        · rw [o.di] at hd; cases hd
        · rw [o.dj] at hd; cases hd
      split at e <;> cases e
      · rename_i hd
        obtain ⟨hki, hkj⟩ := hl hd
        refine ⟨?_, ?_, o.di, o.dj, ?_⟩
        · have := o.ci; simp only [upd_apply]; split <;> simp_all
        · have := o.cj; simp only [upd_apply]; split <;> simp_all
        · rcases o.be with hb | ⟨h', ks', e1, e2⟩ | ⟨h0, h', ks', e1, e2⟩ | hb
          · exact .inl hb
          · by_cases hn : h' = h
            · subst hn
              rw [hw] at e1; cases e1
              rcases e2 with _ | e2 | e2
              · exact .inr (.inl ⟨h', ks, by simp [upd_apply], by assumption⟩)
              · exact absurd rfl hki
            · exact .inr (.inl ⟨h', ks', hr _ _ hn e1, e2⟩)
          · by_cases hn : h' = h
            · subst hn
              rw [hw] at e1; cases e1
              refine .inr (.inr (.inl ⟨h0, h', ks, by simp [upd_apply], ?_⟩))
              rcases List.mem_cons.1 e2 with e2 | e2
              · exact absurd e2.symm hkj
              · exact e2
            · exact .inr (.inr (.inl ⟨h0, h', ks', hr _ _ hn e1, e2⟩))
          · exact .inr (.inr (.inr hb))
      · refine ⟨?_, ?_, o.di, o.dj, ?_⟩
        · have := o.ci; simp only [upd_apply]; split <;> simp_all
        · have := o.cj; simp only [upd_apply]; split <;> simp_all
        · rcases o.be with hb | ⟨h', ks', e1, e2⟩ | ⟨h0, h', ks', e1, e2⟩ | hb
          · exact .inl hb
          · by_cases hn : h' = h
            · subst hn
              rw [hw] at e1; cases e1
              rcases e2 with _ | e2 | e2
              · exact .inr (.inl ⟨h', ks, by simp [upd_apply], by assumption⟩)
              · rename_i e2
                exact .inr (.inr (.inl ⟨by simp, h', ks, by simp [upd_apply], List.singleton_sublist.1 e2⟩))
            · exact .inr (.inl ⟨h', ks', hr _ _ hn e1, e2⟩)
          · by_cases hn : h' = h
            · subst hn
              rw [hw] at e1; cases e1
              rcases List.mem_cons.1 e2 with e2 | e2
              · subst e2
                refine .inr (.inr (.inr ?_))
                have := List.Sublist.append (List.singleton_sublist.2 h0) (List.Sublist.refl [Event.scheduled j])
                exact this
              · exact .inr (.inr (.inl ⟨by simp [h0], h', ks, by simp [upd_apply], e2⟩))
            · exact .inr (.inr (.inl ⟨by simp [h0], h', ks', hr _ _ hn e1, e2⟩))
          · exact .inr (.inr (.inr (hb.trans (List.sublist_append_left _ _))))
    · cases e
  have hu : ∀ h p, (∀ ks, s.rs h = .drain ks → ks = []) → ∀ h' ks, s.rs h' = .drain ks → ks ≠ [] → upd s.rs h p h' = .drain ks := by
    intro h p hh h' ks e hn
    simp only [upd_apply]
    split
    · subst h'; exact absurd (hh ks e) hn
    · exact e
  cases a
  case rLock h => exact absurd ⟨h, rfl⟩ h1
  case rSched h => exact absurd ⟨h, rfl⟩ h2
  all_goals simp only [Shared.step] at e
  all_goals repeat' split at e
  all_goals cases e
  all_goals first
    | exact o
    | (exact startRes_keep o (by simp_all) _ _)
    | (refine o.keep ?_ ?_ ?_ ?_ ?_
       · intro k hk; first | exact hk | grind [upd]
       · intro k hk; first | exact rfl | grind [upd]
       · first | exact ⟨_, (List.append_nil _).symm⟩ | exact ⟨_, rfl⟩
       · first | exact (fun _ _ h _ => h) | (apply hu; simp_all)
       · first | exact ⟨_, (List.append_nil _).symm⟩ | exact ⟨_, rfl⟩)

/-- As long as the future is not resolved, `j` is behind `i`, once it is there. -/
def Behind (i j : Nat) (s : St) : Prop := s.ready = true ∨ i ∈ s.thens ∧ (j ∈ s.thens → [i, j].Sublist s.thens)

theorem Behind.append {i j : Nat} {s s' : St} (b : Behind i j s) {k : Nat} (hr : s'.ready = s.ready) (ht : s'.thens = s.thens ++ [k]) :
    Behind i j s' := by
  rcases b with b | ⟨h1, h2⟩
  · exact .inl (hr ▸ b)
  · refine .inr ⟨by rw [ht]; simp [h1], fun hj => ?_⟩
    rw [ht] at hj ⊢
    rcases List.mem_append.1 hj with hj | hj
    · exact (h2 hj).trans (List.sublist_append_left _ _)
    · have : j = k := by simpa using hj
      subst this
      exact List.Sublist.append (List.singleton_sublist.2 h1) (List.Sublist.refl [j])

theorem Behind.step {i j : Nat} {s s' : St} (b : Behind i j s) {a : Act} (e : Shared.step s a = .ok s') : Behind i j s' := by
  cases a
  all_goals simp only [Shared.step, startRes] at e
  all_goals repeat' split at e
  all_goals cases e
  all_goals first
    | exact b
    | exact .inl rfl
    | exact b.append rfl rfl

theorem Behind.exec {i j : Nat} {s s' : St} {as : List Act} (b : Behind i j s) (e : exec s as = some s') : Behind i j s' := by
  induction as generalizing s with
  | nil => cases e; exact b
  | cons a as ih =>
    simp only [Shared.exec] at e
    split at e
    · rename_i s1 h1; exact ih (b.step h1) e
    · cases e

theorem Ord.exec {i j : Nat} {s s' : St} {as : List Act} (o : Ord i j s) (e : exec s as = some s') : Ord i j s' := by
  induction as generalizing s with
  | nil => cases e; exact o
  | cons a as ih =>
    simp only [Shared.exec] at e
    split at e
    · rename_i s1 h1; exact ih (o.step h1) e
    · cases e

/-- The call that attached continuation `k` has returned: the continuation is there, and not at the critical section. -/
def Attached (k : Nat) (s : St) : Prop := .attached k ∈ s.trace ∧ s.cpc k ≠ .made

theorem Attached.queued {k : Nat} {s : St} (h : Reachable s) (ha : Attached k s) (hr : s.ready = false) : s.cpc k = .queued := by
  have I := h.inv
  obtain ⟨h1, h2⟩ := ha
  obtain ⟨h3, _⟩ := (I.att k).1 h1
  have h4 := I.rdyc k
  have h5 := I.infl k
  rcases hc : s.cpc k <;> simp_all [past]
  obtain ⟨h, ks, h6, _⟩ := h5
  have := (I.drn h ks h6).1
  simp_all

/-- What does not change any more. -/
theorem later {s s' : St} {a : Act} (e : Shared.step s a = .ok s') :
    (s.ready = true → s'.ready = true) ∧ (∀ k, s.isDet k = true → s'.isDet k = true) ∧ ∀ x, x ∈ s.trace → x ∈ s'.trace := by
  cases a
  all_goals simp only [Shared.step, startRes] at e
  all_goals repeat' split at e
  all_goals cases e
  all_goals refine ⟨?_, ?_, ?_⟩
  all_goals first
    | exact fun h => h
    | exact fun _ h => h
    | exact fun _ => rfl
    | exact fun _ h => List.mem_append_left _ h
    | (intro k h; simp only [upd_apply]; split <;> first | rfl | exact h)

theorem later_exec {s s' : St} {as : List Act} (e : exec s as = some s') :
    (s.ready = true → s'.ready = true) ∧ (∀ k, s.isDet k = true → s'.isDet k = true) ∧ ∀ x, x ∈ s.trace → x ∈ s'.trace := by
  induction as generalizing s with
  | nil => cases e; exact ⟨id, fun _ => id, fun _ => id⟩
  | cons a as ih =>
    simp only [Shared.exec] at e
    split at e
    · rename_i t ht
      obtain ⟨h1, h2, h3⟩ := later ht
      obtain ⟨g1, g2, g3⟩ := ih e
      exact ⟨fun h => g1 (h1 h), fun k h => g2 k (h2 k h), fun x h => g3 x (h3 x h)⟩
    · cases e

theorem reachable_exec {s s' : St} {as : List Act} (h : Reachable s) (e : exec s as = some s') : Reachable s' := by
  obtain ⟨bs, hb⟩ := h
  exact ⟨bs ++ as, by rw [exec_append hb]; exact e⟩

/-- Continuation `i` is attached (the call has returned in `s₁`) before `j` (the call has not begun in `s₁`, and has returned in `s₂`),
and both before the future is resolved (in or after `s₂`). Whenever `j` has been given to its executor, `i` was given to its before. -/
theorem c65_order_partial {i j : Nat} {s₁ s₂ s₃ : St} {as bs : List Act} (hr : Reachable s₁) (hi : Attached i s₁) (hj : .attached j ∉ s₁.trace)
    (e₁ : exec s₁ as = some s₂) (hj2 : Attached j s₂) (hn : s₂.ready = false) (e₂ : exec s₂ bs = some s₃)
    (hs : .scheduled j ∈ s₃.trace) : [.scheduled i, .scheduled j].Sublist s₃.trace := by
  have hr2 : Reachable s₂ := reachable_exec hr e₁
  have I := hr.inv
  have I2 := hr2.inv
  obtain ⟨l1, l2, l3⟩ := later_exec e₁
  have hn1 : s₁.ready = false := by
    rcases h : s₁.ready with _ | _
    · rfl
    · rw [l1 h] at hn; cases hn
  have hq := hi.queued hr hn1
  have hq2 := hj2.queued hr2 hn
  have hjd : s₂.isDet j = false := ((I2.att j).1 hj2.1).2
  have hid : s₂.isDet i = false := ((I2.att i).1 (l3 _ hi.1)).2
  have hic : s₂.cpc i ≠ .none := ((I2.att i).1 (l3 _ hi.1)).1
  have hjn : s₁.cpc j = .none := by
    have h1 := (I.att j).2
    have h2 := l2 j
    grind
  have b : Behind i j s₁ := .inr ⟨(I.thn i).2 hq, fun h => by rw [(I.thn j).1 h] at hjn; cases hjn⟩
  have b2 := b.exec e₁
  have hb : [i, j].Sublist s₂.thens := by
    rcases b2 with h | ⟨_, h⟩
    · rw [hn] at h; cases h
    · exact h ((I2.thn j).2 hq2)
  have o : Ord i j s₂ := ⟨hic, by simp [hq2], hid, hjd, .inl hb⟩
  have o3 := o.exec e₂
  have I3 := (reachable_exec hr2 e₂).inv
  have hp := ((I3.sch j).1 hs).1
  rcases o3.be with h | ⟨h, ks, h1, h2⟩ | ⟨_, h, ks, h1, h2⟩ | h
  · have := (I3.thn j).1 (h.subset (by simp))
    simp [this, past] at hp
  · have := (I3.drn h ks h1).2.2 j (h2.subset (by simp))
    simp [this, past] at hp
  · have := (I3.drn h ks h1).2.2 j h2
    simp [this, past] at hp
  · exact h

/-- In the full claim, `j` may also be attached after the future is resolved. Then it may overtake `i`, even if it is attached long after
the call that attached `i` has returned. -/
theorem c65_overtake_counterexample : ∃ s₁ as s₂, Reachable s₁ ∧ Attached 0 s₁ ∧ .attached 1 ∉ s₁.trace ∧ exec s₁ as = some s₂ ∧
    .scheduled 1 ∈ s₂.trace ∧ .scheduled 0 ∉ s₂.trace := by
  refine ⟨_, [.invoke 0 1, .setVal 1 7, .rWrite 1, .rLock 1, .attach 0 1 false, .cLock 1, .cDirect 1], _,
    ⟨[.attach 0 0 false, .cLock 0], rfl⟩, ⟨by decide, by decide⟩, by decide, rfl, by decide, by decide⟩

/-- Two continuations in order; the second is given to its executor. -/
example : ∃ s₁ as s₂ bs s₃, Reachable s₁ ∧ Attached 0 s₁ ∧ .attached 1 ∉ s₁.trace ∧ exec s₁ as = some s₂ ∧ Attached 1 s₂ ∧
    s₂.ready = false ∧ exec s₂ bs = some s₃ ∧ .scheduled 1 ∈ s₃.trace := by
  refine ⟨_, [.attach 0 1 false, .cLock 1], _, [.invoke 0 1, .setVal 1 7, .rWrite 1, .rLock 1, .rSched 1, .rSched 1], _,
    ⟨[.attach 0 0 false, .cLock 0], rfl⟩, ⟨by decide, by decide⟩, by decide, rfl, ⟨by decide, by decide⟩, rfl, rfl, by decide⟩

end Verif.Shared
