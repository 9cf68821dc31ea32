import Verif.Channel.LifeStep

/-!
# A process that has been attached, from then on
-/

namespace Verif.Life

open Handles (Handle)

/-- The senders to `q` in the downstream of `p`, if the upstream of `q` is `ps`. -/
def slotsFrom (q k : Nat) (ps : List Nat) (p : Nat) : List (Nat × Nat) :=
  ((ps.zipIdx k).filter (·.1 == p)).map fun e => (q, e.2)

def slots (q : Nat) (ps : List Nat) (p : Nat) : List (Nat × Nat) := slotsFrom q 0 ps p

theorem slotsFrom_cons (q k a : Nat) (ps : List Nat) (p : Nat) :
    slotsFrom q k (a :: ps) p = (if a = p then [(q, k)] else []) ++ slotsFrom q (k + 1) ps p := by
  simp only [slotsFrom, List.zipIdx_cons, List.filter_cons]
  by_cases h : a = p <;> simp [h]

theorem slotsFrom_length (q k : Nat) (ps : List Nat) (p : Nat) : (slotsFrom q k ps p).length = ps.count p := by
  induction ps generalizing k with
  | nil => rfl
  | cons a ps ih =>
    rw [slotsFrom_cons, List.length_append, ih, List.count_cons]
    by_cases h : a = p <;> simp [h]; omega

theorem slotsFrom_nil {q k p : Nat} {ps : List Nat} (h : p ∉ ps) : slotsFrom q k ps p = [] := by
  have := slotsFrom_length q k ps p
  rw [List.count_eq_zero_of_not_mem h] at this
  exact List.eq_nil_of_length_eq_zero this

theorem slotsFrom_deliver (q k : Nat) (ps : List Nat) (p v j : Nat) :
    ((slotsFrom q k ps p).map fun e => (e.2, v)).filter (·.1 == j) =
      if k ≤ j ∧ ps[j - k]? = some p then [(j, v)] else [] := by
  induction ps generalizing k with
  | nil => simp [slotsFrom]
  | cons a ps ih =>
    rw [slotsFrom_cons, List.map_append, List.filter_append, ih]
    by_cases hj : j < k
    · have h1 : ¬ (k + 1 ≤ j ∧ ps[j - (k + 1)]? = some p) := fun h => by have := h.1; omega
      have h2 : ¬ (k ≤ j ∧ (a :: ps)[j - k]? = some p) := fun h => by have := h.1; omega
      rw [if_neg h1, if_neg h2]
      by_cases ha : a = p
      · have : ¬ (k == j) = true := by simp; omega
        simp [ha, this]
      · simp [ha]
    · by_cases hk : j = k
      · subst hk
        have h1 : ¬ (j + 1 ≤ j ∧ ps[j - (j + 1)]? = some p) := fun h => by have := h.1; omega
        rw [if_neg h1]
        by_cases ha : a = p <;> simp [ha]
      · have h1 : j - k = (j - (k + 1)) + 1 := by omega
        rw [h1, List.getElem?_cons_succ]
        have h2 : (k + 1 ≤ j ∧ ps[j - (k + 1)]? = some p) ↔ (k ≤ j ∧ ps[j - (k + 1)]? = some p) :=
          ⟨fun h => ⟨by omega, h.2⟩, fun h => ⟨by omega, h.2⟩⟩
        simp only [h2]
        by_cases ha : a = p
        · have : ¬ (k == j) = true := by simp; omega
          simp [ha, this]
        · simp [ha]

theorem slotsFrom_lt {q p : Nat} {ps : List Nat} {x : Nat × Nat} (h : x ∈ slots q ps p) : x.2 < ps.length := by
  simp only [slots, slotsFrom, List.mem_map, List.mem_filter] at h
  obtain ⟨⟨r, k⟩, ⟨h, -⟩, rfl⟩ := h
  exact (List.getElem?_eq_some_iff.1 (List.mk_mem_zipIdx_iff_getElem?.1 h)).1

theorem countP_close (c : Nat → Bool) (ps : List Nat) {p : Nat} (hp : c p = false) :
    ps.countP (fun r => !(if r = p then true else c r)) + ps.count p = ps.countP (fun r => !c r) := by
  induction ps with
  | nil => rfl
  | cons a ps ih =>
    simp only [List.countP_cons, List.count_cons]
    by_cases h : a = p
    · subst h; simp [hp] at *; omega
    · simp [h] at *; omega

/-- `q` has been attached to `ps`, and none of them had done anything before. -/
structure Track (s : St) (q : Nat) (ps : List Nat) : Prop where
  lt : q < s.n
  up : (s.pr q).up = ps
  ne : ps ≠ []
  down : (s.pr q).alive = true → ∀ p, (s.pr p).alive = true →
    (s.pr p).down.filter (·.1 == q) = if (s.pr p).closed then [] else slots q ps p
  snd : (s.pr q).alive = true → (s.pr q).snd = ps.countP fun p => !(s.pr p).closed
  inb : (s.pr q).alive = true → ∀ k p, ps[k]? = some p → (s.pr q).inbox.filter (·.1 == k) = (s.pr p).outs.map fun v => (k, v)
  inr : (s.pr q).alive = true → ∀ e ∈ (s.pr q).inbox, e.1 < ps.length

theorem Track.not_mem {s : St} {q : Nat} {ps : List Nat} (T : Track s q ps) (C : Closed s) : q ∉ ps := fun h => by
  have := C.low q q (by rw [T.up]; exact h); omega

theorem Track.kill {s : St} {q p : Nat} {ps : List Nat} (T : Track s q ps) (C : Closed s) (ha : (s.pr p).alive = true)
    (hp : owned s p = false) : Track (kill s p) q ps := by
  have S := @kill_same s p
  have hno : ¬(Held s p ∨ ∃ q < s.n, (s.pr q).alive = true ∧ p ∈ (s.pr q).up) := fun h => by
    rw [← owned_iff, hp] at h; cases h
  refine ⟨by rw [S.n]; exact T.lt, by rw [S.up]; exact T.up, T.ne, ?_, ?_, ?_, ?_⟩
  · intro h r hr
    rw [S.down r hr, S.closed]
    exact T.down (S.dead q h) r (S.dead r hr)
  · intro h
    have h1 := S.dead q h
    have hqp : q ≠ p := by rw [kill_alive] at h; simp at h; exact h.2
    have hnm : p ∉ ps := fun hm => hno (.inr ⟨q, C.lt q h1, h1, by rw [T.up]; exact hm⟩)
    have hz : (s.pr p).down.countP (·.1 == q) = 0 := by
      rw [List.countP_eq_length_filter, T.down h1 p ha, slots, slotsFrom_nil hnm]
      split <;> rfl
    simp only [S.closed]
    rw [← T.snd h1]
    simp only [Life.kill, dropSenders, upd, if_neg hqp, h1, if_true, hz]; rfl
  · intro h k r hr
    rw [S.inbox, S.outs]
    exact T.inb (S.dead q h) k r hr
  · intro h
    rw [S.inbox]
    exact T.inr (S.dead q h)

theorem Track.fold {f : St → Nat → St} {q : Nat} {ps : List Nat}
    (hf : ∀ s p, Closed s → Track s q ps → Closed (f s p) ∧ Track (f s p) q ps) (l : List Nat) {s : St} (C : Closed s) (T : Track s q ps) :
    Closed (l.foldl f s) ∧ Track (l.foldl f s) q ps := by
  induction l generalizing s with
  | nil => exact ⟨C, T⟩
  | cons a l ih => obtain ⟨C', T'⟩ := hf s a C T; exact ih C' T'

theorem Track.release {q : Nat} {ps : List Nat} : ∀ (f : Nat) (s : St) (p : Nat), Closed s → Track s q ps →
    Closed (release f s p) ∧ Track (release f s p) q ps
  | 0, _, _, C, T => ⟨C, T⟩
  | f + 1, s, p, C, T => by
    unfold Life.release
    split
    · next h =>
      simp at h
      exact Track.fold (Track.release f) _ (C.kill h.2) (T.kill C h.1 h.2)
    · exact ⟨C, T⟩

/-- Another process is made. -/
theorem Track.attach {s : St} {q : Nat} {ps qs : List Nat} {v : Kind} (I : Inv s) (T : Track s q ps) (hqs : ∀ p ∈ qs, (s.pr p).alive = true)
    (hmo : ∀ p ∈ ps, (s.pr p).mo = true → p ∉ qs) : Track (Life.attach s qs v) q ps := by
  have hpr := attach_pr (v := v) I hqs
  have hne : q ≠ s.n := by have := T.lt; omega
  have hq : (Life.attach s qs v).pr q = { s.pr q with down := joined (s.pr q).mo (s.pr q).down (((qs.zipIdx).filter (·.1 == q)).map fun e => (s.n, e.2)) } := by
    rw [hpr, if_neg hne]
  have hlt : (s.pr q).alive = true → ∀ p ∈ ps, p ≠ s.n := fun h p hp => by
    have := I.C.lt p (I.C.up q h p (by rw [T.up]; exact hp)); omega
  refine ⟨by rw [attach_n]; have := T.lt; omega, by rw [hq]; exact T.up, T.ne, ?_, ?_, ?_, ?_⟩
  · intro h p hp
    rw [hq] at h
    rw [hpr] at *
    split
    · next e =>
      subst e
      rw [slots, slotsFrom_nil (fun hm => hlt h _ hm rfl)]; rfl
    · next e =>
      rw [if_neg e] at hp
      have hnew : ∀ x ∈ List.map (fun e => (s.n, e.2)) (List.filter (·.1 == p) qs.zipIdx), ¬ (x.1 == q) = true := by
        intro x hx
        simp only [List.mem_map] at hx
        obtain ⟨y, -, rfl⟩ := hx
        simpa using fun e => hne e.symm
      have hT := T.down h p hp
      by_cases hm : p ∈ ps
      · cases hmo' : (s.pr p).mo with
        | true =>
          have : List.filter (·.1 == p) qs.zipIdx = [] := by
            rw [List.filter_eq_nil_iff]
            rintro ⟨r, k⟩ he hc
            have h1 : r = p := by simpa using hc
            subst h1
            exact hmo r hm hmo' (List.mem_of_getElem? (List.mk_mem_zipIdx_iff_getElem?.1 he))
          rw [this, List.map_nil, joined_nil]; exact hT
        | false =>
          simp only [joined, Bool.false_eq_true, if_false, List.filter_append]
          rw [List.filter_eq_nil_iff.2 hnew, List.append_nil]; exact hT
      · rw [slots, slotsFrom_nil hm, ite_self] at *
        rw [List.filter_eq_nil_iff]
        intro x hx
        rcases mem_joined hx with hx | hx
        · exact List.filter_eq_nil_iff.1 hT x hx
        · exact hnew x hx
  · intro h
    rw [hq] at h
    rw [hq]
    rw [show (s.pr q).snd = _ from T.snd h]
    refine List.countP_congr fun p hp => ?_
    rw [hpr, if_neg (hlt h p hp)]
  · intro h k p hp
    rw [hq] at *
    rw [hpr, if_neg (hlt h p (List.mem_of_getElem? hp))]
    exact T.inb h k p hp
  · intro h
    rw [hq] at *
    exact T.inr h

/-- One process changes in what does not matter for `q`. -/
theorem Track.one {s : St} {q p : Nat} {ps : List Nat} {x : Proc} (T : Track s q ps) (hu : x.up = (s.pr p).up) (ha : x.alive = (s.pr p).alive)
    (hd : x.down = (s.pr p).down) (hc : x.closed = (s.pr p).closed) (ho : x.outs = (s.pr p).outs)
    (hx : p = q → x.snd = (s.pr p).snd ∧ x.inbox = (s.pr p).inbox) : Track { s with pr := upd s.pr p x } q ps := by
  have h : ∀ r, (upd s.pr p x r).up = (s.pr r).up ∧ (upd s.pr p x r).alive = (s.pr r).alive ∧
      (upd s.pr p x r).down = (s.pr r).down ∧ (upd s.pr p x r).closed = (s.pr r).closed ∧ (upd s.pr p x r).outs = (s.pr r).outs := by
    intro r
    by_cases e : r = p
    · subst e; simp only [upd, if_true]; exact ⟨hu, ha, hd, hc, ho⟩
    · simp [upd, e]
  have hq : (upd s.pr p x q).snd = (s.pr q).snd ∧ (upd s.pr p x q).inbox = (s.pr q).inbox := by
    by_cases e : q = p
    · subst e; simp only [upd, if_true]; exact hx rfl
    · simp [upd, e]
  refine ⟨T.lt, ?_, T.ne, ?_, ?_, ?_, ?_⟩
  · show (upd s.pr p x q).up = ps; rw [(h q).1]; exact T.up
  · intro h1 r h2
    have h1 : (upd s.pr p x q).alive = true := h1
    have h2 : (upd s.pr p x r).alive = true := h2
    show (upd s.pr p x r).down.filter _ = if (upd s.pr p x r).closed then _ else _
    rw [(h q).2.1] at h1; rw [(h r).2.1] at h2; rw [(h r).2.2.1, (h r).2.2.2.1]
    exact T.down h1 r h2
  · intro h1
    have h1 : (upd s.pr p x q).alive = true := h1
    rw [(h q).2.1] at h1
    show (upd s.pr p x q).snd = ps.countP fun r => !(upd s.pr p x r).closed
    simp only [hq.1, (h _).2.2.2.1]
    exact T.snd h1
  · intro h1 k r hr
    have h1 : (upd s.pr p x q).alive = true := h1
    rw [(h q).2.1] at h1
    show (upd s.pr p x q).inbox.filter _ = (upd s.pr p x r).outs.map _
    rw [hq.2, (h r).2.2.2.2]
    exact T.inb h1 k r hr
  · intro h1
    have h1 : (upd s.pr p x q).alive = true := h1
    rw [(h q).2.1] at h1
    show ∀ e ∈ (upd s.pr p x q).inbox, _
    rw [hq.2]
    exact T.inr h1

/-- `a` attaches nothing to the processes `ps` whose results cannot be copied. -/
def Spares (s t : St) (ps : List Nat) : Prop := ∀ q, s.n ≤ q → q < t.n → ∀ p ∈ ps, (s.pr p).mo = true → p ∉ (t.pr q).up

theorem Track.step {s t : St} {a : Op} {q : Nat} {ps : List Nat} (I : Inv s) (T : Track s q ps) (h : step s a = .ok t)
    (hsp : Spares s t ps) : Track t q ps := by
  have hsp' : ∀ (qs : List Nat) (v : Kind), (∀ p ∈ qs, (s.pr p).alive = true) → t = Life.attach s qs v → ∀ p ∈ ps, (s.pr p).mo = true → p ∉ qs := by
    rintro qs v hqs rfl p hp hm
    have h1 := hsp s.n (Nat.le_refl _) (by rw [attach_n]; omega) p hp hm
    rw [attach_pr I hqs, if_pos rfl] at h1
    exact h1
  cases a with
  | chan v =>
    cases h
    have T1 := T.attach (qs := []) (v := v) I (fun _ h => absurd h List.not_mem_nil) (fun _ _ _ => List.not_mem_nil)
    have he : add s v ⟨v == .moveOnly, true, [], [], if v = .void then 0 else 1, false, false, [], []⟩ =
        { Life.attach s [] v with pr := upd (Life.attach s [] v).pr s.n ⟨v == .moveOnly, true, [], [], if v = .void then 0 else 1, false, false, [], []⟩ } := by
      simp only [add, Life.attach, map]
      congr 1
      funext r
      simp only [upd]; split <;> rfl
    rw [he]
    have hn : (Life.attach s [] v).pr s.n = ⟨v == .moveOnly, true, [], [], 0, false, false, [], []⟩ := by
      rw [attach_pr I (fun _ h => absurd h List.not_mem_nil), if_pos rfl]; rfl
    refine T1.one ?_ ?_ ?_ ?_ ?_ (fun e => absurd T.lt (by rw [e]; omega)) <;> rw [hn]
  | obj a =>
    simp only [Life.step] at h
    split at h
    · next ho =>
      split at h
      · next u hu =>
        cases h
        have hn : u.cnt.length = s.hs.cnt.length := step_length ho hu
        have hn' : s.n = St.n { s with hs := u } := hn.symm
        refine (Track.fold (s := { s with hs := u }) (Track.release s.n) _ ⟨fun p hp => I.C.held p ?_, I.C.up, fun q h => ?_, I.C.low, fun p e he => ?_⟩ ?_).2
        · rcases hp with ⟨i, r, h⟩ | h
          · obtain ⟨j, r', h, -⟩ := has_of_step ho hu h; exact .inl ⟨j, r', h⟩
          · exact .inr h
        · rw [← hn']; exact I.C.lt q h
        · rw [← hn']; exact I.C.tgt p e he
        · exact ⟨by rw [← hn']; exact T.lt, T.up, T.ne, T.down, T.snd, T.inb, T.inr⟩
      · cases h
      · cases h
    · cases h
  | pipe i v =>
    simp only [Life.step] at h
    split at h
    · cases h
    · next x hx =>
      split at h
      · cases h
      · next p hp =>
        split at h
        · cases h
        · cases h
          have ha : ∀ q ∈ [p], (s.pr q).alive = true := fun q hq => by
            rw [List.mem_singleton] at hq; subst hq
            exact I.C.held _ (.inl ⟨i, x.ready, by rw [Has, hx, ← hp]⟩)
          exact T.attach I ha (hsp' _ v ha rfl)
  | merge is v =>
    simp only [Life.step] at h
    split at h
    · cases h
    · cases h
    · next qs hqs =>
      split at h
      · cases h
      · cases h
        have ha : ∀ q ∈ qs, (s.pr q).alive = true := fun q hq => I.C.held _ (.inl (targets_has hqs q hq))
        exact T.attach I ha (hsp' _ v ha rfl)
  | lock p =>
    simp only [Life.step] at h
    split at h
    · cases h; exact ⟨T.lt, T.up, T.ne, T.down, T.snd, T.inb, T.inr⟩
    · cases h
  | unlock k =>
    simp only [Life.step] at h
    split at h
    · next p hp =>
      cases h
      refine (Track.release s.n { s with locks := s.locks.set k none } p ⟨fun p hp => I.C.held p ?_, I.C.up, I.C.lt, I.C.low, I.C.tgt⟩
        ⟨T.lt, T.up, T.ne, T.down, T.snd, T.inb, T.inr⟩).2
      rcases hp with h | h
      · exact .inl h
      · rcases List.mem_or_eq_of_mem_set h with h | h
        · exact .inr h
        · cases h
    · cases h
  | addSender p =>
    simp only [Life.step] at h
    split at h
    · next hp => cases h; exact T.one rfl rfl rfl rfl rfl (fun e => absurd (T.up.symm.trans (e ▸ hp.1)) T.ne)
    · cases h
  | removeSender p =>
    simp only [Life.step] at h
    split at h
    · next hp => cases h; exact T.one rfl rfl rfl rfl rfl (fun e => absurd (T.up.symm.trans (e ▸ hp.1)) T.ne)
    · cases h
  | send p w =>
    simp only [Life.step] at h
    split at h
    · next hp =>
      cases h
      split
      · exact T.one rfl rfl rfl rfl rfl (fun e => absurd (T.up.symm.trans (e ▸ hp.1)) T.ne)
      · exact T
    · cases h
  | start p =>
    simp only [Life.step] at h
    split at h
    · next hp => cases h; exact T.one rfl rfl rfl rfl rfl (fun _ => ⟨rfl, rfl⟩)
    · cases h
  | emit p w =>
    simp only [Life.step] at h
    split at h
    · next hp =>
      cases h
      have hal : ∀ r, (deliver (s.pr p).down w (upd s.pr p { s.pr p with outs := (s.pr p).outs ++ [w] }) r).alive = (s.pr r).alive := by
        intro r; rw [deliver_alive, upd]; split
        · next e => rw [e]
        · rfl
      have hout : ∀ r, (deliver (s.pr p).down w (upd s.pr p { s.pr p with outs := (s.pr p).outs ++ [w] }) r).outs =
          (s.pr r).outs ++ if r = p then [w] else [] := by
        intro r
        by_cases e : r = p
        · subst e; simp only [deliver, upd, if_true]; split <;> rfl
        · simp only [deliver, upd, if_neg e, List.append_nil]; split <;> rfl
      have hin : (s.pr q).alive = true → (deliver (s.pr p).down w (upd s.pr p { s.pr p with outs := (s.pr p).outs ++ [w] }) q).inbox =
          (s.pr q).inbox ++ ((s.pr p).down.filter (·.1 == q)).map fun e => (e.2, w) := by
        intro h
        by_cases e : q = p
        · subst e; simp only [deliver, upd, if_true, h]
        · simp only [deliver, upd, if_neg e, h, if_true]
      have hrest : ∀ r, (deliver (s.pr p).down w (upd s.pr p { s.pr p with outs := (s.pr p).outs ++ [w] }) r).up = (s.pr r).up ∧
          (deliver (s.pr p).down w (upd s.pr p { s.pr p with outs := (s.pr p).outs ++ [w] }) r).down = (s.pr r).down ∧
          (deliver (s.pr p).down w (upd s.pr p { s.pr p with outs := (s.pr p).outs ++ [w] }) r).closed = (s.pr r).closed ∧
          (deliver (s.pr p).down w (upd s.pr p { s.pr p with outs := (s.pr p).outs ++ [w] }) r).snd = (s.pr r).snd := by
        intro r
        by_cases e : r = p
        · subst e; simp only [deliver, upd, if_true]; split <;> exact ⟨rfl, rfl, rfl, rfl⟩
        · simp only [deliver, upd, if_neg e]; split <;> exact ⟨rfl, rfl, rfl, rfl⟩
      refine ⟨T.lt, (hrest q).1.trans T.up, T.ne, ?_, ?_, ?_, ?_⟩
      · intro h1 r h2
        rw [hal] at h1 h2
        rw [(hrest r).2.1, (hrest r).2.2.1]
        exact T.down h1 r h2
      · intro h1
        rw [hal] at h1
        rw [(hrest q).2.2.2, T.snd h1]
        simp only [(hrest _).2.2.1]
      · intro h1 k r hr
        rw [hal] at h1
        rw [hin h1, hout, List.filter_append, T.inb h1 k r hr, T.down h1 p hp.1, if_neg hp.2.2, slots, slotsFrom_deliver, List.map_append]
        congr 1
        by_cases e : r = p
        · subst e; simp [hr]
        · have : ¬ ps[k]? = some p := by rw [hr]; simpa using e
          simp [e, this]
      · intro h1 e he
        rw [hal] at h1
        rw [hin h1, T.down h1 p hp.1, if_neg hp.2.2, List.mem_append, List.mem_map] at he
        rcases he with he | ⟨x, hx, rfl⟩
        · exact T.inr h1 e he
        · exact slotsFrom_lt hx
    · cases h
  | finish p =>
    simp only [Life.step] at h
    split at h
    · next hp =>
      cases h
      have hal : ∀ r, (dropSenders (s.pr p).down (upd s.pr p { s.pr p with closed := true, down := [] }) r).alive = (s.pr r).alive := by
        intro r; rw [dropSenders_alive, upd]; split
        · next e => rw [e]
        · rfl
      have hrest : ∀ r, (dropSenders (s.pr p).down (upd s.pr p { s.pr p with closed := true, down := [] }) r).up = (s.pr r).up ∧
          (dropSenders (s.pr p).down (upd s.pr p { s.pr p with closed := true, down := [] }) r).inbox = (s.pr r).inbox ∧
          (dropSenders (s.pr p).down (upd s.pr p { s.pr p with closed := true, down := [] }) r).outs = (s.pr r).outs ∧
          (dropSenders (s.pr p).down (upd s.pr p { s.pr p with closed := true, down := [] }) r).down = (if r = p then [] else (s.pr r).down) ∧
          (dropSenders (s.pr p).down (upd s.pr p { s.pr p with closed := true, down := [] }) r).closed = (if r = p then true else (s.pr r).closed) := by
        intro r
        by_cases e : r = p
        · subst e; simp only [dropSenders, upd, if_true]; split <;> exact ⟨rfl, rfl, rfl, rfl, rfl⟩
        · simp only [dropSenders, upd, if_neg e]; split <;> exact ⟨rfl, rfl, rfl, rfl, rfl⟩
      have hsnd : (s.pr q).alive = true → (dropSenders (s.pr p).down (upd s.pr p { s.pr p with closed := true, down := [] }) q).snd =
          (s.pr q).snd - (s.pr p).down.countP (·.1 == q) := by
        intro h
        by_cases e : q = p
        · subst e; simp only [dropSenders, upd, if_true, h]
        · simp only [dropSenders, upd, if_neg e, h, if_true]
      refine ⟨T.lt, (hrest q).1.trans T.up, T.ne, ?_, ?_, ?_, ?_⟩
      · intro h1 r h2
        rw [hal] at h1 h2
        rw [(hrest r).2.2.2.1, (hrest r).2.2.2.2]
        by_cases e : r = p
        · simp [e]
        · rw [if_neg e, if_neg e]; exact T.down h1 r h2
      · intro h1
        rw [hal] at h1
        have h3 := countP_close (fun r => (s.pr r).closed) ps (p := p) (by simpa using hp.2.2.1)
        rw [hsnd h1, List.countP_eq_length_filter, T.down h1 p hp.1, if_neg hp.2.2.1, slots, slotsFrom_length, T.snd h1]
        simp only [(hrest _).2.2.2.2]
        omega
      · intro h1 k r hr
        rw [hal] at h1
        rw [(hrest q).2.1, (hrest r).2.2.1]
        exact T.inb h1 k r hr
      · intro h1
        rw [hal] at h1
        rw [(hrest q).2.1]
        exact T.inr h1
    · cases h

/-- The upstream of a process and the kind of its results stay. -/
theorem const_step {s t : St} {a : Op} (I : Inv s) (h : step s a = .ok t) {q : Nat} (hlt : q < s.n) :
    q < t.n ∧ (t.pr q).up = (s.pr q).up ∧ (t.pr q).mo = (s.pr q).mo ∧ ((t.pr q).alive = true → (s.pr q).alive = true) := by
  have hatt : ∀ (ps : List Nat) (v : Kind), (∀ p ∈ ps, (s.pr p).alive = true) →
      q < (Life.attach s ps v).n ∧ ((Life.attach s ps v).pr q).up = (s.pr q).up ∧ ((Life.attach s ps v).pr q).mo = (s.pr q).mo ∧
        (((Life.attach s ps v).pr q).alive = true → (s.pr q).alive = true) := by
    intro ps v hps
    rw [attach_pr I hps, if_neg (by omega), attach_n]
    exact ⟨by omega, rfl, rfl, id⟩
  have hone : ∀ (p : Nat) (x : Proc), x.alive = (s.pr p).alive → x.up = (s.pr p).up → x.mo = (s.pr p).mo →
      (upd s.pr p x q).up = (s.pr q).up ∧ (upd s.pr p x q).mo = (s.pr q).mo ∧ ((upd s.pr p x q).alive = true → (s.pr q).alive = true) := by
    intro p x h1 h2 h3
    simp only [upd]
    split
    · next e => rw [e, ← h1]; exact ⟨h2, h3, id⟩
    · exact ⟨rfl, rfl, id⟩
  cases a with
  | chan v =>
    cases h
    rw [add_n]
    refine ⟨by omega, ?_⟩
    simp only [add, upd, if_neg (show q ≠ s.n by omega)]
    exact ⟨trivial, trivial, id⟩
  | obj b =>
    simp only [Life.step] at h
    split at h
    · next ho =>
      split at h
      · next u hu =>
        have hn : u.cnt.length = s.hs.cnt.length := step_length ho hu
        cases h
        have S := fold_same (release_same s.n) (lost s.hs b) { s with hs := u }
        exact ⟨by rw [S.n, St.n]; exact hn ▸ hlt, S.up q, S.mo q, S.dead q⟩
      · cases h
      · cases h
    · cases h
  | pipe i v =>
    simp only [Life.step] at h
    split at h
    · cases h
    · next x hx =>
      split at h
      · cases h
      · next p hp =>
        split at h
        · cases h
        · cases h
          refine hatt _ _ (fun q hq => ?_)
          rw [List.mem_singleton] at hq; subst hq
          exact I.C.held _ (.inl ⟨i, x.ready, by rw [Has, hx, ← hp]⟩)
  | merge is v =>
    simp only [Life.step] at h
    split at h
    · cases h
    · cases h
    · next ps hps =>
      split at h
      · cases h
      · cases h
        exact hatt _ _ (fun q hq => I.C.held _ (.inl (targets_has hps q hq)))
  | lock p =>
    simp only [Life.step] at h
    split at h
    · cases h; exact ⟨hlt, rfl, rfl, id⟩
    · cases h
  | unlock k =>
    simp only [Life.step] at h
    split at h
    · next p hp =>
      cases h
      have S := release_same s.n { s with locks := s.locks.set k none } p
      exact ⟨by rw [S.n]; exact hlt, S.up q, S.mo q, S.dead q⟩
    · cases h
  | addSender p =>
    simp only [Life.step] at h
    split at h
    · cases h; exact ⟨hlt, hone p _ rfl rfl rfl⟩
    · cases h
  | removeSender p =>
    simp only [Life.step] at h
    split at h
    · cases h; exact ⟨hlt, hone p _ rfl rfl rfl⟩
    · cases h
  | send p w =>
    simp only [Life.step] at h
    split at h
    · cases h
      split
      · exact ⟨hlt, hone p _ rfl rfl rfl⟩
      · exact ⟨hlt, rfl, rfl, id⟩
    · cases h
  | start p =>
    simp only [Life.step] at h
    split at h
    · cases h; exact ⟨hlt, hone p _ rfl rfl rfl⟩
    · cases h
  | emit p w =>
    simp only [Life.step] at h
    split at h
    · cases h
      have h1 := hone p { s.pr p with outs := (s.pr p).outs ++ [w] } rfl rfl rfl
      refine ⟨hlt, ?_, ?_, fun h => h1.2.2 ?_⟩
      · rw [← h1.1]; simp only [deliver]; split <;> rfl
      · rw [← h1.2.1]; simp only [deliver]; split <;> rfl
      · simp only [deliver_alive] at h; exact h
    · cases h
  | finish p =>
    simp only [Life.step] at h
    split at h
    · cases h
      have h1 := hone p { s.pr p with closed := true, down := [] } rfl rfl rfl
      refine ⟨hlt, ?_, ?_, fun h => h1.2.2 ?_⟩
      · rw [← h1.1]; simp only [dropSenders]; split <;> rfl
      · rw [← h1.2.1]; simp only [dropSenders]; split <;> rfl
      · simp only [dropSenders_alive] at h; exact h
    · cases h

theorem const_exec {s t : St} {as : List Op} (I : Inv s) (h : exec s as = .ok t) {q : Nat} (hlt : q < s.n) :
    q < t.n ∧ (t.pr q).up = (s.pr q).up ∧ (t.pr q).mo = (s.pr q).mo ∧ ((t.pr q).alive = true → (s.pr q).alive = true) := by
  induction as generalizing s with
  | nil => cases h; exact ⟨hlt, rfl, rfl, id⟩
  | cons a as ih =>
    simp only [Life.exec] at h
    split at h
    · next u hu =>
      obtain ⟨h1, h2, h3, h4⟩ := const_step I hu hlt
      obtain ⟨k1, k2, k3, k4⟩ := ih (I.step hu) h h1
      exact ⟨k1, k2.trans h2, k3.trans h3, fun h => h4 (k4 h)⟩
    · exact ih I h hlt
    · cases h
    · cases h

theorem Track.exec {s t : St} {as : List Op} {q : Nat} {ps : List Nat} (I : Inv s) (T : Track s q ps) (h : exec s as = .ok t)
    (hsp : Spares s t ps) (hps : ∀ p ∈ ps, p < s.n) : Track t q ps := by
  induction as generalizing s with
  | nil => cases h; exact T
  | cons a as ih =>
    simp only [Life.exec] at h
    split at h
    · next u hu =>
      have J := I.step hu
      refine ih J (T.step I hu ?_) h ?_ (fun p hp => (const_step I hu (hps p hp)).1)
      · intro r h1 h2 p hp hm
        obtain ⟨k1, k2, -, -⟩ := const_exec J h h2
        rw [← k2]
        exact hsp r h1 k1 p hp hm
      · intro r h1 h2 p hp hm
        rw [(const_step I hu (hps p hp)).2.2.1] at hm
        refine hsp r ?_ h2 p hp hm
        refine Nat.le_trans (Nat.le_of_not_lt fun hlt => ?_) h1
        have := (const_step I hu hlt).1
        omega
    · exact ih I T h hsp hps
    · cases h
    · cases h

/-- Attaching to processes that have not started. -/
theorem Track.new {s : St} {ps : List Nat} {v : Kind} (I : Inv s) (hne : ps ≠ []) (hps : ∀ p ∈ ps, (s.pr p).alive = true)
    (hs : ∀ p ∈ ps, (s.pr p).started = false) (hmo : ∀ p ∈ ps, (s.pr p).mo = true → ps.count p ≤ 1) : Track (Life.attach s ps v) s.n ps := by
  have hpr := attach_pr (v := v) I hps
  have hq : (Life.attach s ps v).pr s.n = ⟨v == .moveOnly, true, ps, [], ps.length, false, false, [], []⟩ := by rw [hpr, if_pos rfl]
  have hlt : ∀ p ∈ ps, p ≠ s.n := fun p hp => by have := I.C.lt p (hps p hp); omega
  refine ⟨by rw [attach_n]; omega, by rw [hq], hne, ?_, ?_, ?_, ?_⟩
  · intro _ p hp
    rw [hpr] at *
    split
    · next e => rw [e, slots, slotsFrom_nil (fun hm => hlt _ hm rfl)]; rfl
    · next e =>
      have h1 : (s.pr p).down.filter (·.1 == s.n) = [] := by
        rw [List.filter_eq_nil_iff]
        intro e he
        have := (I.C.tgt p e he).1
        simp; omega
      have h2 : ∀ x ∈ slots s.n ps p, (x.1 == s.n) = true := by
        intro x hx
        simp only [slots, slotsFrom, List.mem_map] at hx
        obtain ⟨y, -, rfl⟩ := hx
        simp
      show List.filter (·.1 == s.n) (joined (s.pr p).mo (s.pr p).down (slots s.n ps p)) = if (s.pr p).closed = true then [] else slots s.n ps p
      by_cases hm : p ∈ ps
      · rw [(I.rest p (hs p hm)).2]
        simp only [Bool.false_eq_true, if_false]
        cases hmo' : (s.pr p).mo with
        | false =>
          simp only [joined, Bool.false_eq_true, if_false, List.filter_append]
          rw [h1, List.filter_eq_self.2 h2]; rfl
        | true =>
          have hl := slotsFrom_length s.n 0 ps p
          have h3 := hmo p hm hmo'
          have h4 := List.count_pos_iff.2 hm
          match hsl : slots s.n ps p with
          | [] => rw [slots] at hsl; rw [hsl] at hl; simp at hl; omega
          | [x] =>
            have := h2 x (by rw [hsl]; simp)
            simp [joined, this]
          | x :: y :: l => rw [slots] at hsl; rw [hsl] at hl; simp at hl; omega
      · rw [slots, slotsFrom_nil hm, joined_nil, h1, ite_self]
  · intro _
    rw [hq]
    symm
    rw [List.countP_eq_length]
    intro p hp
    rw [hpr, if_neg (hlt p hp)]
    simp [(I.rest p (hs p hp)).2]
  · intro _ k p hp
    have hm := List.mem_of_getElem? hp
    rw [hq, hpr, if_neg (hlt p hm)]
    simp [(I.rest p (hs p hm)).1]
  · intro _
    rw [hq]
    exact fun _ h => absurd h List.not_mem_nil

end Verif.Life
