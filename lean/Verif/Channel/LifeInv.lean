import Verif.Channel.Life

/-!
# Invariants of processes and their owners
-/

namespace Verif.Life

open Handles (Handle get_congr objs_drop objs_add)

/-! ## Receivers -/

theorem get_set {s : Handles.St} {i j : Nat} {o : Option Handle} :
    (s.set i o).get j = if i = j ∧ i < s.objs.length then o else s.get j := by
  simp only [Handles.St.get, Handles.St.set, List.getElem?_set]
  by_cases h : i = j
  · subst h
    by_cases h : i < s.objs.length
    · simp [h]
    · simp [h, List.getElem?_eq_none (Nat.le_of_not_lt h)]
  · simp [h]

theorem get_new {s : Handles.St} {j : Nat} {h : Handle} :
    (s.new h).get j = if j = s.objs.length then some h else s.get j := by
  simp only [Handles.St.get, Handles.St.new]
  rcases Nat.lt_trichotomy j s.objs.length with h1 | h1 | h1
  · rw [List.getElem?_append_left h1, if_neg (by omega)]
  · subst h1; simp
  · rw [List.getElem?_eq_none (by simp; omega), List.getElem?_eq_none (by omega), if_neg (by omega)]

theorem get_lt {s : Handles.St} {i : Nat} {h : Handle} (hi : s.get i = some h) : i < s.objs.length :=
  (Handles.get_some hi).1

/-- The receiver `i` has process `p`. -/
def Has (s : Handles.St) (i p : Nat) (r : Bool) : Prop := s.get i = some ⟨some p, r⟩

theorem drop_get {h : Handle} {s t : Handles.St} (hd : Handles.drop h s = .ok t) (i : Nat) : t.get i = s.get i :=
  get_congr (objs_drop hd).1 i

theorem add_get (p : Option Nat) (s : Handles.St) (i : Nat) : (Handles.add p s).get i = s.get i :=
  get_congr (objs_add p s) i

/-- A receiver has its process from another, and is not ready only if the other was not. -/
theorem has_of_step {s t : Handles.St} {a : Handles.Op} (ho : isObj a = true) (h : Handles.step s a = .ok t) {i p : Nat} {r : Bool}
    (hi : Has t i p r) : ∃ j r', Has s j p r' ∧ (r = false → r' = false) := by
  unfold Has at *
  cases a with
  | make v => cases ho
  | close i => cases ho
  | dflt =>
    cases h
    rw [get_new] at hi
    split at hi
    · cases hi
    · exact ⟨i, r, hi, id⟩
  | copy j =>
    simp only [Handles.step] at h
    split at h
    · next k hk =>
      cases h
      rw [add_get, get_new] at hi
      split at hi
      · cases hi; exact ⟨j, r, hk, id⟩
      · exact ⟨i, r, hi, id⟩
    · cases h
  | move j =>
    simp only [Handles.step] at h
    split at h
    · next k hk =>
      cases h
      rw [get_set, get_new] at hi
      split at hi
      · cases hi
      · split at hi
        · cases hi; exact ⟨j, r, hk, id⟩
        · exact ⟨i, r, hi, id⟩
    · cases h
  | assign j k =>
    simp only [Handles.step] at h
    split at h
    · next x y hx hy =>
      split at h
      · cases h
      · cases h
        rw [add_get, get_set] at hi
        split at hi
        · cases hi; exact ⟨j, r, hx, id⟩
        · exact ⟨i, r, hi, id⟩
    · cases h
  | moveAssign j k =>
    simp only [Handles.step] at h
    split at h
    · next x y hx hy =>
      split at h
      · cases h; exact ⟨i, r, hi, id⟩
      · cases h
        rw [get_set, get_set] at hi
        split at hi
        · cases hi
        · split at hi
          · cases hi; exact ⟨j, r, hx, id⟩
          · exact ⟨i, r, hi, id⟩
    · cases h
  | swap j k =>
    simp only [Handles.step] at h
    split at h
    · next x y hx hy =>
      cases h
      rw [get_set, get_set] at hi
      split at hi
      · cases hi; exact ⟨j, r, hx, id⟩
      · split at hi
        · cases hi; exact ⟨k, r, hy, id⟩
        · exact ⟨i, r, hi, id⟩
    · cases h
  | setReady j =>
    simp only [Handles.step] at h
    split at h
    · next x hx =>
      cases hd : Handles.drop x s with
      | ok u =>
        rw [hd] at h; cases h
        rw [get_set, drop_get hd] at hi
        split at hi
        · cases x; cases hi; exact ⟨j, _, hx, nofun⟩
        · exact ⟨i, r, hi, id⟩
      | ub => rw [hd] at h; cases h
      | invalid => rw [hd] at h; cases h
    · cases h
  | destroy j =>
    simp only [Handles.step] at h
    split at h
    · next x hx =>
      cases hd : Handles.drop x s with
      | ok u =>
        rw [hd] at h; cases h
        rw [get_set, drop_get hd] at hi
        split at hi
        · cases hi
        · exact ⟨i, r, hi, id⟩
      | ub => rw [hd] at h; cases h
      | invalid => rw [hd] at h; cases h
    · cases h

/-- A receiver keeps its process, or gives it to another, or it is lost. -/
theorem has_step {s t : Handles.St} {a : Handles.Op} (ho : isObj a = true) (h : Handles.step s a = .ok t) {i p : Nat} {r : Bool}
    (hi : Has s i p r) : (∃ j r', Has t j p r') ∨ p ∈ lost s a := by
  unfold Has at *
  have hlt := get_lt hi
  cases a with
  | make v => cases ho
  | close i => cases ho
  | dflt =>
    cases h
    exact .inl ⟨i, r, by rw [get_new, if_neg (by omega)]; exact hi⟩
  | copy j =>
    simp only [Handles.step] at h
    split at h
    · next k hk =>
      cases h
      exact .inl ⟨i, r, by rw [add_get, get_new, if_neg (by omega)]; exact hi⟩
    · cases h
  | move j =>
    simp only [Handles.step] at h
    split at h
    · next k hk =>
      cases h
      by_cases hij : i = j
      · subst hij
        rw [hi] at hk; cases hk
        refine .inl ⟨s.objs.length, r, ?_⟩
        rw [get_set, if_neg (by omega), get_new, if_pos rfl]
      · refine .inl ⟨i, r, ?_⟩
        rw [get_set, if_neg (by omega), get_new, if_neg (by omega)]; exact hi
    · cases h
  | assign j k =>
    simp only [Handles.step] at h
    split at h
    · next x y hx hy =>
      split at h
      · cases h
      · cases h
        by_cases hik : i = k
        · subst hik; exact .inr (by simp [lost, hi])
        · exact .inl ⟨i, r, by rw [add_get, get_set, if_neg (by omega)]; exact hi⟩
    · cases h
  | moveAssign j k =>
    simp only [Handles.step] at h
    split at h
    · next x y hx hy =>
      split at h
      · cases h; exact .inl ⟨i, r, hi⟩
      · next hjk =>
        cases h
        by_cases hik : i = k
        · subst hik; exact .inr (by simp [lost, hi, hjk])
        · by_cases hij : i = j
          · subst hij; rw [hi] at hx; cases hx
            refine .inl ⟨k, r, ?_⟩
            rw [get_set, if_neg (by omega), get_set, if_pos ⟨rfl, get_lt hy⟩]
          · exact .inl ⟨i, r, by rw [get_set, if_neg (by omega), get_set, if_neg (by omega)]; exact hi⟩
    · cases h
  | swap j k =>
    simp only [Handles.step] at h
    split at h
    · next x y hx hy =>
      cases h
      have hj := get_lt hx
      have hk := get_lt hy
      by_cases hij : i = j
      · subst hij; rw [hi] at hx; cases hx
        refine .inl ⟨k, r, ?_⟩
        rw [get_set, if_pos ⟨rfl, by simpa [Handles.St.set] using hk⟩]
      · by_cases hik : i = k
        · subst hik; rw [hi] at hy; cases hy
          refine .inl ⟨j, r, ?_⟩
          rw [get_set, if_neg (by omega), get_set, if_pos ⟨rfl, hj⟩]
        · exact .inl ⟨i, r, by rw [get_set, if_neg (by omega), get_set, if_neg (by omega)]; exact hi⟩
    · cases h
  | setReady j =>
    simp only [Handles.step] at h
    split at h
    · next x hx =>
      cases hd : Handles.drop x s with
      | ok u =>
        rw [hd] at h; cases h
        by_cases hij : i = j
        · subst hij; rw [hi] at hx; cases hx
          refine .inl ⟨i, true, ?_⟩
          rw [get_set, if_pos ⟨rfl, by rw [(objs_drop hd).1]; exact hlt⟩]
        · exact .inl ⟨i, r, by rw [get_set, if_neg (by omega), drop_get hd]; exact hi⟩
      | ub => rw [hd] at h; cases h
      | invalid => rw [hd] at h; cases h
    · cases h
  | destroy j =>
    simp only [Handles.step] at h
    split at h
    · next x hx =>
      cases hd : Handles.drop x s with
      | ok u =>
        rw [hd] at h; cases h
        by_cases hij : i = j
        · subst hij; exact .inr (by simp [lost, hi])
        · exact .inl ⟨i, r, by rw [get_set, if_neg (by omega), drop_get hd]; exact hi⟩
      | ub => rw [hd] at h; cases h
      | invalid => rw [hd] at h; cases h
    · cases h

theorem lost_has {s : Handles.St} {a : Handles.Op} {p : Nat} (h : p ∈ lost s a) : ∃ i r, Has s i p r := by
  have key : ∀ j, p ∈ ((s.get j).bind (·.p)).toList → ∃ i r, Has s i p r := by
    intro j hj
    cases hx : s.get j with
    | none => simp [hx] at hj
    | some x =>
      obtain ⟨q, r⟩ := x
      cases q with
      | none => simp [hx] at hj
      | some q => simp [hx] at hj; subst hj; exact ⟨j, r, hx⟩
  cases a <;> simp only [lost] at h <;> try exact absurd h List.not_mem_nil
  · exact key _ h
  · split at h
    · exact absurd h List.not_mem_nil
    · exact key _ h
  · exact key _ h

/-- Operations of receivers make no processes. -/
theorem step_length {s t : Handles.St} {a : Handles.Op} (ho : isObj a = true) (h : Handles.step s a = .ok t) :
    t.cnt.length = s.cnt.length := by
  have hl := Handles.length_add
  have hb : ∀ {x : Handle} {f : Handles.St → Handles.St}, (∀ u, (f u).cnt = u.cnt) →
      (Handles.drop x s).bind (fun u => .ok (f u)) = .ok t → t.cnt.length = s.cnt.length := by
    intro x f hf h
    cases hd : Handles.drop x s with
    | ok u => rw [hd] at h; cases h; rw [hf]; exact (objs_drop hd).2
    | ub => rw [hd] at h; cases h
    | invalid => rw [hd] at h; cases h
  cases a <;> first | cases ho | skip
  all_goals
    simp only [Handles.step] at h
    repeat' split at h
    all_goals first
      | cases h; done
      | exact hb (f := fun u => Handles.St.set u _ _) (fun _ => rfl) h
      | (cases h; simp [Handles.St.new, Handles.St.set, hl])

/-! ## Owners -/

/-- Some owner outside of the processes: a receiver or a locked pointer. -/
def Held (s : St) (p : Nat) : Prop := (∃ i r, Has s.hs i p r) ∨ some p ∈ s.locks

theorem owned_iff {s : St} {p : Nat} : owned s p = true ↔ Held s p ∨ ∃ q < s.n, (s.pr q).alive = true ∧ p ∈ (s.pr q).up := by
  have h1 : (s.hs.objs.any (fun o => match o with
    | some h => h.p == some p
    | none => false)) = true ↔ ∃ i r, Has s.hs i p r := by
    rw [List.any_eq_true]
    constructor
    · rintro ⟨o, ho, hp⟩
      obtain ⟨i, hi, rfl⟩ := List.mem_iff_getElem.1 ho
      cases hx : s.hs.objs[i] with
      | none => simp [hx] at hp
      | some h =>
        obtain ⟨q, r⟩ := h
        simp [hx] at hp
        subst hp
        exact ⟨i, r, by simp [Has, Handles.St.get, List.getElem?_eq_getElem hi, hx]⟩
    · rintro ⟨i, r, hi⟩
      obtain ⟨hlt, hx⟩ := Handles.get_some hi
      exact ⟨some ⟨some p, r⟩, List.mem_of_getElem? hx, by simp⟩
  have h2 : s.locks.any (· == some p) = true ↔ some p ∈ s.locks := by
    rw [List.any_eq_true]; constructor
    · rintro ⟨o, ho, hp⟩; simp at hp; subst hp; exact ho
    · intro h; exact ⟨_, h, by simp⟩
  have h3 : ((List.range s.n).any fun q => (s.pr q).alive && (s.pr q).up.contains p) = true ↔
      ∃ q < s.n, (s.pr q).alive = true ∧ p ∈ (s.pr q).up := by
    rw [List.any_eq_true]; constructor
    · rintro ⟨q, hq, hp⟩; simp at hq hp; exact ⟨q, hq, hp⟩
    · rintro ⟨q, hq, hp⟩; exact ⟨q, by simpa using hq, by simpa using hp⟩
  rw [owned, Bool.or_eq_true, Bool.or_eq_true, h2, h3]
  exact or_congr_left (or_congr_left h1)

/-- What the destruction of processes does not change. -/
structure Same (s t : St) : Prop where
  hs : t.hs = s.hs
  locks : t.locks = s.locks
  mo : ∀ q, (t.pr q).mo = (s.pr q).mo
  up : ∀ q, (t.pr q).up = (s.pr q).up
  dead : ∀ q, (t.pr q).alive = true → (s.pr q).alive = true
  started : ∀ q, (t.pr q).started = (s.pr q).started
  closed : ∀ q, (t.pr q).closed = (s.pr q).closed
  outs : ∀ q, (t.pr q).outs = (s.pr q).outs
  inbox : ∀ q, (t.pr q).inbox = (s.pr q).inbox
  /-- a process that exists keeps its receivers and, if all that have been attached to a destroyed process are gone, its senders -/
  down : ∀ q, (t.pr q).alive = true → (t.pr q).down = (s.pr q).down

theorem Same.refl (s : St) : Same s s := ⟨rfl, rfl, fun _ => rfl, fun _ => rfl, fun _ h => h, fun _ => rfl, fun _ => rfl, fun _ => rfl, fun _ => rfl, fun _ _ => rfl⟩

theorem Same.trans {s t u : St} (a : Same s t) (b : Same t u) : Same s u where
  hs := b.hs.trans a.hs
  locks := b.locks.trans a.locks
  mo q := (b.mo q).trans (a.mo q)
  up q := (b.up q).trans (a.up q)
  dead q h := a.dead q (b.dead q h)
  started q := (b.started q).trans (a.started q)
  closed q := (b.closed q).trans (a.closed q)
  outs q := (b.outs q).trans (a.outs q)
  inbox q := (b.inbox q).trans (a.inbox q)
  down q h := (b.down q h).trans (a.down q (b.dead q h))

theorem Same.n {s t : St} (h : Same s t) : t.n = s.n := by simp [St.n, h.hs]

theorem Same.held {s t : St} (h : Same s t) (p : Nat) : Held t p ↔ Held s p := by simp [Held, h.hs, h.locks]

theorem dropSenders_alive (d : List (Nat × Nat)) (f : Nat → Proc) (q : Nat) : (dropSenders d f q).alive = (f q).alive := by
  unfold dropSenders; split <;> rfl

theorem kill_alive {s : St} {p q : Nat} : ((kill s p).pr q).alive = ((s.pr q).alive && q != p) := by
  simp only [kill, dropSenders_alive, upd]
  split
  · next h => simp [h]
  · next h => simp [h]

theorem kill_same {s : St} {p : Nat} : Same s (kill s p) := by
  constructor
  · rfl
  · rfl
  all_goals intro q
  case dead => intro h; rw [kill_alive] at h; simp at h; exact h.1
  case down =>
    intro h; rw [kill_alive] at h; simp at h
    simp only [kill, dropSenders, upd, if_neg h.2]; split <;> rfl
  all_goals
    simp only [kill, dropSenders, upd]
    by_cases hq : q = p
    · subst hq; simp
    · simp only [if_neg hq]; split <;> rfl

theorem fold_same {α : Type} {f : St → α → St} (hf : ∀ s a, Same s (f s a)) (l : List α) (s : St) : Same s (l.foldl f s) := by
  induction l generalizing s with
  | nil => exact .refl s
  | cons a l ih => exact (hf s a).trans (ih _)

theorem release_same : ∀ (f : Nat) (s : St) (p : Nat), Same s (release f s p)
  | 0, s, p => .refl s
  | f + 1, s, p => by
    unfold release
    split
    · exact kill_same.trans (fold_same (release_same f) _ _)
    · exact .refl s

/-- All owners' processes exist. -/
structure Closed (s : St) : Prop where
  held : ∀ p, Held s p → (s.pr p).alive = true
  up : ∀ q, (s.pr q).alive = true → ∀ u ∈ (s.pr q).up, (s.pr u).alive = true
  lt : ∀ q, (s.pr q).alive = true → q < s.n
  low : ∀ q, ∀ u ∈ (s.pr q).up, u < q
  tgt : ∀ p, ∀ e ∈ (s.pr p).down, e.1 < s.n ∧ p ∈ (s.pr e.1).up

theorem kill_down {s : St} {p q : Nat} {e : Nat × Nat} (h : e ∈ ((kill s p).pr q).down) : e ∈ (s.pr q).down := by
  simp only [kill, dropSenders, upd] at h
  by_cases hq : q = p
  · subst hq; simp at h
  · simp only [if_neg hq] at h; split at h <;> exact h

theorem Closed.kill {s : St} {p : Nat} (C : Closed s) (hp : owned s p = false) : Closed (kill s p) := by
  have hs := @kill_same s p
  have hno : ¬(Held s p ∨ ∃ q < s.n, (s.pr q).alive = true ∧ p ∈ (s.pr q).up) := fun h => by
    rw [← owned_iff, hp] at h; cases h
  constructor
  · intro q hq
    rw [hs.held] at hq
    rw [kill_alive]
    have : q ≠ p := fun e => hno (.inl (e ▸ hq))
    simp [C.held q hq, this]
  · intro q hq u hu
    rw [hs.up] at hu
    have ha := hs.dead q hq
    rw [kill_alive]
    have : u ≠ p := fun e => hno (.inr ⟨q, C.lt q ha, ha, e ▸ hu⟩)
    simp [C.up q ha u hu, this]
  · intro q hq; rw [hs.n]; exact C.lt q (hs.dead q hq)
  · intro q u hu; rw [hs.up] at hu; exact C.low q u hu
  · intro q e he; rw [hs.n, hs.up]; exact C.tgt q e (kill_down he)

theorem Closed.fold {f : St → Nat → St} (hf : ∀ s p, Closed s → Closed (f s p)) (l : List Nat) {s : St} (C : Closed s) : Closed (l.foldl f s) := by
  induction l generalizing s with
  | nil => exact C
  | cons a l ih => exact ih (hf s a C)

theorem Closed.release : ∀ (f : Nat) (s : St) (p : Nat), Closed s → Closed (release f s p)
  | 0, _, _, C => C
  | f + 1, s, p, C => by
    unfold Life.release
    split
    · next h =>
      simp at h
      exact Closed.fold (Closed.release f) _ (C.kill h.2)
    · exact C

/-- Destroying a process takes no sender from a process that exists. -/
theorem kill_snd {s : St} {p q : Nat} (C : Closed s) (hp : owned s p = false) (hq : ((kill s p).pr q).alive = true) :
    ((kill s p).pr q).snd = (s.pr q).snd := by
  rw [kill_alive] at hq
  simp at hq
  have h : (s.pr p).down.countP (·.1 == q) = 0 := by
    rw [List.countP_eq_zero]
    intro e he hc
    simp at hc
    subst hc
    have := owned_iff.2 (.inr ⟨e.1, C.lt _ hq.1, hq.1, (C.tgt p e he).2⟩)
    rw [hp] at this; cases this
  simp only [kill, dropSenders, upd, if_neg hq.2, hq.1, if_true, h]; rfl

theorem fold_snd {f : St → Nat → St} (hf : ∀ s p, Closed s → Closed (f s p) ∧ Same s (f s p) ∧ ∀ q, ((f s p).pr q).alive = true → ((f s p).pr q).snd = (s.pr q).snd)
    (l : List Nat) {s : St} (C : Closed s) {q : Nat} (hq : ((l.foldl f s).pr q).alive = true) : ((l.foldl f s).pr q).snd = (s.pr q).snd := by
  induction l generalizing s with
  | nil => rfl
  | cons a l ih =>
    obtain ⟨h1, h2, h3⟩ := hf s a C
    rw [List.foldl_cons] at hq ⊢
    rw [ih h1 hq]
    refine h3 q ?_
    have : ∀ (l : List Nat) (s : St), Closed s → ((l.foldl f s).pr q).alive = true → (s.pr q).alive = true := by
      intro l
      induction l with
      | nil => exact fun _ _ h => h
      | cons a l ih => intro s C h; exact (hf s a C).2.1.dead q (ih _ (hf s a C).1 h)
    exact this l _ h1 hq

theorem release_snd : ∀ (f : Nat) (s : St) (p : Nat), Closed s → ∀ q, ((release f s p).pr q).alive = true → ((release f s p).pr q).snd = (s.pr q).snd
  | 0, _, _, _, _, _ => rfl
  | f + 1, s, p, C, q, hq => by
    unfold release at *
    split at hq
    · next h =>
      simp at h
      have h1 : ((kill s p).pr q).alive = true := (fold_same (release_same f) _ _).dead q hq
      rw [if_pos (by simp [h]), fold_snd (fun s p C => ⟨C.release f s p, release_same f s p, release_snd f s p C⟩) _ (C.kill h.2) hq,
        kill_snd C h.2 h1]
    · next h => rw [if_neg h]

/-- A process without owner. -/
def Bad (s : St) (q : Nat) : Prop := (s.pr q).alive = true ∧ owned s q = false

theorem bad_kill {s : St} {p q : Nat} (C : Closed s) (h : Bad (kill s p) q) : (Bad s q ∨ q ∈ (s.pr p).up) ∧ q ≠ p := by
  have hs := @kill_same s p
  obtain ⟨h1, h2⟩ := h
  have h3 : q ≠ p := by rw [kill_alive] at h1; simp at h1; exact h1.2
  refine ⟨?_, h3⟩
  by_cases hb : owned s q = true
  · right
    have h4 : ¬ (Held (kill s p) q ∨ ∃ r < (kill s p).n, ((kill s p).pr r).alive = true ∧ q ∈ ((kill s p).pr r).up) := fun h => by
      rw [← owned_iff, h2] at h; cases h
    rcases owned_iff.1 hb with hh | ⟨r, hr, ha, hu⟩
    · exact absurd (.inl ((hs.held q).2 hh)) h4
    · by_cases hrp : r = p
      · subst hrp; exact hu
      · exfalso; apply h4; right
        refine ⟨r, by rw [hs.n]; exact hr, by rw [kill_alive]; simp [ha, hrp], by rw [hs.up]; exact hu⟩
  · left; exact ⟨hs.dead q h1, by simpa using hb⟩

theorem bad_fold {f : Nat} (hf : ∀ s p q, Closed s → p < f → Bad (release f s p) q → Bad s q ∧ q ≠ p) (l : List Nat) (hl : ∀ u ∈ l, u < f)
    {s : St} (C : Closed s) {q : Nat} (h : Bad (l.foldl (release f) s) q) : Bad s q ∧ q ∉ l := by
  induction l generalizing s with
  | nil => exact ⟨h, List.not_mem_nil⟩
  | cons a l ih =>
    obtain ⟨h1, h2⟩ := ih (fun u hu => hl u (List.mem_cons_of_mem _ hu)) (C.release f _ _) h
    obtain ⟨h3, h4⟩ := hf s a q C (hl a List.mem_cons_self) h1
    exact ⟨h3, by simp [h4, h2]⟩

/-- `release` destroys the process if it has no owner, and all that it was the last owner of. -/
theorem bad_release : ∀ (f : Nat) (s : St) (p q : Nat), Closed s → p < f → Bad (release f s p) q → Bad s q ∧ q ≠ p
  | 0, _, _, _, _, h, _ => absurd h (Nat.not_lt_zero _)
  | f + 1, s, p, q, C, hp, h => by
    unfold release at h
    split at h
    · next hb =>
      simp at hb
      obtain ⟨h1, h2⟩ := bad_fold (bad_release f) _ (fun u hu => by have := C.low p u hu; omega) (C.kill hb.2) h
      obtain ⟨h3, h4⟩ := bad_kill C h1
      exact ⟨h3.resolve_right h2, h4⟩
    · next hb =>
      refine ⟨h, fun e => hb ?_⟩
      subst e; simp [h.1, h.2]

end Verif.Life
