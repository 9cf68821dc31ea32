import Verif.Channel.LifeInv

/-!
# The invariants hold in all states
-/

namespace Verif.Life

open Handles (Handle)

structure Inv (s : St) : Prop where
  C : Closed s
  good : ∀ p, (s.pr p).alive = true → owned s p = true
  H : Handles.Inv s.hs
  fresh : ∀ p, s.n ≤ p → s.pr p = .none
  st : ∀ p c, (s.pr p).started = true → s.hs.cnt[p]? = some (some c) → ∀ i, ¬ Has s.hs i p false
  rest : ∀ p, (s.pr p).started = false → (s.pr p).outs = [] ∧ (s.pr p).closed = false

/-- Nothing is created or destroyed. -/
structure Keep (s t : St) : Prop where
  hs : t.hs = s.hs
  locks : t.locks = s.locks
  up : ∀ q, (t.pr q).up = (s.pr q).up
  alive : ∀ q, (t.pr q).alive = (s.pr q).alive

theorem Keep.owned {s t : St} (K : Keep s t) (p : Nat) : owned t p = owned s p := by
  simp only [Life.owned, St.n, K.hs, K.locks, K.up, K.alive]

theorem Keep.held {s t : St} (K : Keep s t) (p : Nat) : Held t p ↔ Held s p := by simp [Held, K.hs, K.locks]

theorem Keep.n {s t : St} (K : Keep s t) : t.n = s.n := by simp [St.n, K.hs]

theorem Keep.closed {s t : St} (K : Keep s t) (C : Closed s) (hd : ∀ p, ∀ e ∈ (t.pr p).down, e ∈ (s.pr p).down) : Closed t where
  held p h := by rw [K.alive]; exact C.held p ((K.held p).1 h)
  up q h u hu := by rw [K.alive] at *; rw [K.up] at hu; exact C.up q h u hu
  lt q h := by rw [K.n]; rw [K.alive] at h; exact C.lt q h
  low q u hu := by rw [K.up] at hu; exact C.low q u hu
  tgt q e he := by rw [K.n, K.up]; exact C.tgt q e (hd q e he)

theorem Inv.keep {s t : St} (I : Inv s) (K : Keep s t) (hf : ∀ p, s.n ≤ p → t.pr p = s.pr p)
    (hd : ∀ p, ∀ e ∈ (t.pr p).down, e ∈ (s.pr p).down)
    (hst : ∀ p, (t.pr p).started = true → (s.pr p).started = true ∨ idle s p = true)
    (hr : ∀ p, (t.pr p).started = false → (t.pr p).outs = [] ∧ (t.pr p).closed = false) : Inv t where
  C := K.closed I.C hd
  good p h := by rw [K.owned]; rw [K.alive] at h; exact I.good p h
  H := by rw [K.hs]; exact I.H
  fresh p h := by rw [K.n] at h; rw [hf p h]; exact I.fresh p h
  st p c h hc i := by
    rw [K.hs] at *
    rcases hst p h with h1 | h1
    · exact I.st p c h1 hc i
    · intro hh
      simp [idle, hc] at h1
      have := I.H.le p c hc
      have h2 : 0 < Handles.pending s.hs p :=
        List.countP_pos_iff.2 ⟨_, List.mem_of_getElem? (Handles.get_some hh).2, by simp [Handles.holds]⟩
      omega
  rest := hr

theorem Inv.one {s : St} (I : Inv s) {p : Nat} {x : Proc} (hlt : p < s.n) (hu : x.up = (s.pr p).up) (ha : x.alive = (s.pr p).alive)
    (hd : ∀ e ∈ x.down, e ∈ (s.pr p).down) (hst : x.started = true → (s.pr p).started = true ∨ idle s p = true)
    (hr : x.started = false → x.outs = [] ∧ x.closed = false) : Inv { s with pr := upd s.pr p x } := by
  have h : ∀ q, upd s.pr p x q = if q = p then x else s.pr q := fun q => rfl
  refine I.keep ⟨rfl, rfl, fun q => ?_, fun q => ?_⟩ (fun q hq => ?_) (fun q => ?_) (fun q => ?_) (fun q => ?_) <;>
    simp only [h] <;> split
  case refine_1.isTrue hq => subst hq; exact hu
  case refine_2.isTrue hq => subst hq; exact ha
  case refine_3.isTrue hq => omega
  case refine_4.isTrue hq => subst hq; exact hd
  case refine_5.isTrue hq => subst hq; exact hst
  case refine_6.isTrue hq => exact hr
  case refine_1.isFalse => rfl
  case refine_2.isFalse => rfl
  case refine_3.isFalse => rfl
  case refine_4.isFalse => exact fun _ h => h
  case refine_5.isFalse => exact .inl
  case refine_6.isFalse => exact I.rest q

theorem Inv.lt_of_snd {s : St} (I : Inv s) {p : Nat} (h : 0 < (s.pr p).snd) : p < s.n := by
  by_cases hp : p < s.n
  · exact hp
  · rw [I.fresh p (Nat.le_of_not_lt hp)] at h; exact absurd h (Nat.lt_irrefl _)

theorem Inv.of_same {s t : St} (C : Closed t) (S : Same s t) (good : ∀ p, (t.pr p).alive = true → owned t p = true)
    (H : Handles.Inv s.hs) (fresh : ∀ p, s.n ≤ p → s.pr p = .none)
    (st : ∀ p c, (s.pr p).started = true → s.hs.cnt[p]? = some (some c) → ∀ i, ¬ Has s.hs i p false)
    (rest : ∀ p, (s.pr p).started = false → (s.pr p).outs = [] ∧ (s.pr p).closed = false)
    (hf : ∀ p, s.n ≤ p → t.pr p = s.pr p) : Inv t where
  C := C
  good := good
  H := by rw [S.hs]; exact H
  fresh p h := by rw [S.n] at h; rw [hf p h]; exact fresh p h
  st p c h hc i := by rw [S.started] at h; rw [S.hs] at *; exact st p c h hc i
  rest p h := by rw [S.started] at h; rw [S.outs, S.closed]; exact rest p h

/-- What destruction leaves alone, besides `Same`. -/
structure Less (s t : St) : Prop where
  fresh : ∀ p, (s.pr p) = .none → t.pr p = .none

theorem kill_less {s : St} {p : Nat} (hp : (s.pr p).alive = true) : Less s (kill s p) where
  fresh q h := by
    have : q ≠ p := fun e => by subst e; rw [h] at hp; cases hp
    simp only [kill, dropSenders, upd, if_neg this, h]; rfl

theorem Less.refl (s : St) : Less s s := ⟨fun _ h => h⟩

theorem Less.trans {s t u : St} (a : Less s t) (b : Less t u) : Less s u :=
  ⟨fun p h => b.fresh p (a.fresh p h)⟩

theorem Less.fold {f : St → Nat → St} (hf : ∀ s p, Less s (f s p)) (l : List Nat) (s : St) : Less s (l.foldl f s) := by
  induction l generalizing s with
  | nil => exact .refl s
  | cons a l ih => exact (hf s a).trans (ih _)

theorem release_less : ∀ (f : Nat) (s : St) (p : Nat), Less s (release f s p)
  | 0, s, _ => .refl s
  | f + 1, s, p => by
    unfold release
    split
    · next h => simp at h; exact (kill_less h.1).trans (Less.fold (release_less f) _ _)
    · exact .refl s

/-- Owners are gone; then the processes without owner are destroyed. -/
theorem Inv.collect {s : St} (l : List Nat) (C : Closed s) (hl : ∀ p ∈ l, p < s.n)
    (good : ∀ p, (s.pr p).alive = true → owned s p = true ∨ p ∈ l)
    (H : Handles.Inv s.hs) (fresh : ∀ p, s.n ≤ p → s.pr p = .none)
    (st : ∀ p c, (s.pr p).started = true → s.hs.cnt[p]? = some (some c) → ∀ i, ¬ Has s.hs i p false)
    (rest : ∀ p, (s.pr p).started = false → (s.pr p).outs = [] ∧ (s.pr p).closed = false) :
    Inv (l.foldl (release s.n) s) := by
  have L := Less.fold (release_less s.n) l s
  refine .of_same (Closed.fold (Closed.release s.n) l C) (fold_same (release_same s.n) l s) ?_ H fresh st rest
    (fun p hp => by rw [L.fresh p (fresh p hp), fresh p hp])
  intro p hp
  by_cases hb : owned (l.foldl (release s.n) s) p = true
  · exact hb
  · obtain ⟨h1, h2⟩ := bad_fold (bad_release s.n) l hl C ⟨hp, by simpa using hb⟩
    rcases good p h1.1 with h3 | h3
    · rw [h1.2] at h3; cases h3
    · exact absurd h3 h2

/-- The downstream with more senders. -/
def joined (mo : Bool) (d l : List (Nat × Nat)) : List (Nat × Nat) :=
  if mo then (match l.getLast? with
    | some e => [e]
    | none => d) else d ++ l

theorem joined_nil (mo : Bool) (d : List (Nat × Nat)) : joined mo d [] = d := by cases mo <;> simp [joined]

theorem joined_cons (mo : Bool) (d l : List (Nat × Nat)) (e : Nat × Nat) : joined mo ((if mo then [] else d) ++ [e]) l = joined mo d (e :: l) := by
  cases mo with
  | false => simp [joined]
  | true =>
    cases l with
    | nil => rfl
    | cons a l => simp [joined, List.getLast?_cons]

theorem mem_joined {mo : Bool} {d l : List (Nat × Nat)} {e : Nat × Nat} (h : e ∈ joined mo d l) : e ∈ d ∨ e ∈ l := by
  cases mo with
  | false => simpa [joined] using h
  | true =>
    simp only [joined, if_true] at h
    split at h
    · next x hx => rw [List.mem_singleton] at h; subst h; exact .inr (List.mem_of_getLast? hx)
    · exact .inl h

/-- The processes to which `map` adds senders. -/
theorem map_apply (q : Nat) (ps : List Nat) (k : Nat) (f : Nat → Proc) (p : Nat) :
    map q ps k f p = { f p with down := joined (f p).mo (f p).down (((ps.zipIdx k).filter (·.1 == p)).map fun e => (q, e.2)) } := by
  induction ps generalizing k f with
  | nil => simp [map, joined_nil]
  | cons a ps ih =>
    rw [map, ih, List.zipIdx_cons, List.filter_cons, upd]
    by_cases h : p = a
    · subst h; simp [joined_cons]
    · have : ¬ (a == p) = true := by simpa using fun e => h e.symm
      rw [if_neg h, if_neg this]

theorem add_has {s : St} {v : Kind} {x : Proc} {i p : Nat} {r : Bool} :
    Has (add s v x).hs i p r ↔ Has s.hs i p r ∨ (i = s.hs.objs.length ∧ p = s.n ∧ r = false) := by
  have h : (add s v x).hs.get i = (s.hs.new ⟨some s.n, false⟩).get i := rfl
  rw [Has, h, get_new]
  split
  · next h =>
    constructor
    · intro h1; cases h1; exact .inr ⟨h, rfl, rfl⟩
    · rintro (h1 | ⟨-, rfl, rfl⟩)
      · have := get_lt h1; omega
      · rfl
  · next h =>
    constructor
    · exact .inl
    · rintro (h1 | h1)
      · exact h1
      · exact absurd h1.1 h

theorem add_n {s : St} {v : Kind} {x : Proc} : (add s v x).n = s.n + 1 := by simp [add, St.n]

theorem add_held {s : St} {v : Kind} {x : Proc} {p : Nat} : Held (add s v x) p ↔ Held s p ∨ p = s.n := by
  unfold Held
  constructor
  · rintro (⟨i, r, h⟩ | h)
    · rcases add_has.1 h with h | ⟨-, h, -⟩
      · exact .inl (.inl ⟨i, r, h⟩)
      · exact .inr h
    · exact .inl (.inr h)
  · rintro ((⟨i, r, h⟩ | h) | rfl)
    · exact .inl ⟨i, r, add_has.2 (.inl h)⟩
    · exact .inr h
    · exact .inl ⟨_, _, add_has.2 (.inr ⟨rfl, rfl, rfl⟩)⟩

theorem attach_n {s : St} {ps : List Nat} {v : Kind} : (attach s ps v).n = s.n + 1 := add_n (x := ⟨v == .moveOnly, true, ps, [], ps.length, false, false, [], []⟩)

theorem attach_pr {s : St} {ps : List Nat} {v : Kind} (I : Inv s) (hps : ∀ p ∈ ps, (s.pr p).alive = true) (p : Nat) :
    (attach s ps v).pr p = if p = s.n then ⟨v == .moveOnly, true, ps, [], ps.length, false, false, [], []⟩
      else { s.pr p with down := joined (s.pr p).mo (s.pr p).down (((ps.zipIdx).filter (·.1 == p)).map fun e => (s.n, e.2)) } := by
  have h : (attach s ps v).pr p = map s.n ps 0 (upd s.pr s.n ⟨v == .moveOnly, true, ps, [], ps.length, false, false, [], []⟩) p := rfl
  rw [h, map_apply, upd]
  split
  · next h =>
    subst h
    have : (ps.zipIdx).filter (·.1 == s.n) = [] := by
      rw [List.filter_eq_nil_iff]
      rintro ⟨p, k⟩ he
      have := I.C.lt p (hps p (List.mem_of_getElem? (List.mk_mem_zipIdx_iff_getElem?.1 he)))
      simp; omega
    rw [this, List.map_nil, joined_nil]
  · rfl

theorem hmake {s : Handles.St} (v : Kind) (H : Handles.Inv s) :
    Handles.Inv { objs := s.objs ++ [some ⟨some s.cnt.length, false⟩], cnt := s.cnt ++ [if v = .void then none else some 1] } := by
  have h := H.step (a := .make (v == .void)) rfl
  have : (if v = .void then none else some 1) = if (v == .void) = true then none else some 1 := by cases v <;> rfl
  rw [this]; exact h

theorem Inv.attach {s : St} {ps : List Nat} {v : Kind} (I : Inv s) (hps : ∀ p ∈ ps, (s.pr p).alive = true) : Inv (attach s ps v) := by
  have hpr := attach_pr (v := v) I hps
  have hn := @attach_n s ps v
  have hh : ∀ p, Held (Life.attach s ps v) p ↔ Held s p ∨ p = s.n := fun p =>
    add_held (x := ⟨v == .moveOnly, true, ps, [], ps.length, false, false, [], []⟩)
  have hal : ∀ p, ((Life.attach s ps v).pr p).alive = true ↔ (s.pr p).alive = true ∨ p = s.n := by
    intro p; rw [hpr]; split <;> simp_all
  have hup : ∀ p, ((Life.attach s ps v).pr p).up = if p = s.n then ps else (s.pr p).up := by
    intro p; rw [hpr]; split <;> rfl
  have hH : Handles.Inv (Life.attach s ps v).hs := hmake v I.H
  refine ⟨⟨?_, ?_, ?_, ?_, ?_⟩, ?_, hH, ?_, ?_, ?_⟩
  · intro p h
    rw [hal]
    exact ((hh p).1 h).imp_left (I.C.held p)
  · intro q h u hu
    rw [hal, hup] at *
    split at hu
    · exact .inl (hps u hu)
    · next hq => exact .inl (I.C.up q (h.resolve_right hq) u hu)
  · intro q h
    rw [hal] at h; rw [hn]
    rcases h with h | h
    · have := I.C.lt q h; omega
    · omega
  · intro q u hu
    rw [hup] at hu
    split at hu
    · next h => subst h; exact I.C.lt u (hps u hu)
    · exact I.C.low q u hu
  · intro p e he
    rw [hn, hup]
    rw [hpr] at he
    split at he
    · exact absurd he List.not_mem_nil
    · have he := mem_joined he
      rw [List.mem_map] at he
      rcases he with he | ⟨x, hx, rfl⟩
      · have := I.C.tgt p e he
        exact ⟨by omega, by rw [if_neg (by omega)]; exact this.2⟩
      · obtain ⟨r, k⟩ := x
        rw [List.mem_filter] at hx
        have h1 : r = p := by simpa using hx.2
        subst h1
        exact ⟨Nat.lt_succ_self _, by rw [if_pos rfl]; exact List.mem_of_getElem? (List.mk_mem_zipIdx_iff_getElem?.1 hx.1)⟩
  · intro p h
    rw [owned_iff]
    rcases (hal p).1 h with h1 | h1
    · rcases owned_iff.1 (I.good p h1) with h2 | ⟨q, hq, ha, hu⟩
      · exact .inl ((hh p).2 (.inl h2))
      · refine .inr ⟨q, by omega, (hal q).2 (.inl ha), ?_⟩
        rw [hup, if_neg (by omega)]; exact hu
    · exact .inl ((hh p).2 (.inr h1))
  · intro p hp
    rw [hn] at hp
    rw [hpr, if_neg (by omega), I.fresh p (by omega)]
    have : (ps.zipIdx).filter (·.1 == p) = [] := by
      rw [List.filter_eq_nil_iff]
      rintro ⟨r, k⟩ he
      have := I.C.lt r (hps r (List.mem_of_getElem? (List.mk_mem_zipIdx_iff_getElem?.1 he)))
      simp; omega
    rw [this, List.map_nil, joined_nil]
  · intro p c h hc i hi
    rw [hpr] at h
    split at h
    · cases h
    · next hp =>
      rcases (add_has (x := ⟨v == .moveOnly, true, ps, [], ps.length, false, false, [], []⟩)).1 hi with hi | ⟨-, h1, -⟩
      · have hc' : s.hs.cnt[p]? = some (some c) := by
          have hc : (s.hs.cnt ++ [if v = .void then none else some 1])[p]? = some (some c) := hc
          rw [List.getElem?_append_left] at hc
          · exact hc
          · have := List.getElem?_eq_some_iff.1 hc
            obtain ⟨h1, -⟩ := this
            simp at h1
            simp [St.n] at hp
            omega
        exact I.st p c h hc' i hi
      · exact hp h1
  · intro p h
    rw [hpr] at *
    split
    · exact ⟨rfl, rfl⟩
    · next hp => rw [if_neg hp] at h; exact I.rest p h

theorem Inv.chan {s : St} (I : Inv s) (v : Kind) (m : Bool) (k : Nat) : Inv (add s v ⟨m, true, [], [], k, false, false, [], []⟩) := by
  have J := I.attach (ps := []) (v := v) nofun
  have hn : (Life.attach s [] v).n = (add s v ⟨m, true, [], [], k, false, false, [], []⟩).n := rfl
  refine J.keep (t := add s v ⟨m, true, [], [], k, false, false, [], []⟩) ⟨rfl, rfl, ?_, ?_⟩ ?_ ?_ ?_ ?_
  all_goals intro p
  rotate_left 2
  · intro h
    rw [attach_n] at h
    simp only [Life.attach, map, add, upd]
    rw [if_neg (by omega), if_neg (by omega)]
  rotate_left 3
  all_goals simp only [Life.attach, map, add, upd]
  · split <;> rfl
  · split <;> rfl
  · split
    · exact fun e h => h
    · exact fun e h => h
  · split
    · exact nofun
    · exact .inl
  · split
    · exact fun _ => ⟨rfl, rfl⟩
    · exact fun h => I.rest p h

theorem targets_has {s : Handles.St} {is ps : List Nat} (h : targets s is = some (some ps)) : ∀ p ∈ ps, ∃ i r, Has s i p r := by
  induction is generalizing ps with
  | nil => cases h; exact nofun
  | cons i is ih =>
    simp only [targets] at h
    split at h
    · next x qs hx hq =>
      split at h
      · next p hp =>
        cases h
        intro r hr
        rcases List.mem_cons.1 hr with rfl | hr
        · exact ⟨i, x.ready, by rw [Has, hx, ← hp]⟩
        · exact ih hq r hr
      · cases h
    · cases h
    · cases h

theorem Inv.init : Inv init := by
  refine ⟨⟨?_, ?_, ?_, ?_, ?_⟩, ?_, Handles.Inv.init, fun _ _ => rfl, ?_, ?_⟩
  · rintro p (⟨i, r, h⟩ | h)
    · simp [Has, Life.init, Handles.init, Handles.St.get] at h
    · simp [Life.init] at h
  all_goals intros; first | (exact ⟨rfl, rfl⟩) | simp_all [Life.init, Proc.none]

theorem deliver_alive (d : List (Nat × Nat)) (v : Nat) (f : Nat → Proc) (q : Nat) : (deliver d v f q).alive = (f q).alive := by
  unfold deliver; split <;> rfl

theorem Inv.step {s t : St} {a : Op} (I : Inv s) (h : step s a = .ok t) : Inv t := by
  cases a with
  | chan v => cases h; exact I.chan v _ _
  | obj a =>
    simp only [Life.step] at h
    split at h
    · next ho =>
      split at h
      · next u hu =>
        cases h
        have hn : u.cnt.length = s.hs.cnt.length := step_length ho hu
        have hn' : s.n = St.n { s with hs := u } := hn.symm
        rw [hn']
        have hheld : ∀ p, Held { s with hs := u } p → Held s p := by
          rintro p (⟨i, r, h⟩ | h)
          · obtain ⟨j, r', h, -⟩ := has_of_step ho hu h; exact .inl ⟨j, r', h⟩
          · exact .inr h
        refine Inv.collect _ ⟨fun p h => I.C.held p (hheld p h), I.C.up, fun q h => ?_, I.C.low, fun p e he => ?_⟩ ?_ ?_ (I.H.step hu) ?_ ?_ I.rest
        · rw [← hn']; exact I.C.lt q h
        · rw [← hn']; exact I.C.tgt p e he
        · intro p hp
          rw [← hn']
          obtain ⟨i, r, h⟩ := lost_has hp
          exact I.C.lt p (I.C.held p (.inl ⟨i, r, h⟩))
        · intro p hp
          rcases owned_iff.1 (I.good p hp) with (⟨i, r, h⟩ | h) | ⟨q, hq, ha, hu'⟩
          · rcases has_step ho hu h with h | h
            · exact .inl (owned_iff.2 (.inl (.inl h)))
            · exact .inr h
          · exact .inl (owned_iff.2 (.inl (.inr h)))
          · exact .inl (owned_iff.2 (.inr ⟨q, by rw [← hn']; exact hq, ha, hu'⟩))
        · intro p hp; rw [← hn'] at hp; exact I.fresh p hp
        · intro p c hp hc i hi
          obtain ⟨j, r, hj, hr⟩ := has_of_step ho hu hi
          rw [hr rfl] at hj
          rcases Handles.step_eff I.H hu hc with ⟨c', hc', -⟩ | h2
          · exact I.st p c' hp hc' j hj
          · obtain ⟨h3, -⟩ := List.getElem?_eq_some_iff.1 hc
            have := h2.1
            have h3 : p < u.cnt.length := h3
            omega
      · cases h
      · cases h
    · cases h
  | pipe i v =>
    simp only [Life.step] at h
    split at h
    · cases h
    · next x hx =>
      split at h
      · cases h
      · next p hp =>
        split at h
        · cases h
        · cases h
          refine I.attach fun q hq => ?_
          rw [List.mem_singleton] at hq; subst hq
          exact I.C.held _ (.inl ⟨i, x.ready, by rw [Has, hx, ← hp]⟩)
  | merge is v =>
    simp only [Life.step] at h
    split at h
    · cases h
    · cases h
    · next ps hps =>
      split at h
      · cases h
      · cases h
        exact I.attach fun q hq => I.C.held _ (.inl (targets_has hps q hq))
  | lock p =>
    simp only [Life.step] at h
    split at h
    · next hp =>
      cases h
      have hh : ∀ q, Held { s with locks := s.locks ++ [some p] } q ↔ Held s q ∨ q = p := by
        intro q; simp only [Held, List.mem_append, List.mem_singleton, Option.some.injEq, or_assoc]
      refine ⟨⟨?_, I.C.up, I.C.lt, I.C.low, I.C.tgt⟩, ?_, I.H, I.fresh, I.st, I.rest⟩
      · intro q h
        rcases (hh q).1 h with h | rfl
        · exact I.C.held q h
        · exact hp
      · intro q h
        rcases owned_iff.1 (I.good q h) with h | h
        · exact owned_iff.2 (.inl ((hh q).2 (.inl h)))
        · exact owned_iff.2 (.inr h)
    · cases h
  | unlock k =>
    simp only [Life.step] at h
    split at h
    · next p hp =>
      cases h
      have hh : ∀ q, Held { s with locks := s.locks.set k none } q → Held s q := by
        rintro q (h | h)
        · exact .inl h
        · rcases List.mem_or_eq_of_mem_set h with h | h
          · exact .inr h
          · cases h
      refine Inv.collect (s := { s with locks := s.locks.set k none }) [p] ⟨fun q h => I.C.held q (hh q h), I.C.up, I.C.lt, I.C.low, I.C.tgt⟩ ?_ ?_ I.H I.fresh I.st I.rest
      · intro q hq
        rw [List.mem_singleton] at hq; subst hq
        exact I.C.lt _ (I.C.held _ (.inr (List.mem_of_getElem? hp)))
      · intro q hq
        by_cases hqp : q = p
        · exact .inr (by simp [hqp])
        left
        rcases owned_iff.1 (I.good q hq) with (h | h) | h
        · exact owned_iff.2 (.inl (.inl h))
        · refine owned_iff.2 (.inl (.inr ?_))
          obtain ⟨j, hj, he⟩ := List.mem_iff_getElem.1 h
          have hkj : k ≠ j := fun e => by
            subst e
            rw [List.getElem?_eq_getElem hj, he] at hp
            cases hp; exact hqp rfl
          refine List.mem_iff_getElem.2 ⟨j, by simpa using hj, ?_⟩
          simp [hkj, he]
        · exact owned_iff.2 (.inr h)
    · cases h
  | addSender p =>
    simp only [Life.step] at h
    split at h
    · next hp => cases h; exact I.one (I.lt_of_snd hp.2) rfl rfl (fun _ h => h) .inl (I.rest p)
    · cases h
  | removeSender p =>
    simp only [Life.step] at h
    split at h
    · next hp => cases h; exact I.one (I.lt_of_snd hp.2) rfl rfl (fun _ h => h) .inl (I.rest p)
    · cases h
  | send p w =>
    simp only [Life.step] at h
    split at h
    · next hp =>
      cases h
      split
      · exact I.one (I.lt_of_snd hp.2) rfl rfl (fun _ h => h) .inl (I.rest p)
      · exact I
    · cases h
  | start p =>
    simp only [Life.step] at h
    split at h
    · next hp => cases h; exact I.one (I.C.lt p hp.1) rfl rfl (fun _ h => h) (fun _ => .inr hp.2) nofun
    · cases h
  | emit p w =>
    simp only [Life.step] at h
    split at h
    · next hp =>
      cases h
      have J : Inv { s with pr := upd s.pr p { s.pr p with outs := (s.pr p).outs ++ [w] } } :=
        I.one (I.C.lt p hp.1) rfl rfl (fun _ h => h) .inl (fun h => by rw [hp.2.1] at h; cases h)
      refine J.keep ⟨rfl, rfl, fun q => ?_, fun q => ?_⟩ (fun q hq => ?_) (fun q => ?_) (fun q => ?_) (fun q => ?_)
      · simp only [deliver]; split <;> rfl
      · exact deliver_alive _ _ _ q
      · have h1 : s.n ≤ q := hq
        have hlt := I.C.lt p hp.1
        have : q ≠ p := by omega
        simp only [deliver, upd, if_neg this, I.fresh q h1]; rfl
      · simp only [deliver]; split <;> exact fun _ h => h
      · simp only [deliver]; split <;> exact .inl
      · have := J.rest q
        simp only [deliver] at *; split <;> exact this
    · cases h
  | finish p =>
    simp only [Life.step] at h
    split at h
    · next hp =>
      cases h
      have J : Inv { s with pr := upd s.pr p { s.pr p with closed := true, down := [] } } :=
        I.one (I.C.lt p hp.1) rfl rfl (fun _ h => absurd h List.not_mem_nil) .inl (fun h => by rw [hp.2.1] at h; cases h)
      refine J.keep ⟨rfl, rfl, fun q => ?_, fun q => ?_⟩ (fun q hq => ?_) (fun q => ?_) (fun q => ?_) (fun q => ?_)
      · simp only [dropSenders]; split <;> rfl
      · exact dropSenders_alive _ _ q
      · have h1 : s.n ≤ q := hq
        have hlt := I.C.lt p hp.1
        have : q ≠ p := by omega
        simp only [dropSenders, upd, if_neg this, I.fresh q h1]; rfl
      · simp only [dropSenders]; split <;> exact fun _ h => h
      · simp only [dropSenders]; split <;> exact .inl
      · have := J.rest q
        simp only [dropSenders] at *; split <;> exact this
    · cases h

theorem Inv.exec {s t : St} {as : List Op} (I : Inv s) (h : exec s as = .ok t) : Inv t := by
  induction as generalizing s with
  | nil => cases h; exact I
  | cons a as ih =>
    simp only [Life.exec] at h
    split at h
    · next u hu => exact ih (I.step hu) h
    · exact ih I h
    · cases h
    · cases h

theorem Reachable.inv {s : St} (h : Reachable s) : Inv s := by
  obtain ⟨as, h⟩ := h
  exact Inv.init.exec h

end Verif.Life
