import Verif.ChannelLayers
import Verif.LayersMeasure
import Verif.Channel.Term
import Verif.Channel.Once

/-!
# Invariant of channels on the executors of the library
-/

namespace Verif.ChannelLayers

open Channel (Net)

variable {G : Net} {X : Cfg} {s s' : St}

theorem Cfg.Ok.layers (hX : X.Ok) : X.layers.Ok := ⟨hX.N, fun _ _ h => hX.prio _ _ h, fun _ _ h => hX.serial _ _ h⟩

/-! ## What a step of the network does to its threads -/

/-- The thread that takes the step. -/
def actor : Channel.Act → Option Nat
  | .job j | .ret j _ => some j
  | _ => none

/-- From `c` to `c'` threads stay where they are, and new ones are about to begin a step or are those of users. -/
structure Base (c c' : Channel.St) : Prop where
  next : c.next ≤ c'.next
  same : ∀ k, k < c.next → c'.pc k = c.pc k
  new : ∀ k, c.next ≤ k → c'.pc k = .none ∨ (∃ i, c'.pc k = .pop i) ∨ (c'.pc k).of = none

/-- The same but for thread `j`. -/
structure Frame (j : Nat) (c c' : Channel.St) : Prop where
  next : c.next ≤ c'.next
  same : ∀ k, k < c.next → k ≠ j → c'.pc k = c.pc k
  new : ∀ k, c.next ≤ k → c'.pc k = .none ∨ (∃ i, c'.pc k = .pop i) ∨ (c'.pc k).of = none
  own : (∀ i, c'.pc j ≠ .pop i) ∧ ∀ i, (c'.pc j).of = some i → (c.pc j).of = some i

theorem Base.refl {c c' : Channel.St} (hn : ∀ k, c.next ≤ k → c.pc k = .none) (h1 : c'.next = c.next) (h2 : c'.pc = c.pc) : Base c c' :=
  ⟨by omega, fun k _ => by rw [h2], fun k hk => .inl (by rw [h2]; exact hn k hk)⟩

theorem Base.run {c c' : Channel.St} (F : Base c c') (i : Nat) : Base c (Channel.run i c') := by
  obtain ⟨h1, h2, h3⟩ := F
  refine ⟨?_, ?_, ?_⟩ <;> simp only [Channel.run, Channel.upd] <;> grind

theorem Base.user {c c' : Channel.St} (F : Base c c') {p : Channel.Pc} (hp : p.of = none) (c'' : Channel.St) (h1 : c''.next = c'.next + 1)
    (h2 : c''.pc = Channel.upd c'.pc c'.next p) : Base c c'' := by
  obtain ⟨f1, f2, f3⟩ := F
  refine ⟨by omega, ?_, ?_⟩ <;> rw [h2] <;> simp only [Channel.upd] <;> grind

theorem Base.trans {c c' c'' : Channel.St} (F : Base c c') (h1 : c''.next = c'.next) (h2 : c''.pc = c'.pc) : Base c c'' :=
  ⟨by rw [h1]; exact F.next, by rw [h2]; exact F.same, by rw [h2]; exact F.new⟩

theorem Base.enqueue {c c' : Channel.St} (F : Base c c') (i k : Nat) (m : Channel.Msg) : Base c (Channel.enqueue i k m c') := by
  simp only [Channel.enqueue]
  split
  · refine Base.run ?_ i; exact F.trans rfl rfl
  · exact F.trans rfl rfl

theorem Base.ctsCrit {c c' : Channel.St} (F : Base c c') (i : Nat) (x : Channel.Credit) : Base c (Channel.ctsCrit G i x c') := by
  simp only [Channel.ctsCrit]
  repeat' split
  · refine Base.run ?_ i; exact F.trans rfl rfl
  · exact F.trans rfl rfl
  · exact F.trans rfl rfl

theorem Base.goto {c c' : Channel.St} {j : Nat} {p : Channel.Pc} (F : Base c c') (hk : j < c.next) (h1 : ∀ i, p ≠ .pop i)
    (h2 : ∀ i, p.of = some i → (c.pc j).of = some i) : Frame j c (Channel.goto j p c') := by
  obtain ⟨f1, f2, f3⟩ := F
  refine ⟨f1, ?_, ?_, ?_⟩ <;> simp only [Channel.goto, Channel.upd] <;> grind

theorem user_frame {c c' : Channel.St} {a : Channel.Act} (hn : ∀ k, c.next ≤ k → c.pc k = .none) (ha : isUser a = true)
    (h : Channel.step G c a = some c') : Base c c' := by
  have R : ∀ c'', c''.next = c.next → c''.pc = c.pc → Base c c'' := fun _ => Base.refl hn
  cases a <;> simp only [isUser, Bool.false_eq_true] at ha <;> simp only [Channel.step] at h <;> (repeat' split at h) <;> cases h
  all_goals first
    | exact R _ rfl rfl
    | exact (R c rfl rfl).enqueue _ _ _
    | exact (R _ rfl rfl).user (p := .close2 _ []) rfl _ rfl rfl
    | exact (R _ rfl rfl).user (p := .ready2 _) rfl _ rfl rfl

theorem job_frame {c c' : Channel.St} {j : Nat} (hn : ∀ k, c.next ≤ k → c.pc k = .none) (h : Channel.step G c (.job j) = some c') : Frame j c c' := by
  have R : ∀ c'', c''.next = c.next → c''.pc = c.pc → Base c c'' := fun _ => Base.refl hn
  have hj : c.pc j ≠ .none → j < c.next := fun h => Nat.lt_of_not_le fun h1 => h (hn j h1)
  have F : ∀ {c'' : Channel.St} {p : Channel.Pc}, c.pc j ≠ .none → Base c c'' → (∀ i, p ≠ .pop i) → (∀ i, p.of = some i → (c.pc j).of = some i) →
      Frame j c (Channel.goto j p c'') := fun h1 h2 h3 h4 => h2.goto (hj h1) h3 h4
  simp only [Channel.step, Channel.stepJob] at h
  cases hp : c.pc j with
  | none => simp [hp] at h
  | pop i =>
    simp only [hp, Option.some.injEq] at h
    subst h
    simp only [Channel.popCrit]
    split <;> exact F (by simp [hp]) (R _ rfl rfl) (by simp) (by simp [hp, Channel.Pc.of])
  | cts1 i ks m =>
    simp only [hp] at h
    cases ks with
    | nil =>
      cases m with
      | none => cases h; exact F (by simp [hp]) (R _ rfl rfl) (by simp) (by simp [hp, Channel.Pc.of])
      | some m => cases h; refine F (by simp [hp]) (R _ rfl rfl) ?_ ?_ <;> split <;> simp [hp, Channel.Pc.of]
    | cons k ks =>
      simp only at h
      split at h
      · cases h; refine F (by simp [hp]) (R _ rfl rfl) ?_ ?_ <;> split <;> simp [hp, Channel.Pc.of]
      · cases h; exact F (by simp [hp]) (R _ rfl rfl) (by simp) (by simp [hp, Channel.Pc.of])
  | cts2 i ks m =>
    simp only [hp] at h
    cases ks with
    | nil => cases h; exact F (by simp [hp]) (R _ rfl rfl) (by simp) (by simp [hp, Channel.Pc.of])
    | cons k ks =>
      simp only at h
      split at h
      · cases h; exact F (by simp [hp]) ((R c rfl rfl).ctsCrit _ _) (by simp) (by simp [hp, Channel.Pc.of])
      · cases h; exact F (by simp [hp]) (R _ rfl rfl) (by simp) (by simp [hp, Channel.Pc.of])
  | dead i m => simp [hp] at h
  | busy i => simp [hp] at h
  | call i m =>
    simp only [hp, Option.some.injEq] at h
    subst h
    exact F (by simp [hp]) (R _ rfl rfl) (by simp) (by simp [hp, Channel.Pc.of])
  | bcast i r =>
    simp only [hp, Option.some.injEq] at h
    subst h
    refine F (by simp [hp]) (R _ rfl rfl) ?_ ?_ <;> split <;> simp [hp, Channel.Pc.of]
  | free i r es acc =>
    cases es <;> simp only [hp, Option.some.injEq] at h <;> subst h <;>
      exact F (by simp [hp]) (R _ rfl rfl) (by simp) (by simp [hp, Channel.Pc.of])
  | susp i r b =>
    simp only [hp, Option.some.injEq] at h
    subst h
    exact F (by simp [hp]) (R _ rfl rfl) (by simp) (by simp [hp, Channel.Pc.of])
  | send i r es =>
    cases es with
    | nil =>
      simp only [hp, Option.some.injEq] at h
      subst h
      exact F (by simp [hp]) (R _ rfl rfl) (by simp) (by simp [hp, Channel.Pc.of])
    | cons e es =>
      simp only [hp, Option.some.injEq] at h
      subst h
      exact F (by simp [hp]) ((R c rfl rfl).enqueue _ _ _) (by simp) (by simp [hp, Channel.Pc.of])
  | own1 i =>
    simp only [hp, Option.some.injEq] at h
    subst h
    refine F (by simp [hp]) (R _ rfl rfl) ?_ ?_ <;> split <;> simp [hp, Channel.Pc.of]
  | own2 i =>
    simp only [hp, Option.some.injEq] at h
    subst h
    refine F (by simp [hp]) (Base.ctsCrit ?_ _ _) (by simp) (by simp [Channel.Pc.of])
    exact R _ rfl rfl
  | taskDone i =>
    simp only [hp, Option.some.injEq] at h
    subst h
    have B : ∀ c'' : Channel.St, c''.next = c.next → c''.pc = c.pc → Base c (Channel.run i c'') := fun c'' h1 h2 => (R _ h1 h2).run i
    simp only [Channel.taskDone]
    repeat' split
    all_goals refine F (by simp [hp]) ?_ (by simp) (by simp [Channel.Pc.of])
    all_goals first
      | exact R _ rfl rfl
      | exact B _ rfl rfl
      | exact Base.trans (B { c with running := Channel.upd c.running i true, main := Channel.upd c.main i none } rfl rfl) rfl rfl
  | clear es =>
    cases es with
    | nil =>
      simp only [hp, Option.some.injEq] at h
      subst h
      exact F (by simp [hp]) (R _ rfl rfl) (by simp) (by simp [Channel.Pc.of])
    | cons e es =>
      obtain ⟨d, o⟩ := e
      simp only [hp] at h
      split at h <;> cases h <;> exact F (by simp [hp]) (R _ rfl rfl) (by simp) (by simp [Channel.Pc.of])
  | close2 d es =>
    simp only [hp, Option.some.injEq] at h
    subst h
    refine F (by simp [hp]) ?_ (by simp) (by simp [Channel.Pc.of])
    split
    · refine Base.run ?_ _; exact R _ rfl rfl
    · exact R _ rfl rfl
  | ready2 i =>
    simp only [hp, Option.some.injEq] at h
    subst h
    refine F (by simp [hp]) ?_ (by simp) (by simp [Channel.Pc.of])
    split
    · refine Base.run ?_ _; exact R _ rfl rfl
    · exact R _ rfl rfl

theorem ret_frame {c c' : Channel.St} {j : Nat} {r : Channel.Msg} (hn : ∀ k, c.next ≤ k → c.pc k = .none)
    (h : Channel.step G c (.ret j r) = some c') : Frame j c c' := by
  simp only [Channel.step] at h
  split at h
  · rename_i i hp
    cases h
    refine Base.goto ?_ (Nat.lt_of_not_le fun h1 => by rw [hn j h1] at hp; cases hp) (by simp) (by simp [hp, Channel.Pc.of])
    exact Base.refl hn rfl rfl
  · cases h

/-! ## What a step of the executors does to their tasks -/

theorem exe_graph {C : Layers.Cfg} {l l' : Layers.St} {a : Layers.Act} (ha : isGraph a = false) (h : Layers.step C l a = .ok l') :
    l'.g = l.g ∨ ∃ n, Graph.step l.g (.run n) = .ok l'.g := by
  cases a with
  | graph a => cases ha
  | give n i =>
    simp only [Layers.step] at h
    split at h
    · cases h
    · split at h
      · obtain ⟨p, -, rfl⟩ := Layers.submit_ok h; exact .inl rfl
      · obtain ⟨s1, h1, h⟩ := Layers.bind_ok h
        obtain ⟨q, -, rfl⟩ := Layers.serial_ok h1
        cases h; exact .inl rfl
      · obtain ⟨g, hg, rfl⟩ := Layers.call_ok h; exact .inr ⟨n, hg⟩
  | kick j i =>
    simp only [Layers.step] at h
    obtain ⟨s1, h1, h⟩ := Layers.bind_ok h
    obtain ⟨q, -, rfl⟩ := Layers.serial_ok h1
    obtain ⟨p, -, rfl⟩ := Layers.submit_ok h
    exact .inl rfl
  | pool a =>
    simp only [Layers.step] at h
    repeat' split at h
    all_goals cases h
    exact .inl rfl
  | begin i =>
    simp only [Layers.step] at h
    split at h
    · split at h
      · split at h
        · cases h
        · split at h
          · obtain ⟨s1, h1, h⟩ := Layers.bind_ok h
            obtain ⟨g, hg, rfl⟩ := Layers.call_ok h1
            cases h
            exact .inr ⟨_, hg⟩
          · obtain ⟨s1, h1, h⟩ := Layers.bind_ok h
            obtain ⟨q, -, rfl⟩ := Layers.serial_ok h1
            cases h
            exact .inl rfl
      · cases h
    · cases h
  | serve i k =>
    simp only [Layers.step] at h
    split at h
    · simp only [Layers.serve] at h
      split at h
      · obtain ⟨s1, h1, h⟩ := Layers.bind_ok h
        obtain ⟨q, -, rfl⟩ := Layers.serial_ok h1
        obtain ⟨g, hg, rfl⟩ := Layers.call_ok h
        exact .inr ⟨_, hg⟩
      · split at h
        · cases h
        · obtain ⟨q, -, rfl⟩ := Layers.serial_ok h; exact .inl rfl
      · obtain ⟨s1, h1, h⟩ := Layers.bind_ok h
        obtain ⟨q, -, rfl⟩ := Layers.serial_ok h1
        cases h
        split <;> exact .inl rfl
      · obtain ⟨s1, h1, h⟩ := Layers.bind_ok h
        obtain ⟨q, -, rfl⟩ := Layers.serial_ok h1
        obtain ⟨s2, h2, h⟩ := Layers.bind_ok h
        obtain ⟨p, -, rfl⟩ := Layers.submit_ok h2
        cases h
        exact .inl rfl
      · obtain ⟨q, -, rfl⟩ := Layers.serial_ok h; exact .inl rfl
    · cases h
  | finish i =>
    simp only [Layers.step] at h
    repeat' split at h
    all_goals cases h
    exact .inl rfl

/-- The tasks are all `async`, and their futures are kept. -/
structure Plain (g : Graph.St) : Prop where
  pcs : ∀ n, g.pc n = .none ∨ g.pc n = .sched ∨ g.pc n = .running ∨ g.pc n = .ready
  kind : ∀ n, g.pc n ≠ .none → g.kind n = some .async ∧ .user n ∈ g.hold n
  own : ∀ n, g.own n = none
  fut : ∀ n, g.pc n = .none → g.fut n = none

theorem Plain.run {g g' : Graph.St} {n : Nat} (P : Plain g) (h : Graph.step g (.run n) = .ok g') :
    Plain g' ∧ g.pc n = .sched ∧ g'.pc = Shared.upd g.pc n .running := by
  obtain ⟨h1, h2, h3, h4⟩ := P
  simp only [Graph.step] at h
  split at h
  · cases h
  · rename_i hs
    simp only [ne_eq, Decidable.not_not] at hs
    have hk := h2 n (by simp [hs])
    rw [hk.1, if_neg (fun he => by rw [he] at hk; simp at hk)] at h
    cases h
    refine ⟨⟨?_, ?_, h3, ?_⟩, hs, rfl⟩ <;> simp only [Shared.upd, Graph.add] <;> grind

theorem Plain.async {g g' : Graph.St} {n : Nat} (P : Plain g) (h : Graph.step g (.async n n) = .ok g') :
    Plain g' ∧ g.pc n = .none ∧ g'.pc = Shared.upd g.pc n .sched := by
  obtain ⟨h1, h2, h3, h4⟩ := P
  simp only [Graph.step] at h
  split at h <;> cases h
  rename_i hs
  refine ⟨⟨?_, ?_, h3, ?_⟩, hs.1, rfl⟩ <;> simp only [Shared.upd, Graph.add] <;> grind

theorem Plain.ret {g g' : Graph.St} {n v : Nat} (P : Plain g) (h : Graph.step g (.retVal n v) = .ok g') :
    Plain g' ∧ g.pc n = .running ∧ g'.pc = Shared.upd g.pc n .ready := by
  obtain ⟨h1, h2, h3, h4⟩ := P
  simp only [Graph.step] at h
  split at h <;> cases h
  rename_i hs
  simp only [ne_eq, Decidable.not_not] at hs
  have hpc : ∀ k, (Graph.resolve (Graph.dropOwn { g with trace := g.trace ++ [.returned n (.val v)] } n) n (.val v)).pc k = Shared.upd g.pc n .ready k := by
    intro k
    simp only [Layers.resolve_pc, Layers.dropOwn_pc, Layers.dropOwn_kind, Shared.upd]
    have := h1 k
    grind
  have hd : Graph.dropOwn { g with trace := g.trace ++ [.returned n (.val v)] } n = { g with trace := g.trace ++ [.returned n (.val v)] } := by
    simp [Graph.dropOwn, h3]
  refine ⟨⟨?_, ?_, ?_, ?_⟩, hs, funext hpc⟩
  · intro k; simp only [hpc, Shared.upd]; have := h1 k; grind
  · intro k hk
    simp only [hpc] at hk
    have hk' : g.pc k ≠ .none := by simp only [Shared.upd] at hk; grind
    obtain ⟨h5, h6⟩ := h2 k hk'
    rw [hd]
    refine ⟨h5, ?_⟩
    simp only [Graph.resolve, Graph.del, Shared.upd]
    by_cases hkn : k = n
    · subst hkn
      simp only [if_true]
      exact (List.mem_erase_of_ne (by simp)).2 ((List.mem_erase_of_ne (by simp)).2 h6)
    · simpa [hkn] using h6
  · rw [hd]; exact h3
  · intro k hk
    simp only [hpc] at hk
    rw [hd]
    exact h4 k (by simp only [Shared.upd] at hk; grind)

/-! ## Invariant -/

structure Inv (G : Net) (X : Cfg) (s : St) : Prop where
  cr : Channel.Reachable G s.c
  lr : Layers.Reachable X.layers s.l
  pl : Plain s.l.g
  tsk : ∀ j i, s.task j = some i → j < s.c.next ∧ s.l.g.pc (Nat.pair i j) ≠ .none
  nod : ∀ i j, s.l.g.pc (Nat.pair i j) ≠ .none → s.task j = some i
  sch : ∀ i j, s.l.g.pc (Nat.pair i j) = .sched → s.c.pc j = .pop i
  rdy : ∀ i j, s.l.g.pc (Nat.pair i j) = .ready → ended (s.c.pc j) = true
  own : ∀ i j, (s.c.pc j).of = some i → s.task j = some i ∨ (s.task j = none ∧ s.c.pc j = .pop i)

theorem Inv.init : Inv G X (init G X) := by
  refine ⟨⟨[], rfl⟩, .init, ⟨?_, ?_, ?_, ?_⟩, ?_, ?_, ?_, ?_, ?_⟩ <;>
    simp [ChannelLayers.init, Layers.init, Channel.init, Channel.Pc.of]

theorem Inv.fr (I : Inv G X s) : ∀ k, s.c.next ≤ k → s.c.pc k = .none := I.cr.once.fr

theorem runs_iff (j : Nat) : runs s j = true ↔
    (∃ i, s.task j = some i ∧ s.l.g.pc (Nat.pair i j) = .running) ∨ (s.task j = none ∧ ∀ i, s.c.pc j ≠ .pop i) := by
  simp only [runs]
  split
  · rename_i i hi; simp [hi]
  · rename_i hi; cases hp : s.c.pc j <;> simp [hi, begins]

theorem Inv.user (I : Inv G X s) {a : Channel.Act} {c : Channel.St} (ha : isUser a = true) (h : Channel.step G s.c a = some c) :
    Inv G X { s with c := c } := by
  obtain ⟨f1, f2, f3⟩ := user_frame I.fr ha h
  have fr := I.fr
  obtain ⟨cr, lr, pl, tsk, nod, sch, rdy, own⟩ := I
  refine ⟨cr.step h, lr, pl, ?_, nod, ?_, ?_, ?_⟩
  · grind
  · grind
  · grind
  · intro i j hj
    by_cases hlt : j < s.c.next
    · have := f2 j hlt; simp only at hj ⊢; grind
    · have ht : s.task j = none := by
        cases ht : s.task j with
        | none => rfl
        | some i => exact absurd (tsk j i ht).1 hlt
      rcases f3 j (by omega) with h1 | ⟨i', h1⟩ | h1
      · simp [h1, Channel.Pc.of] at hj
      · simp only [h1, Channel.Pc.of, Option.some.injEq] at hj
        subst hj
        exact .inr ⟨ht, h1⟩
      · simp only [h1] at hj; cases hj

theorem Inv.thread (I : Inv G X s) {j : Nat} {c : Channel.St} (hr : runs s j = true) (F : Frame j s.c c) (hc : Channel.Reachable G c) :
    Inv G X { s with c := c } := by
  obtain ⟨f1, f2, f3, f4, f5⟩ := F
  have fr := I.fr
  rw [runs_iff] at hr
  obtain ⟨cr, lr, pl, tsk, nod, sch, rdy, own⟩ := I
  refine ⟨hc, lr, pl, ?_, nod, ?_, ?_, ?_⟩
  · grind
  · grind
  · grind
  · intro i k hk
    by_cases hlt : k < s.c.next
    · by_cases hkj : k = j
      · subst hkj
        have h1 := f5 i hk
        have h2 := own i k h1
        grind
      · have := f2 k hlt hkj; simp only at hk ⊢; grind
    · by_cases hkj : k = j
      · subst hkj
        have h1 := f5 i hk
        rw [fr k (by omega)] at h1
        cases h1
      · have ht : s.task k = none := by
          cases ht : s.task k with
          | none => rfl
          | some i => exact absurd (tsk k i ht).1 hlt
        rcases f3 k (by omega) with h1 | ⟨i', h1⟩ | h1
        · simp [h1, Channel.Pc.of] at hk
        · simp only [h1, Channel.Pc.of, Option.some.injEq] at hk
          subst hk
          exact .inr ⟨ht, h1⟩
        · simp only [h1] at hk; cases hk

theorem layers_ok {a : Layers.Act} (h : layers X s a = some s') : ∃ l, Layers.step X.layers s.l a = .ok l ∧ s' = { s with l := l } := by
  simp only [layers] at h
  split at h <;> cases h
  exact ⟨_, ‹_›, rfl⟩

theorem Inv.exe (I : Inv G X s) {a : Layers.Act} {l : Layers.St} (ha : isGraph a = false) (h : Layers.step X.layers s.l a = .ok l) :
    Inv G X { s with l := l } := by
  have hl := Layers.Reachable.step a I.lr h
  rcases exe_graph ha h with hg | ⟨n, hg⟩
  · obtain ⟨cr, lr, pl, tsk, nod, sch, rdy, own⟩ := I
    exact ⟨cr, hl, by simpa [hg] using pl, by simpa [hg] using tsk, by simpa [hg] using nod, by simpa [hg] using sch, by simpa [hg] using rdy, own⟩
  · obtain ⟨hp, hs, hpc⟩ := I.pl.run hg
    have hpc' : ∀ k, l.g.pc k = if k = n then .running else s.l.g.pc k := fun k => by rw [hpc]; rfl
    obtain ⟨cr, lr, pl, tsk, nod, sch, rdy, own⟩ := I
    refine ⟨cr, hl, hp, ?_, ?_, ?_, ?_, own⟩ <;> simp only [hpc'] <;> grind

theorem graph_ok {C : Layers.Cfg} {l l' : Layers.St} {a : Graph.Act} (h : Layers.step C l (.graph a) = .ok l') : Graph.step l.g a = .ok l'.g := by
  cases a <;> simp only [Layers.step] at h <;> (try cases h) <;> (split at h <;> cases h) <;> assumption

theorem Inv.step (I : Inv G X s) (a : Act) (h : step G X s a = some s') : Inv G X s' := by
  cases a with
  | user a =>
    simp only [ChannelLayers.step] at h
    split at h
    · obtain ⟨c, hc, rfl⟩ := Option.map_eq_some_iff.1 h
      exact I.user ‹_› hc
    · cases h
  | job j =>
    simp only [ChannelLayers.step] at h
    split at h
    · obtain ⟨c, hc, rfl⟩ := Option.map_eq_some_iff.1 h
      exact I.thread ‹_› (job_frame I.fr hc) (I.cr.step hc)
    · cases h
  | ret j r =>
    simp only [ChannelLayers.step] at h
    split at h
    · obtain ⟨c, hc, rfl⟩ := Option.map_eq_some_iff.1 h
      exact I.thread ‹_› (ret_frame I.fr hc) (I.cr.step hc)
    · cases h
  | exe a =>
    simp only [ChannelLayers.step] at h
    split at h
    · cases h
    · obtain ⟨l, hl, rfl⟩ := layers_ok h
      exact I.exe (by simpa using ‹¬isGraph a = true›) hl
  | call j =>
    simp only [ChannelLayers.step] at h
    split at h
    · rename_i i hb ht
      obtain ⟨s1, h1, rfl⟩ := Option.map_eq_some_iff.1 h
      obtain ⟨l, hl, rfl⟩ := layers_ok h1
      have hr := Layers.Reachable.step _ I.lr hl
      obtain ⟨hp, hs, hpc⟩ := I.pl.async (graph_ok hl)
      have hpc' : ∀ k, l.g.pc k = if k = Nat.pair i j then .sched else s.l.g.pc k := fun k => by rw [hpc]; rfl
      have hpop : s.c.pc j = .pop i := by cases hpj : s.c.pc j <;> simp_all [begins]
      have hlt : j < s.c.next := Nat.lt_of_not_le fun h1 => by rw [I.fr j h1] at hpop; cases hpop
      obtain ⟨cr, lr, pl, tsk, nod, sch, rdy, own⟩ := I
      have inj : ∀ i' j', Nat.pair i' j' = Nat.pair i j ↔ i' = i ∧ j' = j := fun i' j' => by simp
      refine ⟨cr, hr, hp, ?_, ?_, ?_, ?_, ?_⟩ <;> simp only [hpc', inj, Layers.upd]
      · grind
      · grind
      · grind
      · grind
      · grind [Channel.Pc.of]
    · cases h
  | over j =>
    simp only [ChannelLayers.step] at h
    split at h
    · rename_i i ht
      split at h
      · rename_i he
        obtain ⟨l, hl, rfl⟩ := layers_ok h
        have hr := Layers.Reachable.step _ I.lr hl
        obtain ⟨hp, hs, hpc⟩ := I.pl.ret (graph_ok hl)
        have hpc' : ∀ k, l.g.pc k = if k = Nat.pair i j then .ready else s.l.g.pc k := fun k => by rw [hpc]; rfl
        obtain ⟨cr, lr, pl, tsk, nod, sch, rdy, own⟩ := I
        have inj : ∀ i' j', Nat.pair i' j' = Nat.pair i j ↔ i' = i ∧ j' = j := fun i' j' => by simp
        refine ⟨cr, hr, hp, ?_, ?_, ?_, ?_, own⟩ <;> simp only [hpc', inj]
        · grind
        · grind
        · grind
        · grind
      · cases h
    · cases h

theorem Reachable.inv (h : Reachable G X s) : Inv G X s := by
  induction h with
  | init => exact Inv.init
  | step a _ h ih => exact ih.step a h

end Verif.ChannelLayers
