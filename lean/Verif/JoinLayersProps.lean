import Verif.JoinLayersInv
import Verif.ChannelLayersProps
import Verif.Future.JoinGraphProps

/-!
# `when_all` and `when_any` on the executors of the library: properties (C111)
-/

namespace Verif.JoinLayers

open Verif.Shared (upd Outcome)
open Verif.JoinGraph (Prog Kind Acyclic)
open Verif.ChannelLayers (Cfg isGraph Plain graph_ok weight_async)

variable {P : Prog} {X : Cfg} {s s' : St}

/-- **C111**: the parts of the system behave as each was modelled alone: every theorem about reachable states of graphs of futures and of the executors
applies. In particular what the futures are resolved with is what sequential evaluation gives (C98), whatever the executors. -/
theorem c111_parts (h : Reachable P X s) : JoinGraph.Reachable P s.j ∧ Layers.Reachable X.layers s.l := ⟨h.inv.jr, h.inv.lr⟩

/-- **C111**: nothing is undefined. -/
theorem c111_no_undefined (hX : X.Ok) (h : Reachable P X s) :
    (∀ a, JoinGraph.step P s.j a ≠ .ub) ∧ ∀ a, Layers.step X.layers s.l a ≠ .ub :=
  ⟨fun a => JoinGraph.c98_no_undefined h.inv.jr a, fun a => Layers.c107_no_undefined hX.layers h.inv.lr a⟩

/-! ## The system comes to rest -/

/-- The system goes from one state to another by itself. -/
def Next (P : Prog) (X : Cfg) (s s' : St) : Prop := ∃ a, internal a = true ∧ step P X s a = some s'

/-- Nothing is left to do: the system cannot go on by itself. -/
def AtRest (P : Prog) (X : Cfg) (s : St) : Prop := ∀ s', ¬Next P X s s'

/-- Whatever order the steps are taken in, `Q` holds at some time. -/
inductive Eventually (P : Prog) (X : Cfg) (Q : St → Prop) : St → Prop where
  | now {s : St} : Q s → Eventually P X Q s
  | later {s : St} : (∃ s', Next P X s s') → (∀ s', Next P X s s' → Eventually P X Q s') → Eventually P X Q s

/-- What is left to do for the continuation on an argument. -/
def wcont : When.Pc → Nat
  | .none => 8
  | .queued => 5
  | .sched => 4
  | .running _ => 3
  | .fire => 2
  | _ => 0

/-- What is left to do for an argument. -/
def warg (w : When.St) (i : Nat) : Nat :=
  wcont (w.pc i) + (if w.hold i = .loc then 1 else 0) + if w.arg i = none then 1 else 0

def wjoin (k : Nat) (w : When.St) : Nat := ((List.range k).map (warg w)).sum

theorem when_less {m : When.Mode} {k : Nat} {w w' : When.St} {a : When.Act} (W : When.Inv m k w) (hd : a ≠ .drop)
    (h : When.step m k w a = .ok w') : wjoin k w' < wjoin k w := by
  have key : ∀ i < k, (∀ j, warg w' j ≤ warg w j) → warg w' i < warg w i → wjoin k w' < wjoin k w := by
    intro i hi h1 h2
    have := Layers.sum_drop (f := warg w) (f' := warg w') (n := i) (d := 1) h2 h1 (List.mem_range.2 hi)
    simp only [wjoin]; omega
  have lt : ∀ i, w.pc i ≠ .none → i < k := fun i hi => by have := (W.attb i).1 hi; have := W.attn; omega
  cases a with
  | drop => exact absurd rfl hd
  | resolve i o =>
    simp only [When.step] at h
    split at h <;> cases h
    rename_i hc
    by_cases hq : w.pc i = .queued
    · refine key i hc.2 (fun j => ?_) ?_ <;> clear key <;> simp only [warg, hq, if_true, upd] <;> grind [wcont]
    · refine key i hc.2 (fun j => ?_) ?_ <;> clear key <;> simp only [warg, hq, if_false, upd] <;> grind
  | attach =>
    simp only [When.step] at h
    split at h <;> cases h
    rename_i hc
    have h0 : w.pc w.att = .none := by have := W.attb w.att; grind
    refine key w.att hc.1 (fun j => ?_) ?_ <;> clear key <;> simp only [warg, upd] <;> grind [wcont]
  | store =>
    simp only [When.step] at h
    split at h <;> cases h
    rename_i hc
    have := W.attn
    refine key (w.att - 1) (by omega) (fun j => ?_) ?_ <;> clear key <;> simp only [warg, upd] <;> grind
  | run i =>
    simp only [When.step] at h
    split at h
    · cases h
    · rename_i hs
      simp only [ne_eq, Decidable.not_not] at hs
      split at h
      · cases h
        refine key i (lt i (by simp [hs])) (fun j => ?_) ?_ <;> clear key <;> simp only [warg, upd] <;> grind [wcont]
      · split at h <;> cases h
        refine key i (lt i (by simp [hs])) (fun j => ?_) ?_ <;> clear key <;> simp only [warg, upd] <;> grind [wcont]
  | crit i =>
    simp only [When.step] at h
    split at h <;> cases h
    rename_i o hs
    have hl : ∀ r (j : Nat), (if When.resets r w.hold j = .loc then 1 else 0) ≤ if w.hold j = .loc then 1 else 0 := by
      intro r j
      cases r <;> simp only [When.resets] <;> grind
    refine key i (lt i (by simp [hs])) (fun j => ?_) ?_
    · have := hl (When.crit m w.ctx i o).2.1 j
      simp only [warg, upd]
      by_cases hj : j = i
      · subst hj
        simp only [if_true, hs]
        split <;> simp only [wcont] <;> omega
      · simp only [hj, if_false]; omega
    · have := hl (When.crit m w.ctx i o).2.1 i
      simp only [warg, upd, if_true, hs]
      split <;> simp only [wcont] <;> omega
  | fire i =>
    simp only [When.step] at h
    split at h
    · cases h
    · rename_i hs
      simp only [ne_eq, Decidable.not_not] at hs
      repeat' split at h
      all_goals cases h
      all_goals refine key i (lt i (by simp [hs])) (fun j => ?_) ?_ <;> clear key <;> simp only [warg, upd] <;> grind [wcont]
  | discard i =>
    simp only [When.step] at h
    split at h <;> cases h
    rename_i hs
    refine key i (lt i (by simp [hs])) (fun j => ?_) ?_ <;> clear key <;> simp only [warg, upd] <;> grind [wcont]

/-- What is left to do for a function. -/
def wpc : JoinGraph.Pc → Nat
  | .queued => 3
  | .running _ => 2
  | .waiting _ => 1
  | _ => 0

/-- The tasks of a node. -/
def tasks (P : Prog) (n : Nat) : List Nat :=
  match P.kind n with
  | some (.join _ args) => (List.range args.length).map (· + 1)
  | _ => [0]

def wnode (P : Prog) (j : JoinGraph.St) (n : Nat) : Nat :=
  wpc (j.pc n) + match P.kind n with
    | some (.join _ args) => wjoin args.length (j.w n)
    | _ => 0

/-- How many tasks of a node are still to be given to its executor. -/
def uncalled (P : Prog) (l : Layers.St) (n : Nat) : Nat := (tasks P n).countP fun i => l.g.pc (Nat.pair n i) = .none

def weight (P : Prog) (X : Cfg) (s : St) : Nat :=
  (s.nodes.map fun n => (wnode P s.j n + uncalled P s.l n) * (2 * Layers.wsub X.N + 21)).sum + Layers.weight X.layers s.l

/-- A step of the graph by itself leaves less to do. -/
theorem graph_less {j j' : JoinGraph.St} (r : JoinGraph.Reachable P j) {a : JoinGraph.Act} (ha : isUser a = false) (h : JoinGraph.step P j a = .ok j') :
    j.pc (node a) ≠ .none ∧ wnode P j' (node a) < wnode P j (node a) ∧ ∀ k, k ≠ node a → wnode P j' k = wnode P j k := by
  obtain ⟨f1, f2, f3⟩ := graph_frame h
  refine ⟨?_, ?_, fun k hk => by simp only [wnode, (f1 k hk).1, (f1 k hk).2]⟩
  · cases a <;> simp only [isUser, Bool.true_eq_false] at ha <;> simp only [Does, node] at f3 ⊢ <;> grind
  · cases a with
    | create n => cases ha
    | abandon n => cases ha
    | start n => simp only [Does, node] at f3 ⊢; simp only [wnode, f3.2.2.1]; grind [wpc]
    | ret n => simp only [Does, node] at f3 ⊢; simp only [wnode, f3.2.1]; grind [wpc]
    | flatten n => simp only [Does, node] at f3 ⊢; simp only [wnode, f3.2.1]; grind [wpc]
    | arg n a =>
      have hd : a ≠ .drop := by rintro rfl; cases ha
      simp only [Does, node] at f3 ⊢
      obtain ⟨m, args, g1, g2, g3, g4, g5, g6, g7⟩ := f3
      have J := r.inv.2 n m args g1 g2
      have hw := when_less (J.reach.inv (join_pos r g1 g2)) hd g3
      have hp : wpc (j'.pc n) ≤ wpc (j.pc n) := by
        cases a with
        | fire i =>
          obtain ⟨g8, g9⟩ := g7 i rfl
          by_cases hk : (j.w n).kept = true
          · have hq : j.pc n = .queued := by
              refine J.keep.2 ⟨hk, ?_⟩
              cases hf : (j.w n).fired with
              | false => rfl
              | true =>
                simp only [When.step, hk, hf, Bool.true_eq_false, if_false, if_true] at g3
                split at g3 <;> cases g3
            rw [hq]
            rcases g8 hk with ⟨x, h1⟩ | h1 <;> rw [h1] <;> simp [wpc]
          · rw [g9 hk]
        | drop => exact absurd rfl hd
        | _ => rw [g5 (by simp) (by simp)]
      simp only [wnode, g1]
      omega

theorem countP_less {p q : Nat → Bool} {i : Nat} (h : ∀ k, q k = true → p k = true) (h1 : p i = true) (h2 : q i = false) :
    ∀ {l : List Nat}, i ∈ l → l.countP q + 1 ≤ l.countP p
  | [], hi => by cases hi
  | a :: l, hi => by
    have hle := List.countP_mono_left (l := l) fun k _ => h k
    simp only [List.countP_cons]
    rcases List.mem_cons.1 hi with rfl | hi
    · simp only [h1, h2, if_true]; simp only [Bool.false_eq_true, if_false]; omega
    · have := countP_less h h1 h2 hi
      by_cases hq : q a = true
      · simp only [hq, h a hq, if_true]; omega
      · simp only [hq]; simp only [Bool.false_eq_true, if_false]; omega

theorem uncalled_le {l l' : Layers.St} (h : ∀ k, l'.g.pc k = .none → l.g.pc k = .none) (n : Nat) : uncalled P l' n ≤ uncalled P l n := by
  refine List.countP_mono_left fun i _ hi => ?_
  simp only [decide_eq_true_eq] at hi ⊢
  exact h _ hi

theorem uncalled_call {l l' : Layers.St} {n i : Nat} (hi : i ∈ tasks P n) (h0 : l.g.pc (Nat.pair n i) = .none)
    (h1 : ∀ k, l'.g.pc k = if k = Nat.pair n i then .sched else l.g.pc k) :
    uncalled P l' n + 1 ≤ uncalled P l n ∧ ∀ m, uncalled P l' m ≤ uncalled P l m := by
  have h2 : ∀ k, l'.g.pc k = .none → l.g.pc k = .none := by
    intro k hk
    rw [h1] at hk
    split at hk
    · cases hk
    · exact hk
  refine ⟨countP_less (fun k hk => ?_) ?_ ?_ hi, uncalled_le h2⟩
  · simp only [decide_eq_true_eq] at hk ⊢; exact h2 _ hk
  · simpa using h0
  · simp [h1]

/-- A task that is to be given to its executor is one of the tasks of its node. -/
theorem due_tasks {j : JoinGraph.St} (r : JoinGraph.Reachable P j) {n i : Nat} (h : due P j n i = true) : j.pc n ≠ .none ∧ i ∈ tasks P n := by
  cases i with
  | zero =>
    simp only [due, Bool.and_eq_true, decide_eq_true_eq] at h
    refine ⟨h.1, ?_⟩
    cases hk : P.kind n with
    | none => simp [ready, hk] at h
    | some k => cases k <;> simp_all [tasks, ready]
  | succ i =>
    simp only [due, Bool.and_eq_true, decide_eq_true_eq] at h
    obtain ⟨⟨h1, h2⟩, h3⟩ := h
    refine ⟨h1, ?_⟩
    cases hk : P.kind n with
    | none => simp [hk, isJoin] at h2
    | some k =>
      cases k with
      | join m args =>
        have W := (r.inv.2 n m args hk h1).reach.inv (join_pos r hk h1)
        have := (W.attb i).1 (by simp [h3])
        have := W.attn
        simp only [tasks, hk, List.mem_map, List.mem_range, Nat.add_right_cancel_iff, exists_eq_right]
        omega
      | _ => simp [hk, isJoin] at h2

theorem weight_less (hX : X.Ok) (I : Inv P X s) (h : Next P X s s') : weight P X s' < weight P X s := by
  obtain ⟨a, ha, h⟩ := h
  cases a with
  | graph a =>
    simp only [step] at h
    split at h
    · split at h
      · rename_i j hj
        simp only [Option.some.injEq] at h
        subst h
        have hu : isUser a = false := by simpa [internal] using ha
        obtain ⟨h1, h2, h3⟩ := graph_less I.jr hu hj
        have hm : makes a s.nodes = s.nodes := by cases a <;> first | rfl | (cases hu; done)
        simp only [weight, hm]
        have hle : ∀ k, wnode P j k ≤ wnode P s.j k := fun k => by
          by_cases hk : k = node a
          · subst hk; omega
          · rw [h3 k hk]
        have hs : 1 ≤ 2 * Layers.wsub X.N + 21 := by omega
        have := Layers.sum_drop (f := fun n => (wnode P s.j n + uncalled P s.l n) * (2 * Layers.wsub X.N + 21))
          (f' := fun n => (wnode P j n + uncalled P s.l n) * (2 * Layers.wsub X.N + 21)) (n := node a) (d := 1) (by
            have := Nat.mul_le_mul_right (2 * Layers.wsub X.N + 21) (show wnode P j (node a) + uncalled P s.l (node a) + 1 ≤ wnode P s.j (node a) + uncalled P s.l (node a) by omega)
            rw [Nat.add_mul _ 1, Nat.one_mul] at this
            omega) (fun m => Nat.mul_le_mul_right _ (Nat.add_le_add_right (hle m) _)) (I.mem _ h1)
        omega
      · cases h
    · cases h
  | exe a =>
    simp only [step] at h
    split at h
    · cases h
    · rename_i hg
      obtain ⟨l, hl, rfl⟩ := layers_ok h
      have h1 := Layers.weight_less hX.layers I.lr ha hl
      have h2 : ∀ k, l.g.pc k = .none → s.l.g.pc k = .none := by
        intro k hk
        rcases ChannelLayers.exe_graph (by simpa using hg) hl with h | ⟨n, h⟩
        · rw [← h]; exact hk
        · have := (I.pl.run h).2.2
          rw [this] at hk
          simp only [upd] at hk
          split at hk
          · cases hk
          · exact hk
      have h3 := Layers.sum_le (f := fun n => (wnode P s.j n + uncalled P s.l n) * (2 * Layers.wsub X.N + 21))
        (f' := fun n => (wnode P s.j n + uncalled P l n) * (2 * Layers.wsub X.N + 21)) s.nodes
        (fun m => Nat.mul_le_mul_right _ (Nat.add_le_add_left (uncalled_le h2 m) _))
      simp only [weight]
      omega
  | call n i =>
    simp only [step] at h
    split at h
    · rename_i hd
      obtain ⟨l, hl, rfl⟩ := layers_ok h
      obtain ⟨hn, hi⟩ := due_tasks I.jr hd
      obtain ⟨-, h0, hpc⟩ := I.pl.async (graph_ok hl)
      obtain ⟨h1, h2⟩ := uncalled_call (P := P) (l' := l) hi h0 (fun k => by rw [hpc]; rfl)
      have h3 := weight_async (I.lr.inv hX.layers) I.pl hl
      have h4 : X.layers.N = X.N := rfl
      have := Layers.sum_drop (f := fun n => (wnode P s.j n + uncalled P s.l n) * (2 * Layers.wsub X.N + 21))
        (f' := fun n => (wnode P s.j n + uncalled P l n) * (2 * Layers.wsub X.N + 21)) (n := n) (d := 2 * Layers.wsub X.N + 21) (by
          have := Nat.mul_le_mul_right (2 * Layers.wsub X.N + 21) (show wnode P s.j n + uncalled P l n + 1 ≤ wnode P s.j n + uncalled P s.l n by omega)
          rw [Nat.add_mul _ 1, Nat.one_mul] at this
          omega) (fun m => Nat.mul_le_mul_right _ (Nat.add_le_add_left (h2 m) _)) (I.mem _ hn)
      simp only [weight]
      rw [h3, h4]
      omega
    · cases h
  | over n i =>
    simp only [step] at h
    split at h
    · obtain ⟨l, hl, rfl⟩ := layers_ok h
      have h1 := Layers.weight_less hX.layers I.lr (a := .graph (.retVal _ 0)) rfl hl
      have h2 : ∀ k, l.g.pc k = .none → s.l.g.pc k = .none := by
        intro k hk
        rw [(I.pl.ret (graph_ok hl)).2.2] at hk
        simp only [upd] at hk
        split at hk
        · cases hk
        · exact hk
      have h3 := Layers.sum_le (f := fun n => (wnode P s.j n + uncalled P s.l n) * (2 * Layers.wsub X.N + 21))
        (f' := fun n => (wnode P s.j n + uncalled P l n) * (2 * Layers.wsub X.N + 21)) s.nodes
        (fun m => Nat.mul_le_mul_right _ (Nat.add_le_add_left (uncalled_le h2 m) _))
      simp only [weight]
      omega
    · cases h

theorem Next.reachable (h : Reachable P X s) (hn : Next P X s s') : Reachable P X s' := by
  obtain ⟨a, -, hn⟩ := hn
  exact .step a h hn

/-- **C111**: while users make no new futures there are only finitely many steps of the threads of the system, in whatever order they take them. -/
theorem c111_terminates (hX : X.Ok) (h : Reachable P X s) : Acc (fun s' s => Next P X s s') s := by
  have key : ∀ w s, weight P X s = w → Reachable P X s → Acc (fun s' s => Next P X s s') s := by
    intro w
    induction w using Nat.strongRecOn with
    | ind w ih =>
      intro s hw h
      constructor
      intro s' hn
      exact ih _ (hw ▸ weight_less hX h.inv hn) s' rfl (hn.reachable h)
  exact key _ s rfl h

theorem c111_no_infinite_run (hX : X.Ok) (h : Reachable P X s) (f : Nat → St) (h0 : f 0 = s) : ¬∀ n, Next P X (f n) (f (n + 1)) := by
  intro hf
  have key : ∀ s, Acc (fun s' s => Next P X s s') s → ∀ n, f n ≠ s := by
    intro s ha
    induction ha with
    | intro s _ ih =>
      intro n hn
      exact ih (f (n + 1)) (hn ▸ hf n) (n + 1) rfl
  exact key s (c111_terminates hX h) 0 h0

/-- **C111**: the system does come to rest, whatever its threads do, also with a single thread in the pool: a join that waits for its arguments holds
no thread. -/
theorem c111_rest (hX : X.Ok) (h : Reachable P X s) : Eventually P X (AtRest P X) s := by
  induction c111_terminates hX h with
  | intro s _ ih =>
    by_cases hr : AtRest P X s
    · exact .now hr
    · simp only [AtRest, Classical.not_forall, Classical.not_not] at hr
      exact .later hr fun s' hs => ih s' hs (hs.reachable h)

/-! ## At rest nothing is left to do -/

/-- A function that returns a future returns one that was made. (Functions make futures by themselves or get them from others; here a user makes them,
before the function returns.) -/
def Made (P : Prog) (s : St) : Prop := ∀ n x m, s.j.pc n = .running x → P.fn n x = .fut m → s.j.pc m ≠ .none

theorem graph_next {a : JoinGraph.Act} (hu : isUser a = false) (hr : runs s.l a = true) {j : JoinGraph.St} (h : JoinGraph.step P s.j a = .ok j) :
    ∃ s', Next P X s s' :=
  ⟨{ s with j := j, caller := calls s a, nodes := makes a s.nodes }, .graph a, by simp [internal, hu], by simp [step, hr, h]⟩

/-- At rest no function is being called. -/
theorem AtRest.idle (hm : Made P s) (r : AtRest P X s) (n : Nat) (x : JoinGraph.Input) : s.j.pc n ≠ .running x := by
  intro hn
  have : ∃ j, JoinGraph.step P s.j (.ret n) = .ok j := by
    simp only [JoinGraph.step, hn]
    cases hf : P.fn n x with
    | val v => exact ⟨_, rfl⟩
    | throw e => exact ⟨_, rfl⟩
    | fut m => simp only [JoinGraph.ret, hm n x m hn hf, if_false]; exact ⟨_, rfl⟩
  obtain ⟨j, hj⟩ := this
  obtain ⟨s', h1⟩ := graph_next (P := P) (X := X) (a := .ret n) rfl rfl hj
  exact r s' h1

/-- A step of a join that is possible. -/
theorem arg_next (I : Inv P X s) {n : Nat} {m : When.Mode} {args : List Nat} (hk : P.kind n = some (.join m args)) (h0 : s.j.pc n ≠ .none)
    {a : When.Act} (ha : JoinGraph.argOk s.j args a = true) (hd : a ≠ .drop) (hr : runs s.l (.arg n a) = true)
    (hs : When.step m args.length (s.j.w n) a ≠ .no) : ∃ s', Next P X s s' := by
  cases e : When.step m args.length (s.j.w n) a with
  | no => exact absurd e hs
  | ub => exact absurd e (When.no_undefined (join_pos I.jr hk h0) (I.jr.inv.2 n m args hk h0).reach a)
  | ok w' =>
    obtain ⟨j, hj⟩ := JoinGraph.arg_step hk h0 ha hd e
    exact graph_next (a := .arg n a) (by cases a <;> first | rfl | exact absurd rfl hd) hr hj

theorem isJoin_some {k : Option Kind} (h : isJoin k = true) : ∃ m args, k = some (.join m args) := by
  cases k with
  | none => cases h
  | some k => cases k <;> first | exact ⟨_, _, rfl⟩ | cases h

theorem AtRest.not_running (h : Reachable P X s) (hm : Made P s) (r : AtRest P X s) (t : Nat) : s.l.g.pc t ≠ .running := by
  intro ht
  have I := h.inv
  obtain ⟨n, i, rfl⟩ : ∃ n i, t = Nat.pair n i := ⟨t.unpair.1, t.unpair.2, (Nat.pair_unpair t).symm⟩
  have hidle := r.idle hm n
  have hrun : isRunning (s.j.pc n) = false := by
    cases hp : s.j.pc n <;> first | rfl | exact absurd hp (hidle _)
  cases he : ended s n i with
  | true =>
    have : ∃ s', step P X s (.over n i) = some s' := by
      simp [step, he, JoinLayers.layers, Layers.step, Graph.step, ht]
    obtain ⟨s', h1⟩ := this
    exact r s' ⟨_, rfl, h1⟩
  | false =>
    cases i with
    | zero =>
      simp only [ended, hrun, Bool.not_false, Bool.and_true, decide_eq_false_iff_not, ne_eq, Decidable.not_not] at he
      have hy := I.tsk n (by simp [ht])
      have : ∃ j, JoinGraph.step P s.j (.start n) = .ok j := by
        simp only [JoinGraph.step, he, if_true]
        cases hk : P.kind n with
        | none => simp [ready, hk] at hy
        | some k =>
          cases k with
          | async => exact ⟨_, rfl⟩
          | join m args => simp [ready, hk] at hy
          | thn p =>
            simp only [ready, hk] at hy
            obtain ⟨o, ho⟩ := Option.isSome_iff_exists.1 hy
            cases o <;> simp [JoinGraph.start, ho]
          | rcv p =>
            simp only [ready, hk] at hy
            obtain ⟨o, ho⟩ := Option.isSome_iff_exists.1 hy
            simp [JoinGraph.start, ho]
      obtain ⟨j, hj⟩ := this
      obtain ⟨s', h1⟩ := graph_next (X := X) (a := .start n) rfl (by simp [runs, ht]) hj
      exact r s' h1
    | succ i =>
      simp only [ended, hrun, Bool.and_false, Bool.not_false, Bool.and_true, decide_eq_false_iff_not] at he
      obtain ⟨h1, h2, h3⟩ := I.cnt n i (by simp [ht])
      obtain ⟨m, args, hk⟩ := isJoin_some h1
      have h0 := I.job n (i + 1) (by simp [ht])
      have J := I.jr.inv.2 n m args hk h0
      have W := J.reach.inv (join_pos I.jr hk h0)
      have go : ∀ a, JoinGraph.argOk s.j args a = true → a ≠ .drop → runs s.l (.arg n a) = true →
          When.step m args.length (s.j.w n) a ≠ .no → False := by
        intro a g1 g2 g3 g4
        obtain ⟨s', h1⟩ := arg_next I hk h0 g1 g2 g3 g4
        exact r s' h1
      cases hp : (s.j.w n).pc i with
      | none => exact h2 hp
      | queued => exact h3 hp
      | done => exact he hp
      | lost => exact J.disc i (W.lst i hp)
      | sched =>
        refine go (.run i) rfl (by simp) (by simp [runs, ht]) ?_
        simp only [When.step, hp]
        (repeat' split) <;> simp_all
      | running o => exact go (.crit i) rfl (by simp) rfl (by simp [When.step, hp])
      | fire =>
        refine go (.fire i) rfl (by simp) rfl ?_
        simp only [When.step, hp]
        (repeat' split) <;> simp_all

/-- The executors are at rest as well. -/
theorem AtRest.layers (h : Reachable P X s) (hm : Made P s) (r : AtRest P X s) : Layers.AtRest X.layers s.l := by
  intro a l ha hl
  have I := h.inv
  cases hg : isGraph a with
  | false => exact r { s with l := l } ⟨.exe a, ha, by simp [step, hg, JoinLayers.layers, hl]⟩
  | true =>
    cases a <;> simp only [isGraph, Bool.false_eq_true] at hg
    rename_i a
    have hs := graph_ok hl
    have hnr := r.not_running h hm
    cases a <;> simp only [Layers.internal, Bool.false_eq_true] at ha <;> simp only [Graph.step] at hs
    case retVal n v => simp [hnr n] at hs
    case retThrow n v => simp [hnr n] at hs
    case retFut n f =>
      split at hs
      · cases hs
      · simp [hnr n] at hs
    case flatten n =>
      have := I.pl.pcs n
      split at hs
      · simp_all
      · cases hs
    case reap n => simp [I.pl.own n] at hs

/-- At rest a task that was to be given to its executor was executed. -/
theorem AtRest.due (hX : X.Ok) (h : Reachable P X s) (hm : Made P s) (r : AtRest P X s) {n i : Nat} (hd : due P s.j n i = true) : ended s n i = true := by
  have I := h.inv
  have h1 := (Layers.c107_at_rest hX.layers I.lr (r.layers h hm)).1
  rcases I.pl.pcs (Nat.pair n i) with hp | hp | hp | hp
  · have : ∃ s', step P X s (.call n i) = some s' := by
      simp [step, hd, JoinLayers.layers, Layers.step, Graph.step, hp, I.pl.fut _ hp]
    obtain ⟨s', h2⟩ := this
    exact absurd ⟨_, rfl, h2⟩ (r s')
  · exact absurd hp (h1 _).1
  · exact absurd hp (h1 _).2.1
  · exact I.rdy n i hp

/-- **C111**: at rest nothing is left to do anywhere: in the graph of futures no task waits, nobody is inside `when_all` or `when_any`, and no function
is being called; all tasks given to the pool and to serial queues were executed, and no thread of the pool is calling one. -/
theorem c111_at_rest (hX : X.Ok) (h : Reachable P X s) (hm : Made P s) (r : AtRest P X s) :
    JoinGraph.Quiet P s.j ∧ (∀ t < s.l.p.next, .finish t ∈ s.l.p.trace) ∧ (∀ i < s.l.p.nth, ∀ t, s.l.p.th i ≠ .calling t) ∧
      ∀ q, SerialQueue.finished (s.l.q q).trace = SerialQueue.submitted (s.l.q q).trace := by
  have I := h.inv
  refine ⟨⟨fun a ha j hj => ?_, r.idle hm⟩, (Layers.c107_at_rest hX.layers I.lr (r.layers h hm)).2⟩
  have stop : isUser a = false → runs s.l a = true → False := fun hu hr => by
    obtain ⟨s', h1⟩ := graph_next (X := X) hu hr hj
    exact r s' h1
  cases a with
  | start n =>
    obtain ⟨-, -, h1, h2, -⟩ := graph_frame hj
    have := r.due (n := n) (i := 0) hX h hm (by simp only [node] at h1 h2; simp [JoinLayers.due, h1, h2])
    simp only [node] at h1
    simp [ended, h1] at this
  | flatten n => exact stop rfl rfl
  | arg n a =>
    cases a with
    | run i =>
      obtain ⟨-, -, m, args, h1, h2, h3, -⟩ := graph_frame hj
      simp only [node] at h1 h2 h3
      have hs : (s.j.w n).pc i = .sched := by
        simp only [When.step] at h3
        split at h3
        · cases h3
        · rename_i hx; simpa using hx
      have := r.due (n := n) (i := i + 1) hX h hm (by simp [JoinLayers.due, h1, h2, hs, isJoin])
      simp [ended, hs] at this
    | drop => cases ha
    | _ => exact stop rfl rfl
  | _ => cases ha

/-- **C111**: if nobody lets go of a future, then at rest every future that was made is resolved, whatever the executors, provided that no future
depends on itself. -/
theorem c111_all_resolved (hX : X.Ok) (h : Reachable P X s) (hm : Made P s) (r : AtRest P X s) {rank : Nat → Nat} (ac : Acyclic P rank)
    (ha : ∀ n, .abandoned n ∉ s.j.trace) {n : Nat} (hn : s.j.pc n ≠ .none) : ∃ o, .resolved n o ∈ s.j.trace :=
  JoinGraph.c98_complete ac h.inv.jr (c111_at_rest hX h hm r).1 ha hn

/-- **C111**: the outcomes do not depend on the executors: where there is nothing to choose, any two systems that run the same program resolve a future
with the same outcome. -/
theorem c111_same {X' : Cfg} {s' : St} (u : JoinGraph.Unforked P) (h : Reachable P X s) (h' : Reachable P X' s') {n : Nat} {o o' : Outcome}
    (ho : .resolved n o ∈ s.j.trace) (ho' : .resolved n o' ∈ s'.j.trace) : o = o' :=
  JoinGraph.c98_deterministic u h.inv.jr h'.inv.jr ho ho'

/-! ## Who calls the functions -/

/-- **C111**: of all nodes with the same serial queue the function of at most one is being called, be they made by `async`, `then`, `recover`,
`when_all` or `when_any`. -/
theorem c111_exclusive (hX : X.Ok) (h : Reachable P X s) {n n' q : Nat} {x x' : JoinGraph.Input} (hn : X.exe n = .serial q) (hn' : X.exe n' = .serial q)
    (h1 : s.j.pc n = .running x) (h2 : s.j.pc n' = .running x') : n = n' := by
  have I := h.inv
  have := Layers.c107_exclusive hX.layers I.lr (n := Nat.pair n (s.caller n)) (m := Nat.pair n' (s.caller n')) (j := q)
    (by simpa [Cfg.layers] using hn) (by simpa [Cfg.layers] using hn') (I.cal n x h1) (I.cal n' x' h2)
  exact (Nat.pair_eq_pair.1 this).1

/-- **C111**: the continuations on the arguments of a join that uses a serial queue come one after the other: while one is between its start and the end
of the function it calls, no other is. -/
theorem c111_join_serial (hX : X.Ok) (h : Reachable P X s) {n q i i' : Nat} (hn : X.exe n = .serial q)
    (h1 : (∃ o, (s.j.w n).pc i = .running o) ∨ (s.j.w n).pc i = .fire)
    (h2 : (∃ o, (s.j.w n).pc i' = .running o) ∨ (s.j.w n).pc i' = .fire ∨ ((∃ x, s.j.pc n = .running x) ∧ s.caller n = i' + 1)) : i = i' := by
  have I := h.inv
  have g1 : s.l.g.pc (Nat.pair n (i + 1)) = .running := by
    rcases h1 with ⟨o, h1⟩ | h1
    · exact I.run n i o h1
    · exact I.fir n i h1
  have g2 : s.l.g.pc (Nat.pair n (i' + 1)) = .running := by
    rcases h2 with ⟨o, h2⟩ | h2 | ⟨⟨x, h2⟩, h3⟩
    · exact I.run n i' o h2
    · exact I.fir n i' h2
    · rw [← h3]; exact I.cal n x h2
  have := Layers.c107_exclusive hX.layers I.lr (j := q) (by simpa [Cfg.layers] using hn) (by simpa [Cfg.layers] using hn) g1 g2
  simpa using this

/-- **C111**: no more functions of nodes that do not use `immediate_executor` are being called at the same time than the pool has threads, and each is
called by a thread of the pool. -/
theorem c111_threads (hX : X.Ok) (h : Reachable P X s) {l : List Nat} (hl : l.Nodup)
    (hb : ∀ n ∈ l, (∃ x, s.j.pc n = .running x) ∧ X.exe n ≠ .immediate) :
    l.length ≤ s.l.p.nth ∧ ∀ n ∈ l, ∃ k, Layers.CalledBy X.layers s.l (Nat.pair n (s.caller n)) k := by
  have I := h.inv
  have hr : ∀ t ∈ l.map fun n => Nat.pair n (s.caller n), s.l.g.pc t = .running ∧ X.layers.exe t ≠ .immediate := by
    intro t ht
    obtain ⟨n, hn, rfl⟩ := List.mem_map.1 ht
    obtain ⟨⟨x, h1⟩, h2⟩ := hb n hn
    exact ⟨I.cal n x h1, by simpa [Cfg.layers] using h2⟩
  refine ⟨?_, fun n hn => ?_⟩
  · have := Layers.c107_threads hX.layers I.lr (l := l.map fun n => Nat.pair n (s.caller n)) ?_ hr
    · simpa using this
    · refine List.Pairwise.map _ (fun x y hxy h => hxy ?_) hl
      exact (Nat.pair_eq_pair.1 h).1
  · have := hr _ (List.mem_map_of_mem (f := fun n : Nat => Nat.pair n (s.caller n)) hn)
    exact Layers.c107_called_by hX.layers I.lr this.1 this.2

/-! ## An execution

`when_all` of two `async`, all with the same serial queue over a pool with one thread. -/

def sumP : Prog where
  kind
    | 0 => some .async
    | 1 => some .async
    | 2 => some (.join .allPack [0, 1])
    | _ => none
  fn
    | 0, _ => .val 3
    | 1, _ => .val 4
    | _, .many xs _ => .val xs.sum
    | _, _ => .throw 0

def cfg : Cfg := { N := 1, limit := 1, M := 1, mode := fun _ => .single, exe := fun _ => .serial 0 }

theorem cfg_ok : cfg.Ok := ⟨by decide, fun _ _ h => (by cases h), fun _ _ h => (by cases h; decide)⟩

/-- The serial queue gives its job to the pool, whose thread takes it and calls the next function. -/
def next : List Act :=
  [.exe (.pool (.tryPush 0 true)), .exe (.pool (.notify 0)), .exe (.pool (.tryPop 0 true)), .exe (.begin 0), .exe (.serve 0 0), .exe (.serve 0 0)]

/-- The function returns, and the queue has another. -/
def again : List Act := [.exe (.serve 0 0), .exe (.serve 0 0), .exe (.serve 0 0), .exe (.finish 0)]

/-- The futures are made and the function of node 0 is called. -/
def first : List Act :=
  [.graph (.create 0), .graph (.create 1), .graph (.create 2), .graph (.arg 2 .attach), .graph (.arg 2 .store), .graph (.arg 2 .attach),
   .graph (.arg 2 .store), .call 0 0, .call 1 0, .exe (.give 0 0), .exe (.give 2 0), .exe (.kick 0 0)] ++ next ++ [.graph (.start 0)]

/-- It returns: the continuation of the join on it is with the queue, after the task of node 1. -/
def second : List Act :=
  [.graph (.ret 0), .graph (.arg 2 (.resolve 0 (.val 3))), .call 2 1, .exe (.give 7 0), .over 0 0] ++ again ++ next ++
  [.graph (.start 1), .graph (.ret 1), .graph (.arg 2 (.resolve 1 (.val 4))), .call 2 2, .exe (.give 8 0), .over 1 0] ++ again ++ next ++
  [.graph (.arg 2 (.run 0))]

/-- The last continuation calls the function of the join. -/
def third : List Act :=
  [.graph (.arg 2 (.crit 0)), .over 2 1] ++ again ++ next ++ [.graph (.arg 2 (.run 1)), .graph (.arg 2 (.crit 1)), .graph (.arg 2 (.fire 1))]

/-- Nothing is left to do. -/
def fourth : List Act :=
  [.graph (.ret 2), .over 2 2, .exe (.serve 0 0), .exe (.serve 0 0), .exe (.finish 0), .exe (.pool (.tryPop 0 true)), .exe (.pool (.enter 0))]

theorem exec_reachable {as : List Act} (h : Reachable P X s) (he : exec P X s as = some s') : Reachable P X s' := by
  induction as generalizing s with
  | nil => cases he; exact h
  | cons a as ih =>
    obtain ⟨s1, h1, h2⟩ := Option.bind_eq_some_iff.1 he
    exact ih (.step a h h1) h2

theorem witness {as : List Act} (f : St → Bool) (h : (exec P X (init X) as).any f = true) : ∃ s, Reachable P X s ∧ f s = true := by
  cases h1 : exec P X (init X) as with
  | none => rw [h1] at h; cases h
  | some s => rw [h1] at h; exact ⟨s, exec_reachable .init h1, h⟩

/-- The hypotheses of `c111_exclusive` and `c111_threads`: a function is being called while another task waits for the same serial queue. -/
example : ∃ s, Reachable sumP cfg s ∧ s.j.pc 0 = .running .unit ∧ s.j.pc 1 = .queued ∧ s.l.g.pc (Nat.pair 1 0) = .sched := by
  obtain ⟨s, h, hf⟩ := witness (P := sumP) (X := cfg) (as := first)
    (fun s => decide (s.j.pc 0 = .running .unit ∧ s.j.pc 1 = .queued ∧ s.l.g.pc (Nat.pair 1 0) = .sched)) (by decide)
  exact ⟨s, h, by simpa using hf⟩

/-- The hypotheses of `c111_join_serial`: a continuation of the join is being called, the other waits. -/
example : ∃ s, Reachable sumP cfg s ∧ (s.j.w 2).pc 0 = .running (.val 3) ∧ (s.j.w 2).pc 1 = .sched ∧ s.l.g.pc (Nat.pair 2 2) = .sched := by
  obtain ⟨s, h, hf⟩ := witness (P := sumP) (X := cfg) (as := first ++ second)
    (fun s => decide ((s.j.w 2).pc 0 = .running (.val 3) ∧ (s.j.w 2).pc 1 = .sched ∧ s.l.g.pc (Nat.pair 2 2) = .sched)) (by decide)
  exact ⟨s, h, by simpa using hf⟩

/-- The function of the join is called by the continuation on its last argument. -/
example : ∃ s, Reachable sumP cfg s ∧ s.j.pc 2 = .running (.many [3, 4] none) ∧ s.caller 2 = 2 ∧ s.l.g.pc (Nat.pair 2 2) = .running := by
  obtain ⟨s, h, hf⟩ := witness (P := sumP) (X := cfg) (as := first ++ second ++ third)
    (fun s => decide (s.j.pc 2 = .running (.many [3, 4] none) ∧ s.caller 2 = 2 ∧ s.l.g.pc (Nat.pair 2 2) = .running)) (by decide)
  exact ⟨s, h, by simpa using hf⟩

/-- A state at rest, as in the hypotheses of `c111_at_rest` and `c111_all_resolved`. -/
example : ∃ s, Reachable sumP cfg s ∧ Made sumP s ∧ AtRest sumP cfg s ∧ Acyclic sumP id ∧ (∀ n, .abandoned n ∉ s.j.trace) ∧ s.j.pc 2 ≠ .none ∧
    .resolved 2 (.val 7) ∈ s.j.trace := by
  obtain ⟨s, h, hf⟩ := witness (P := sumP) (X := cfg) (as := first ++ second ++ third ++ fourth) (fun s => (weight sumP cfg s == 0) &&
    decide (s.j.pc 2 = .ready) && decide (s.j.trace = [.called 0 .unit, .resolved 0 (.val 3), .called 1 .unit, .resolved 1 (.val 4),
      .called 2 (.many [3, 4] none), .resolved 2 (.val 7)])) (by decide)
  simp only [Bool.and_eq_true, decide_eq_true_eq, beq_iff_eq] at hf
  obtain ⟨⟨h1, h2⟩, h3⟩ := hf
  refine ⟨s, h, ?_, fun s' hn => ?_, ⟨?_, ?_⟩, ?_, by simp [h2], by simp [h3]⟩
  · intro n x m _ hm
    unfold sumP at hm
    simp only at hm
    split at hm <;> cases hm
  · have := weight_less cfg_ok h.inv hn
    omega
  · intro n k p hk hp
    unfold sumP at hk
    simp only at hk
    split at hk <;> cases hk <;> simp [Kind.parents] at hp <;> simp only [id] <;> omega
  · intro n x m hm
    unfold sumP at hm
    simp only at hm
    split at hm <;> cases hm
  · intro n hn; rw [h3] at hn; simp at hn

end Verif.JoinLayers
