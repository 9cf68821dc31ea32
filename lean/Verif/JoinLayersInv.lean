import Verif.JoinLayers
import Verif.ChannelLayersInv
import Verif.Future.JoinGraphInv

/-!
# Invariant of `when_all` and `when_any` on the executors of the library
-/

namespace Verif.JoinLayers

open Verif.Shared (upd Outcome)
open Verif.JoinGraph (Prog Kind)
open Verif.ChannelLayers (Cfg isGraph Plain graph_ok exe_graph)

variable {P : Prog} {X : Cfg} {s s' : St}

/-! ## What a step of the graph does -/

/-- What a step does to its node: `p`, `w`, `o` before, `p'`, `w'`, `o'` after. -/
def Does (P : Prog) (j : JoinGraph.St) (j' : JoinGraph.St) (n : Nat) : JoinGraph.Act → Prop
  | .create _ => j.pc n = .none ∧ j'.pc n = .queued ∧ ∃ k, j'.w n = When.init k
  | .start _ => j.pc n = .queued ∧ ready P j n = true ∧ j'.w n = j.w n ∧ ((∃ x, j'.pc n = .running x) ∨ j'.pc n = .ready)
  | .arg _ a => ∃ m args, P.kind n = some (.join m args) ∧ j.pc n ≠ .none ∧ When.step m args.length (j.w n) a = .ok (j'.w n) ∧ (∀ i, a ≠ .discard i) ∧
      ((∀ i, a ≠ .fire i) → a ≠ .drop → j'.pc n = j.pc n) ∧
      (a = .drop → j.pc n = .queued ∧ j'.pc n = .dead) ∧
      ∀ i, a = .fire i → ((j.w n).kept = true → (∃ x, j'.pc n = .running x) ∨ j'.pc n = .ready) ∧
        (¬(j.w n).kept = true → j'.pc n = j.pc n)
  | .ret _ => (∃ x, j.pc n = .running x) ∧ j'.w n = j.w n ∧ ((∃ m, j'.pc n = .waiting m) ∨ j'.pc n = .ready)
  | .flatten _ => (∃ m, j.pc n = .waiting m) ∧ j'.w n = j.w n ∧ j'.pc n = .ready
  | .abandon _ => (j.pc n = .queued ∨ ∃ m, j.pc n = .waiting m) ∧ j'.w n = j.w n ∧ j'.pc n = .dead

def node : JoinGraph.Act → Nat
  | .create n | .start n | .arg n _ | .ret n | .flatten n | .abandon n => n

theorem graph_frame {j j' : JoinGraph.St} {a : JoinGraph.Act} (h : JoinGraph.step P j a = .ok j') :
    (∀ k, k ≠ node a → j'.pc k = j.pc k ∧ j'.w k = j.w k) ∧ (∀ k, (j.out k).isSome = true → (j'.out k).isSome = true) ∧ Does P j j' (node a) a := by
  cases a with
  | create n =>
    simp only [JoinGraph.step] at h
    repeat' split at h
    all_goals cases h
    rename_i k _ hc
    refine ⟨fun k hk => ?_, fun k hk => hk, hc.1, ?_, k.parents.length, ?_⟩ <;> simp_all [node, upd]
  | start n =>
    simp only [JoinGraph.step] at h
    split at h
    · rename_i hq
      cases hk : P.kind n with
      | none => rw [hk] at h; cases h
      | some k =>
        rw [hk] at h
        cases k <;> simp only [JoinGraph.start] at h <;> (repeat' split at h) <;> cases h <;>
          (refine ⟨fun k hk => ?_, fun k hk => ?_, hq, ?_, ?_, ?_⟩ <;>
            simp_all [node, upd, JoinGraph.call, JoinGraph.resolve, ready] <;> grind)
    · cases h
  | arg n a =>
    simp only [JoinGraph.step] at h
    split at h
    · rename_i m args hk
      split at h
      · cases h
      · rename_i hc
        split at h
        · cases h
        · cases h
        · rename_i w' hw
          simp only [not_or] at hc
          have hd : ∀ i, a ≠ .discard i := fun i hi => hc.2 (by rw [hi]; rfl)
          cases a with
          | drop =>
            simp only [JoinGraph.after] at h
            split at h <;> cases h
            refine ⟨fun k hk => ?_, fun k hk => hk, m, args, hk, hc.1, ?_, hd, ?_, ?_, ?_⟩ <;> simp_all [node, upd]
          | fire i =>
            simp only [JoinGraph.after] at h
            split at h
            · split at h <;> cases h
              all_goals
                refine ⟨fun k hk => ?_, fun k hk => ?_, m, args, hk, hc.1, ?_, hd, ?_, ?_, ?_⟩ <;>
                  simp_all [node, upd, JoinGraph.call, JoinGraph.resolve] <;> grind
            · cases h
              refine ⟨fun k hk => ?_, fun k hk => ?_, m, args, hk, hc.1, ?_, hd, ?_, ?_, ?_⟩ <;> simp_all [node, upd]
          | _ =>
            simp only [JoinGraph.after] at h
            cases h
            refine ⟨fun k hk => ?_, fun k hk => hk, m, args, hk, hc.1, ?_, hd, ?_, ?_, ?_⟩ <;> simp_all [node, upd]
    · cases h
  | ret n =>
    simp only [JoinGraph.step] at h
    split at h
    · rename_i x hx
      cases hf : P.fn n x <;> rw [hf] at h <;> simp only [JoinGraph.ret] at h
      · cases h
        refine ⟨fun k hk => ?_, fun k hk => ?_, ⟨x, hx⟩, ?_, ?_⟩ <;> simp_all [node, upd, JoinGraph.resolve] <;> grind
      · cases h
        refine ⟨fun k hk => ?_, fun k hk => ?_, ⟨x, hx⟩, ?_, ?_⟩ <;> simp_all [node, upd, JoinGraph.resolve] <;> grind
      · split at h <;> cases h
        refine ⟨fun k hk => ?_, fun k hk => hk, ⟨x, hx⟩, ?_, ?_⟩ <;> simp_all [node, upd]
    · cases h
  | flatten n =>
    simp only [JoinGraph.step] at h
    split at h
    · rename_i m hm
      split at h <;> cases h
      refine ⟨fun k hk => ?_, fun k hk => ?_, ⟨m, hm⟩, ?_, ?_⟩ <;> simp_all [node, upd, JoinGraph.resolve] <;> grind
    · cases h
  | abandon n =>
    simp only [JoinGraph.step] at h
    repeat' split at h
    all_goals cases h
    all_goals
      refine ⟨fun k hk => ?_, fun k hk => hk, ?_, ?_, ?_⟩ <;> simp_all [node, upd]

/-- What a step of a join does to the continuation on argument `i`. -/
theorem when_pc {m : When.Mode} {k : Nat} {w w' : When.St} {a : When.Act} (h : When.step m k w a = .ok w') (ha : ∀ i, a ≠ .discard i) (i : Nat) :
    w'.pc i = w.pc i ∨ (a = .attach ∧ i = w.att ∧ i < k ∧ (w'.pc i = .queued ∨ w'.pc i = .sched)) ∨
      (w.pc i = .queued ∧ w'.pc i = .sched) ∨
      (a = .run i ∧ w.pc i = .sched ∧ (w'.pc i = .done ∨ ∃ o, w'.pc i = .running o)) ∨
      (a = .crit i ∧ (∃ o, w.pc i = .running o) ∧ (w'.pc i = .done ∨ w'.pc i = .fire)) ∨
      (a = .fire i ∧ w.pc i = .fire ∧ w'.pc i = .done) := by
  cases a <;> simp only [When.step] at h <;> (repeat' split at h) <;> cases h <;> simp only [upd] <;> grind

/-! ## Invariant -/

structure Inv (P : Prog) (X : Cfg) (s : St) : Prop where
  jr : JoinGraph.Reachable P s.j
  lr : Layers.Reachable X.layers s.l
  pl : Plain s.l.g
  mem : ∀ n, s.j.pc n ≠ .none → n ∈ s.nodes
  job : ∀ n i, s.l.g.pc (Nat.pair n i) ≠ .none → s.j.pc n ≠ .none
  tsk : ∀ n, s.l.g.pc (Nat.pair n 0) ≠ .none → ready P s.j n = true
  cnt : ∀ n i, s.l.g.pc (Nat.pair n (i + 1)) ≠ .none → isJoin (P.kind n) = true ∧ (s.j.w n).pc i ≠ .none ∧ (s.j.w n).pc i ≠ .queued
  run : ∀ n i o, (s.j.w n).pc i = .running o → s.l.g.pc (Nat.pair n (i + 1)) = .running
  fir : ∀ n i, (s.j.w n).pc i = .fire → s.l.g.pc (Nat.pair n (i + 1)) = .running
  cal : ∀ n x, s.j.pc n = .running x → s.l.g.pc (Nat.pair n (s.caller n)) = .running
  rdy : ∀ n i, s.l.g.pc (Nat.pair n i) = .ready → ended s n i = true

theorem Inv.init : Inv P X (init X) := by
  refine ⟨⟨[], rfl⟩, .init, ⟨?_, ?_, ?_, ?_⟩, ?_, ?_, ?_, ?_, ?_, ?_, ?_, ?_⟩ <;>
    simp [JoinLayers.init, Layers.init, When.init]

theorem ready_join {j : JoinGraph.St} {n : Nat} {m : When.Mode} {args : List Nat} (h : P.kind n = some (.join m args)) : ready P j n = false := by
  simp [ready, h]

theorem ready_mono {j j' : JoinGraph.St} (h : ∀ k, (j.out k).isSome = true → (j'.out k).isSome = true) {n : Nat} (hr : ready P j n = true) :
    ready P j' n = true := by
  cases hk : P.kind n with
  | none => simp [ready, hk] at hr
  | some k => cases k <;> simp_all [ready]

theorem ready_not_join {j : JoinGraph.St} {n : Nat} (h : ready P j n = true) : isJoin (P.kind n) = false := by
  cases hk : P.kind n with
  | none => rfl
  | some k => cases k <;> simp_all [ready, isJoin]

theorem Reachable.snoc {j j' : JoinGraph.St} (r : JoinGraph.Reachable P j) {a : JoinGraph.Act} (e : JoinGraph.step P j a = .ok j') :
    JoinGraph.Reachable P j' := by
  obtain ⟨as, h⟩ := r
  refine ⟨as ++ [a], ?_⟩
  generalize ({} : JoinGraph.St) = s0 at *
  induction as generalizing s0 with
  | nil => simp only [JoinGraph.exec, Option.some.injEq] at h; subst h; simp [JoinGraph.exec, e]
  | cons b bs ih =>
    simp only [JoinGraph.exec, List.cons_append] at h ⊢
    cases hb : JoinGraph.step P s0 b with
    | ok s1 => rw [hb] at h; exact ih s1 h
    | _ => rw [hb] at h; cases h

theorem join_pos {j : JoinGraph.St} (r : JoinGraph.Reachable P j) {n : Nat} {m : When.Mode} {args : List Nat} (hk : P.kind n = some (.join m args))
    (hn : j.pc n ≠ .none) : 0 < args.length := by
  obtain ⟨k, h1, -, h3⟩ := r.inv.1.par n hn
  rw [hk] at h1; cases h1
  cases args with
  | nil => cases h3
  | cons => simp

theorem Inv.graph (I : Inv P X s) {a : JoinGraph.Act} {j : JoinGraph.St} (hr : runs s.l a = true) (h : JoinGraph.step P s.j a = .ok j) :
    Inv P X { s with j := j, caller := calls s a, nodes := makes a s.nodes } := by
  have jr := Reachable.snoc I.jr h
  have jr0 := I.jr
  obtain ⟨f1, f2, f3⟩ := graph_frame h
  obtain ⟨-, lr, pl, mem, job, tsk, cnt, run, fir, cal, rdy⟩ := I
  have key : ∀ n, s.j.pc n ≠ .none → j.pc n ≠ .none := by
    intro n hn
    by_cases hk : n = node a
    · subst hk
      cases a <;> simp only [Does, node] at f3 hn ⊢
      all_goals grind
    · rw [(f1 n hk).1]; exact hn
  have tsk' : ∀ n, s.l.g.pc (Nat.pair n 0) ≠ .none → ready P j n = true := fun n hn => ready_mono f2 (tsk n hn)
  have base : ∀ n, n ≠ node a → calls s a n = s.caller n := by
    intro n hn
    cases a with
    | start k => simp only [node] at hn; simp [calls, upd, hn]
    | arg k a =>
      simp only [node] at hn
      cases a <;> simp only [calls]
      split <;> simp [upd, hn]
    | _ => rfl
  have att : ∀ n m args, P.kind n = some (.join m args) → s.j.pc n ≠ .none → (s.j.w n).pc (s.j.w n).att = .none := by
    intro n m args hk hn
    have W := (jr0.inv.2 n m args hk hn).reach.inv (join_pos jr0 hk hn)
    have := W.attb (s.j.w n).att
    grind
  refine ⟨jr, lr, pl, ?_, fun n i hn => key n (job n i hn), tsk', ?_, ?_, ?_, ?_, ?_⟩
  · intro n hn
    by_cases hk : n = node a
    · subst hk
      cases a <;> simp only [Does, node, makes] at f3 hn ⊢
      all_goals grind
    · have := mem n (by rw [← (f1 n hk).1]; exact hn)
      cases a <;> simp only [makes] <;> first | assumption | exact List.mem_cons_of_mem _ this
  · intro n i hn
    have h1 := cnt n i hn
    refine ⟨h1.1, ?_⟩
    by_cases hk : n = node a
    · subst hk
      have hj := job _ _ hn
      cases a with
      | arg k a =>
        simp only [Does, node] at f3 hn h1 hj ⊢
        obtain ⟨m, args, g1, g2, g3, g4, -⟩ := f3
        have := when_pc g3 g4 i
        have := att k m args g1 g2
        grind
      | _ => simp only [Does, node] at f3 hn h1 hj ⊢; grind
    · rw [(f1 n hk).2]; exact h1.2
  · intro n i o hn
    by_cases hk : n = node a
    · subst hk
      cases a with
      | arg k a =>
        simp only [Does, node] at f3 hn ⊢
        obtain ⟨m, args, g1, g2, g3, g4, -⟩ := f3
        have := run k i o
        rcases when_pc g3 g4 i with h | h | h | h | h | h
        · grind
        · grind
        · grind
        · obtain ⟨rfl, -⟩ := h
          simpa [runs] using hr
        · grind
        · grind
      | create k =>
        simp only [Does, node] at f3 hn ⊢
        obtain ⟨-, -, m, h3⟩ := f3
        rw [h3] at hn; simp [When.init] at hn
      | _ => simp only [Does, node] at f3 hn ⊢; grind
    · rw [(f1 n hk).2] at hn; exact run n i o hn
  · intro n i hn
    by_cases hk : n = node a
    · subst hk
      cases a with
      | arg k a =>
        simp only [Does, node] at f3 hn ⊢
        obtain ⟨m, args, g1, g2, g3, g4, -⟩ := f3
        have := fir k i
        have := run k i
        have := when_pc g3 g4 i
        grind
      | create k =>
        simp only [Does, node] at f3 hn ⊢
        obtain ⟨-, -, m, h3⟩ := f3
        rw [h3] at hn; simp [When.init] at hn
      | _ => simp only [Does, node] at f3 hn ⊢; grind
    · rw [(f1 n hk).2] at hn; exact fir n i hn
  · intro n x hn
    simp only at hn
    by_cases hk : n = node a
    · subst hk
      cases a with
      | start k => simpa [node, calls, upd, runs] using hr
      | arg k a =>
        simp only [Does, node] at f3 hn ⊢
        obtain ⟨m, args, g1, g2, g3, g4, g5, g6, g7⟩ := f3
        cases a with
        | fire i =>
          have g8 := g7 i rfl
          simp only [calls]
          by_cases hkept : (s.j.w k).kept = true
          · simp only [hkept, if_true, upd]
            exact fir k i (by
              have := when_pc g3 g4 i
              simp only [When.step] at g3
              split at g3
              · cases g3
              · grind)
          · have g8 := g8.2 hkept
            simp only [hkept]
            exact cal k x (by rw [← g8]; exact hn)
        | drop => have := (g6 rfl).2; rw [this] at hn; cases hn
        | _ => exact cal k x (by rw [← g5 (by simp) (by simp)]; exact hn)
      | create k => simp only [Does, node] at f3 hn; grind
      | _ => simp only [Does, node, calls] at f3 hn ⊢; grind
    · simp only [base n hk]
      exact cal n x (by rw [← (f1 n hk).1]; exact hn)
  · intro n i hn
    have h1 := rdy n i hn
    have hj := job n i (by simp only at hn; simp [hn])
    by_cases hk : n = node a
    · cases i with
      | zero =>
        have h2 := ready_not_join (tsk n (by simp only at hn; simp [hn]))
        subst hk
        simp only [ended, Bool.and_eq_true, Bool.not_eq_true', decide_eq_true_eq] at h1 ⊢
        cases a with
        | arg k a =>
          simp only [Does, node] at f3 h2
          obtain ⟨m, args, g1, -⟩ := f3
          simp [g1, isJoin] at h2
        | start k => simp only [runs, node] at hr hn; simp_all
        | create k => simp only [Does, node] at f3 hj; grind
        | _ => simp only [Does, node] at f3 h1 ⊢; grind [isRunning]
      | succ i =>
        have h2 := cnt n i (by simp only at hn; simp [hn])
        subst hk
        simp only [ended, Bool.and_eq_true, Bool.not_eq_true', decide_eq_true_eq, Bool.and_eq_false_iff, decide_eq_false_iff_not] at h1 ⊢
        cases a with
        | arg k a =>
          simp only [Does, node] at f3 h1 hn ⊢
          obtain ⟨m, args, g1, g2, g3, g4, g5, g6, g7⟩ := f3
          have hw := when_pc g3 g4 i
          have ha := att k m args g1 g2
          refine ⟨by grind, ?_⟩
          cases a with
          | fire i' =>
            have g8 := g7 i' rfl
            have hf : (s.j.w k).pc i' = .fire := by
              simp only [When.step] at g3
              split at g3
              · cases g3
              · rename_i hx; simpa using hx
            simp only [calls]
            by_cases hkept : (s.j.w k).kept = true
            · simp only [hkept, if_true, upd]
              left
              intro he
              have : i' = i := by omega
              subst this
              rw [hf] at h1
              cases h1.1
            · have g8 := g8.2 hkept
              simp only [hkept]
              rw [g8]
              exact h1.2
          | drop => right; rw [(g6 rfl).2]; rfl
          | _ => rw [g5 (by simp) (by simp)]; exact h1.2
        | start k =>
          simp only [Does, node] at f3 h2
          rw [ready_not_join f3.2.1] at h2
          cases h2.1
        | create k => simp only [Does, node] at f3 hj; grind
        | _ => simp only [Does, node, calls] at f3 h1 ⊢; grind [isRunning]
    · cases i <;> simp only [ended, (f1 n hk).1, (f1 n hk).2, base n hk] at h1 ⊢ <;> exact h1

theorem layers_ok {a : Layers.Act} (h : layers X s a = some s') : ∃ l, Layers.step X.layers s.l a = .ok l ∧ s' = { s with l := l } := by
  simp only [layers] at h
  split at h <;> cases h
  exact ⟨_, ‹_›, rfl⟩

theorem ended_l {l : Layers.St} (n i : Nat) : ended { s with l := l } n i = ended s n i := by cases i <;> rfl

theorem Inv.exe (I : Inv P X s) {a : Layers.Act} {l : Layers.St} (ha : isGraph a = false) (h : Layers.step X.layers s.l a = .ok l) :
    Inv P X { s with l := l } := by
  have hl := Layers.Reachable.step a I.lr h
  rcases exe_graph ha h with hg | ⟨n, hg⟩
  · obtain ⟨jr, lr, pl, mem, job, tsk, cnt, run, fir, cal, rdy⟩ := I
    refine ⟨jr, hl, ?_, mem, ?_, ?_, ?_, ?_, ?_, ?_, ?_⟩ <;> simp only [hg, ended_l] <;> assumption
  · obtain ⟨hp, hs, hpc⟩ := I.pl.run hg
    have hpc' : ∀ k, l.g.pc k = if k = n then .running else s.l.g.pc k := fun k => by rw [hpc]; rfl
    obtain ⟨jr, lr, pl, mem, job, tsk, cnt, run, fir, cal, rdy⟩ := I
    refine ⟨jr, hl, hp, mem, ?_, ?_, ?_, ?_, ?_, ?_, ?_⟩ <;> simp only [hpc', ended_l] <;> grind

theorem Inv.step (I : Inv P X s) (a : Act) (h : step P X s a = some s') : Inv P X s' := by
  have inj : ∀ n i n' i', Nat.pair n' i' = Nat.pair n i ↔ n' = n ∧ i' = i := fun n i n' i' => by simp
  cases a with
  | graph a =>
    simp only [JoinLayers.step] at h
    split at h
    · split at h <;> cases h
      exact I.graph ‹_› ‹_›
    · cases h
  | exe a =>
    simp only [JoinLayers.step] at h
    split at h
    · cases h
    · obtain ⟨l, hl, rfl⟩ := layers_ok h
      exact I.exe (by simpa using ‹¬isGraph a = true›) hl
  | call n i =>
    simp only [JoinLayers.step] at h
    split at h
    · rename_i hd
      obtain ⟨l, hl, rfl⟩ := layers_ok h
      have hr := Layers.Reachable.step _ I.lr hl
      obtain ⟨hp, hs, hpc⟩ := I.pl.async (graph_ok hl)
      have hpc' : ∀ k, l.g.pc k = if k = Nat.pair n i then .sched else s.l.g.pc k := fun k => by rw [hpc]; rfl
      obtain ⟨jr, lr, pl, mem, job, tsk, cnt, run, fir, cal, rdy⟩ := I
      have hj : s.j.pc n ≠ .none := by cases i <;> simp_all [due]
      have ht : i = 0 → ready P s.j n = true := by rintro rfl; simp_all [due]
      have hc : ∀ k, i = k + 1 → isJoin (P.kind n) = true ∧ (s.j.w n).pc k = .sched := by rintro k rfl; simp_all [due]
      refine ⟨jr, hr, hp, mem, ?_, ?_, ?_, ?_, ?_, ?_, ?_⟩ <;> simp only [hpc', inj, ended_l]
      · grind
      · grind
      · intro n' i' h'
        split at h'
        · rename_i he
          obtain ⟨rfl, rfl⟩ := he
          have := hc i' rfl
          simp [this]
        · exact cnt n' i' h'
      · grind
      · grind
      · grind
      · grind
    · cases h
  | over n i =>
    simp only [JoinLayers.step] at h
    split at h
    · rename_i he
      obtain ⟨l, hl, rfl⟩ := layers_ok h
      have hr := Layers.Reachable.step _ I.lr hl
      obtain ⟨hp, hs, hpc⟩ := I.pl.ret (graph_ok hl)
      have hpc' : ∀ k, l.g.pc k = if k = Nat.pair n i then .ready else s.l.g.pc k := fun k => by rw [hpc]; rfl
      obtain ⟨jr, lr, pl, mem, job, tsk, cnt, run, fir, cal, rdy⟩ := I
      have h0 : i = 0 → isRunning (s.j.pc n) = false := by rintro rfl; simp_all [ended]
      have h1 : ∀ k, i = k + 1 → (s.j.w n).pc k = .done ∧ (¬s.caller n = k + 1 ∨ isRunning (s.j.pc n) = false) := by
        rintro k rfl; simpa [ended] using he
      have hcal : ∀ x, s.j.pc n = .running x → s.caller n ≠ i := by
        intro x hx hc
        cases i with
        | zero => simp [hx, isRunning] at h0
        | succ i => simp [hx, hc, isRunning] at h1
      refine ⟨jr, hr, hp, mem, ?_, ?_, ?_, ?_, ?_, ?_, ?_⟩ <;> simp only [hpc', inj, ended_l]
      · grind
      · grind
      · grind
      · grind
      · grind
      · grind
      · grind
    · cases h

theorem Reachable.inv (h : Reachable P X s) : Inv P X s := by
  induction h with
  | init => exact Inv.init
  | step a _ h ih => exact ih.step a h

end Verif.JoinLayers
