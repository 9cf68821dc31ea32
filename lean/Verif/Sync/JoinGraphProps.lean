import Verif.Sync.JoinGraphFrame
import Verif.Future.JoinGraphProps

/-!
# Happens-before in graphs with `when_all` and `when_any`
-/

namespace Verif.Sync.JoinGraph

open Verif.JoinGraph (Prog Kind Pc Event Input Inv Joins Join)
open Verif.Shared (Outcome Err)
open Verif.When (Mode)

variable {P : Prog} {τ τ' : St}

/-- The resolution of node `p` is known in clock `c`. -/
def Knows (τ : St) (p : Nat) (c : Clock) : Prop := τ.g.out p ≠ none ∧ leq (τ.rdy p) c

/-- What is known when the function of a node is called. -/
def Args (τ : St) (x : Input) (c : Clock) : Option Kind → Prop
  | some (.thn p) | some (.rcv p) => Knows τ p c
  | some (.join m args) =>
    if m.isAll then ∀ p ∈ args, Knows τ p c else ∃ xs i p, x = .many xs (some i) ∧ args[i]? = some p ∧ Knows τ p c
  | _ => True

/-- What is known when a node is resolved with `o` though its function was not called. -/
def Fails (τ : St) (o : Outcome) (c : Clock) : Option Kind → Prop
  | some (.thn p) => τ.g.out p = some o ∧ leq (τ.rdy p) c
  | some (.join m args) => if m.isAll then ∃ p ∈ args, τ.g.out p = some o ∧ leq (τ.rdy p) c else ∀ p ∈ args, Knows τ p c
  | _ => False

/-- The join `n`. -/
abbrev JoinKnows (τ : St) (n : Nat) (m : Mode) (args : List Nat) : Prop :=
  JK m args.length (τ.g.w n) (fun j c => ∀ p, args[j]? = some p → leq (τ.rdy p) c) (τ.at_ n) (fun i => τ.vc (τ.wt n i)) (τ.gd n)

structure HB (P : Prog) (τ : St) : Prop where
  inv : Inv P τ.g
  joins : Joins P τ.g
  tr : τ.log.map Prod.fst = τ.g.trace
  rd : ∀ e ∈ τ.log, ∀ n o, e.1 = .resolved n o → e.2 = τ.rdy n
  mx : ∀ p, τ.g.out p ≠ none → leq (τ.rdy p) (τ.mx p)
  k1 : ∀ n x, τ.g.pc n = .running x → ∀ e ∈ τ.log, ∀ y, e.1 = .called n y → leq e.2 (τ.vc (τ.thr n))
  k2 : ∀ n m, τ.g.pc n = .waiting m → ∀ e ∈ τ.log, ∀ y, e.1 = .called n y → leq e.2 (τ.tk n)
  k3 : ∀ n p, needs P τ.g n = some p → τ.g.out p ≠ none → leq (τ.rdy p) (τ.tk n)
  k4 : ∀ n, τ.g.out n ≠ none → ∀ e ∈ τ.log, ∀ y, e.1 = .called n y → leq e.2 (τ.rdy n)
  jn : ∀ n m args, P.kind n = some (.join m args) → τ.g.pc n ≠ .none → JoinKnows τ n m args
  a1 : ∀ e ∈ τ.log, ∀ n x, e.1 = .called n x → Args τ x e.2 (P.kind n)
  a2 : ∀ e ∈ τ.log, ∀ n o, e.1 = .resolved n o → (∀ x, .called n x ∉ τ.g.trace) → Fails τ o e.2 (P.kind n)
  a3 : ∀ e ∈ τ.log, ∀ n o, e.1 = .resolved n o → ∀ x m, .called n x ∈ τ.g.trace → P.fn n x = .fut m → τ.g.out m = some o ∧ leq (τ.rdy m) e.2

theorem HB.init : HB P {} where
  inv := Verif.JoinGraph.Inv.init P
  joins n m args _ h := absurd rfl h
  tr := rfl
  rd e h := by cases h
  mx p h := absurd rfl h
  k1 n x h := by cases h
  k2 n x h := by cases h
  k3 n x h h' := absurd rfl h'
  k4 n h := absurd rfl h
  jn n m args _ h := absurd rfl h
  a1 e h := by cases h
  a2 e h := by cases h
  a3 e h := by cases h

/-- How the clocks change in a step. -/
structure Tick (P : Prog) (τ τ' : St) (a : Verif.JoinGraph.Act) (c : Clock) : Prop where
  vc : ∀ x, leq (τ.vc x) (τ'.vc x)
  ret : ∀ n, a = .ret n → leq (τ.vc (τ.thr n)) c
  crit : ∀ n i, a = .arg n (.crit i) → leq (τ.gd n) c ∧ τ'.vc (τ.wt n i) = c ∧ τ'.gd n = c
  fire : ∀ n i, a = .arg n (.fire i) → leq (τ.vc (τ.wt n i)) c
  start : ∀ n, a = .start n ∨ a = .flatten n → leq (τ.tk n) c
  run : ∀ n i, a = .arg n (.run i) → leq (τ.at_ n i) c ∧ τ'.vc (τ'.wt n i) = c
  att : ∀ n, a = .arg n .attach → τ'.at_ n (τ.g.w n).att = c
  ares : ∀ n i o, a = .arg n (.resolve i o) → leq (argRdy P τ n i) (τ'.at_ n i)
  thr : ∀ n, ¬ (τ.g.pc n = .queued ∧ τ'.g.pc n ≠ .queued) → τ'.thr n = τ.thr n
  thr' : ∀ n, τ.g.pc n = .queued → τ'.g.pc n ≠ .queued → τ'.vc (τ'.thr n) = c
  wt : ∀ n i, a ≠ .arg n (.run i) → τ'.wt n i = τ.wt n i
  at_ : ∀ n i, ¬ (a = .arg n .attach ∧ i = (τ.g.w n).att) → leq (τ.at_ n i) (τ'.at_ n i)
  gd : ∀ n, leq (τ.gd n) (τ'.gd n)
  rdy : ∀ n, fresh τ.g τ'.g n = false → τ'.rdy n = τ.rdy n
  rdy' : ∀ n, fresh τ.g τ'.g n = true → τ'.rdy n = c
  mx : ∀ n, τ'.mx n = τ.mx n ∨ (leq (τ.mx n) c ∧ τ'.mx n = c)
  lk : ∀ n, locks P τ.g τ'.g a = some n → leq (τ.mx n) c ∧ τ'.mx n = c
  tk : ∀ k, leq (τ.tk k) (τ'.tk k) ∨ a = .create k ∨ a = .ret k
  tkc : ∀ k, a = .create k ∨ a = .ret k → τ'.tk k = c
  tkf : ∀ k p, needs P τ'.g k = some p → fresh τ.g τ'.g p = true → leq c (τ'.tk k)

theorem leq_upd (c : Clock) (w : Nat) : leq c (upd c w (c w + 1)) := by
  intro i
  simp only [upd]
  split
  · subst i; omega
  · exact Nat.le_refl _

theorem clock_vc (τ : St) (w : Nat) (t : Clock) (l : Option Nat) : leq (τ.vc w) (clock τ w t l) ∧ leq t (clock τ w t l) ∧
    ∀ p, l = some p → leq (τ.mx p) (clock τ w t l) := by
  unfold clock
  cases l with
  | none => exact ⟨(leq_joinl _ _).trans (leq_upd _ _), (leq_joinr _ _).trans (leq_upd _ _), fun p h => by cases h⟩
  | some q =>
    refine ⟨((leq_joinl _ _).trans (leq_joinl _ _)).trans (leq_upd _ _), ((leq_joinr _ _).trans (leq_joinl _ _)).trans (leq_upd _ _), fun p h => ?_⟩
    cases h
    exact (leq_joinr _ _).trans (leq_upd _ _)

theorem tick {a : Verif.JoinGraph.Act} {u : Nat} (h : step P τ (.graph a u) = some τ') :
    Verif.JoinGraph.step P τ.g a = .ok τ'.g ∧ ∃ c, Tick P τ τ' a c ∧ τ'.log = τ.log ++ (τ'.g.trace.drop τ.g.trace.length).map (·, c) := by
  simp only [step] at h
  split at h
  · rename_i g' hg
    cases h
    refine ⟨hg, _, ?_, rfl⟩
    have C := clock_vc τ (who τ u a) (taken τ a) (locks P τ.g g' a)
    generalize clock τ (who τ u a) (taken τ a) (locks P τ.g g' a) = c at *
    obtain ⟨C1, C2, C3⟩ := C
    constructor
    · intro x
      simp only [upd]
      split
      · subst x; exact C1
      · exact leq.refl _
    · rintro n rfl; exact C1
    · rintro n i rfl
      exact ⟨C2, by simp [upd, who], by simp [upd]⟩
    · rintro n i rfl; exact C1
    · rintro n (rfl | rfl) <;> exact C2
    · rintro n i rfl
      exact ⟨C2, by simp [upd]⟩
    · rintro n rfl; simp
    · rintro n i o rfl; simp; exact leq_joinr _ _
    · intro n hn; simp only; rw [if_neg hn]
    · intro n h1 h2; simp only; rw [if_pos ⟨h1, h2⟩]; simp [upd]
    · intro n i hn; simp only; rw [if_neg hn]
    · intro n i hn
      simp only
      split
      · split
        · rename_i h; obtain ⟨rfl, rfl⟩ := h; exact absurd ⟨rfl, rfl⟩ hn
        · exact leq.refl _
      · split
        · exact leq_joinl _ _
        · exact leq.refl _
      · exact leq.refl _
    · intro n
      simp only
      split
      · rename_i k i
        by_cases hn : n = k
        · subst hn; simpa [upd, taken] using C2
        · simpa [upd, hn] using leq.refl _
      · exact leq.refl _
    · intro n hn; simp only; rw [if_neg (by simp [hn])]
    · intro n hn; simp only; rw [if_pos hn]
    · intro n
      simp only
      split
      · rename_i h; exact .inr ⟨C3 n h, rfl⟩
      · exact .inl rfl
    · intro n hn; simp only; rw [if_pos hn]; exact ⟨C3 n hn, rfl⟩
    · intro k
      simp only
      split
      · rename_i h; exact .inr h
      · split
        · exact .inl (leq_joinl _ _)
        · exact .inl (leq.refl _)
    · intro k hk; simp only; rw [if_pos hk]
    · intro k p hk hf
      simp only at hk hf ⊢
      split
      · exact leq.refl _
      · rw [if_pos (by rw [hk]; exact hf)]
        exact leq_joinr _ _
  · cases h

/-- What an argument was resolved with. -/
theorem argOut {m : Mode} {args : List Nat} {pc : Pc} {out : Nat → Option Outcome} {w : When.St} (J : Join m args pc out w) (h0 : 0 < args.length)
    {i : Nat} {o : Outcome} (h : w.arg i = some o) : ∃ p, args[i]? = some p ∧ out p = some o :=
  J.arg i o (((When.Reachable.inv h0 J.reach).argt i o).2 h)

/-- The function of `when_all` or `when_any` is called with arguments that are known. -/
theorem fire_call {m : Mode} {args : List Nat} {pc : Pc} {out : Nat → Option Outcome} {w w' : When.St} {i : Nat} (J : Join m args pc out w)
    (h0 : 0 < args.length) (e : When.step m args.length w (.fire i) = .ok w') (hk : w.kept = true) {xs : List Nat} {idx : Option Nat}
    (hc : When.call m args.length w.ctx = .call xs idx) {R : Nat → Prop} (T : Told m args.length w R) :
    if m.isAll then ∀ j, j < args.length → w.arg j ≠ none ∧ R j else ∃ j, idx = some j ∧ j < args.length ∧ w.arg j ≠ none ∧ R j := by
  unfold Told at T
  split at T
  · rename_i hm
    rw [if_pos hm]
    obtain ⟨j, hv⟩ := (J.fire hk h0 e).1 xs idx hc
    cases he : w.ctx.exc with
    | none => exact T.1 he
    | some er =>
      exfalso
      obtain ⟨l, h1, h2, -⟩ := T.2 er he
      obtain ⟨p, h3, h4⟩ := argOut J h0 h2
      have : Verif.JoinGraph.allVals (args.map out) = none := Verif.JoinGraph.allVals_exc (i := l) (e := er) (by simp [h3, h4])
      simp only [Verif.JoinGraph.verdict, hm, if_true, this] at hv
      split at hv <;> simp at hv
  · rename_i hm
    rw [if_neg hm]
    cases m <;> simp only [When.Mode.isAll, not_true_eq_false] at hm <;> simp only [When.call] at hc
    · split at hc
      · cases hc
      · split at hc
        · rename_i v j _ hj
          cases hc
          exact ⟨j, rfl, T.1 j hj⟩
        · cases hc
    · split at hc
      · cases hc
      · cases hc
        cases hj : w.ctx.index with
        | none => exact ⟨0, rfl, h0, T.2 hj 0 h0⟩
        | some j => exact ⟨j, rfl, T.1 j hj⟩

theorem any_all {n : Nat} {w : When.St} (D : When.AnyData n w.trace w.ctx) (S : When.SeenOk n w.trace) {er : Err} (he : w.ctx.exc = some er) :
    w.ctx.index = none := by
  cases hj : w.ctx.index with
  | none => rfl
  | some j =>
    exfalso
    have hr : w.ctx.remaining = 0 := by
      have := D.exc
      rw [he] at this
      split at this
      · assumption
      · cases this
    have hb := D.both
    rw [hj] at hb
    obtain ⟨v, hv⟩ := Option.isSome_iff_exists.1 hb
    have hf := D.first
    rw [hv, hj] at hf
    have hval := When.vals_mem.1 (List.mem_of_mem_head? hf)
    have hc := D.cnt
    rw [hr, Nat.zero_add] at hc
    obtain ⟨e, h⟩ := When.bad_iff.1 (When.cnt_full hc j (S.lt _ _ hval))
    cases S.uniq j _ _ hval h

/-- The result of `when_all` or `when_any` is an error that is known. -/
theorem fire_fail {m : Mode} {args : List Nat} {w : When.St} (I : When.Inv m args.length w) {er : Err}
    (hc : When.call m args.length w.ctx = .throw er) {R : Nat → Prop} (T : Told m args.length w R) :
    if m.isAll then ∃ j, j < args.length ∧ w.arg j = some (.exc er) ∧ R j else ∀ j, j < args.length → w.arg j ≠ none ∧ R j := by
  have D := I.data
  unfold Told at T
  split at T
  · rename_i hm
    rw [if_pos hm]
    refine T.2 er ?_
    cases m <;> simp only [When.Mode.isAll, Bool.false_eq_true] at hm <;> simp only [When.call] at hc
    · split at hc
      · cases hc
      · split at hc
        · rename_i h; cases hc; exact h
        · cases hc
    · split at hc
      · rename_i h; cases hc; exact h
      · cases hc
  · rename_i hm
    rw [if_neg hm]
    cases m <;> simp only [When.Mode.isAll, not_true_eq_false] at hm <;> simp only [When.call] at hc
    · split at hc
      · rename_i h; exact T.2 (any_all D I.seenOk h)
      · split at hc <;> cases hc
    · split at hc
      · rename_i h; exact T.2 (any_all D.1 I.seenOk h)
      · cases hc

theorem fresh_iff {g g' : Verif.JoinGraph.St} {n : Nat} : fresh g g' n = true ↔ g.out n = none ∧ g'.out n ≠ none := by simp [fresh]

/-- A step of the graph. -/
theorem HB.graph (H : HB P τ) {a : Verif.JoinGraph.Act} {c : Clock} (hg : Verif.JoinGraph.step P τ.g a = .ok τ'.g) (T : Tick P τ τ' a c)
    (hlog : τ'.log = τ.log ++ (τ'.g.trace.drop τ.g.trace.length).map (·, c)) : HB P τ' := by
  have I := H.inv
  obtain ⟨I', J'⟩ := Verif.JoinGraph.step_inv I H.joins hg
  obtain ⟨hfr, htrc⟩ := frame hg
  have E := eff hg
  have htr : ∀ e ∈ τ.log, e.1 ∈ τ.g.trace := fun e h => by rw [← H.tr]; exact List.mem_map_of_mem h
  have hno : ∀ n o, τ.g.out n = some o → Event.resolved n o ∈ τ.g.trace := fun n o h => Verif.JoinGraph.outs_mem (by rw [← I.out]; exact h)
  have hyes : ∀ n o, Event.resolved n o ∈ τ.g.trace → τ.g.out n ≠ none := fun n o h => by
    obtain ⟨q, hq⟩ := Verif.JoinGraph.outs_some h
    rw [I.out, hq]; simp
  -- the events of the step
  obtain ⟨evs, he, hev⟩ : ∃ evs, τ'.g.trace = τ.g.trace ++ evs ∧ ∀ e ∈ evs, node e = subj a ∧ evs = [e] := by
    rcases htrc with ⟨h, -⟩ | ⟨x, h, -⟩ | ⟨x, h, -⟩ | ⟨h, -⟩
    · exact ⟨[], by simp [h], by simp⟩
    all_goals exact ⟨_, h, by simp [node]⟩
  have hlog' : τ'.log = τ.log ++ evs.map (·, c) := by rw [hlog, he, List.drop_left]
  have hlm : ∀ e, e ∈ τ'.log → e ∈ τ.log ∨ (e.1 ∈ evs ∧ e.2 = c) := by
    intro e h
    rw [hlog'] at h
    rcases List.mem_append.1 h with h | h
    · exact .inl h
    · obtain ⟨x, h1, rfl⟩ := List.mem_map.1 h
      exact .inr ⟨h1, rfl⟩
  have hmem : ∀ e, e ∈ τ'.g.trace ↔ e ∈ τ.g.trace ∨ e ∈ evs := fun e => by rw [he]; exact List.mem_append
  have hok : ∀ e ∈ evs, Verif.JoinGraph.Ok P τ.g.trace e := by
    intro e h
    refine I'.legal τ.g.trace e [] ?_
    rw [he, (hev e h).2]
  have hcalled : ∀ n x, Event.called n x ∈ evs → ∀ y, Event.called n y ∉ τ.g.trace := fun n x h => (hok _ h).1
  have hres : ∀ n o, Event.resolved n o ∈ evs → τ.g.out n = none ∧ τ'.g.out n = some o ∧ n = subj a := by
    intro n o h
    have h1 := (hok _ h).1
    refine ⟨?_, ?_, (hev _ h).1⟩
    · cases hq : τ.g.out n with
      | none => rfl
      | some q => exact absurd (hno n q hq) (h1 q)
    · have h3 := (hev _ h).2
      have h2 := (hev _ h).1
      simp only [node] at h2
      rcases htrc with ⟨h', -⟩ | ⟨x, h', -⟩ | ⟨x, h', -, h4⟩ | ⟨h', -⟩ <;> rw [he] at h'
      · rw [h3] at h'; simp at h'
      · rw [List.append_cancel_left h'] at h; simp at h
      · rw [List.append_cancel_left h'] at h
        simp only [List.mem_singleton, Event.resolved.injEq] at h
        rw [h4, ← h.1, h.2]; simp [Shared.upd]
      · rw [List.append_cancel_left h'] at h; simp at h
  have hfresh : ∀ n, fresh τ.g τ'.g n = true → ∃ o, Event.resolved n o ∈ evs := by
    intro n h
    obtain ⟨h1, h2⟩ := fresh_iff.1 h
    obtain ⟨o, ho⟩ := Option.ne_none_iff_exists'.1 h2
    have : Event.resolved n o ∈ τ'.g.trace := Verif.JoinGraph.outs_mem (by rw [← I'.out]; exact ho)
    rcases (hmem _).1 this with h | h
    · exact absurd h1 (hyes n o h)
    · exact ⟨o, h⟩
  have hout : ∀ n o, τ.g.out n = some o → τ'.g.out n = some o := by
    intro n o h
    rw [I'.out, he]
    exact Verif.JoinGraph.outs_ext _ _ n o (by rw [← I.out]; exact h)
  have hout' : ∀ n, τ.g.out n ≠ none → τ'.g.out n ≠ none := fun n h => by
    obtain ⟨o, ho⟩ := Option.ne_none_iff_exists'.1 h
    rw [hout n o ho]; simp
  have hrdy : ∀ n, τ.g.out n ≠ none → τ'.rdy n = τ.rdy n := by
    intro n h
    refine T.rdy n ?_
    rw [Bool.eq_false_iff]
    exact fun h' => h (fresh_iff.1 h').1
  have hnew : ∀ n, τ.g.out n = none → τ'.g.out n ≠ none → τ'.rdy n = c := fun n h h' => T.rdy' n (fresh_iff.2 ⟨h, h'⟩)
  have hkn : ∀ p d, Knows τ p d → Knows τ' p d := fun p d h => ⟨hout' p h.1, by rw [hrdy p h.1]; exact h.2⟩
  have hargs : ∀ x d k, Args τ x d k → Args τ' x d k := by
    intro x d k h
    unfold Args at h ⊢
    split at h
    · exact hkn _ _ h
    · exact hkn _ _ h
    · split at h
      · rename_i hm; rw [if_pos hm]; exact fun p hp => hkn _ _ (h p hp)
      · rename_i hm; rw [if_neg hm]
        obtain ⟨xs, i, p, h1, h2, h3⟩ := h
        exact ⟨xs, i, p, h1, h2, hkn _ _ h3⟩
    · exact trivial
  have hfails : ∀ o d k, Fails τ o d k → Fails τ' o d k := by
    intro o d k h
    unfold Fails at h ⊢
    split at h
    · exact ⟨hout _ _ h.1, by rw [hrdy _ (by rw [h.1]; simp)]; exact h.2⟩
    · split at h
      · rename_i hm; rw [if_pos hm]
        obtain ⟨p, h1, h2, h3⟩ := h
        exact ⟨p, h1, hout _ _ h2, by rw [hrdy _ (by rw [h2]; simp)]; exact h3⟩
      · rename_i hm; rw [if_neg hm]; exact fun p hp => hkn _ _ (h p hp)
    · exact h.elim
  have hmx : ∀ p, leq (τ.mx p) (τ'.mx p) := fun p => by
    rcases T.mx p with h | h
    · rw [h]; exact leq.refl _
    · rw [h.2]; exact h.1
  -- the node of the step
  have hevs : ∀ l, τ'.g.trace = τ.g.trace ++ l → evs = l := fun l h => List.append_cancel_left (he.symm.trans h)
  have hevs0 : τ'.g.trace = τ.g.trace → evs = [] := fun h => hevs [] (by simp [h])
  have hfire : ∀ n m args i, P.kind n = some (.join m args) → τ.g.pc n ≠ .none → When.step m args.length (τ.g.w n) (.fire i) = .ok (τ'.g.w n) →
      (τ.g.w n).kept = true → τ.g.pc n = .queued ∧ 0 < args.length ∧ (τ.g.w n).pc i = .fire := by
    intro n m args i hk h0 hs hkp
    have J := H.joins n m args hk h0
    obtain ⟨k, hk', -, hb⟩ := I.par n h0
    rw [hk] at hk'
    cases hk'
    have hl : 0 < args.length := by
      cases args with
      | nil => cases hb
      | cons => simp
    refine ⟨J.keep.2 ⟨hkp, (J.fire hkp hl hs).2.2.1⟩, hl, ?_⟩
    simp only [When.step] at hs
    split at hs
    · cases hs
    · rename_i h; simpa using h
  have hpos : ∀ n m args, P.kind n = some (.join m args) → τ.g.pc n ≠ .none → 0 < args.length := by
    intro n m args hk h0
    obtain ⟨k, hk', -, hb⟩ := I.par n h0
    rw [hk] at hk'
    cases hk'
    cases args with
    | nil => cases hb
    | cons => simp
  have hrun : ∀ n x, τ'.g.pc n = .running x → (Event.called n x ∈ evs ∧ τ.g.pc n = .queued) ∨ τ.g.pc n = .running x := by
    intro n x h
    by_cases hn : n = subj a
    · subst hn
      cases E with
      | create n k _ _ h3 => cases h3.symm.trans h
      | call n y h1 h2 h3 =>
        cases h2.symm.trans h
        exact .inl ⟨by rw [hevs _ h3]; exact List.mem_singleton_self _, h1⟩
      | fail n p e _ h2 => cases h2.symm.trans h
      | arg n m args a _ _ _ _ h5 => exact .inr (h5.symm.trans h)
      | drop n m args _ _ _ h4 => cases h4.symm.trans h
      | fireCall n m args i xs idx hk h0 hs hkp hc h6 h7 =>
        cases h6.symm.trans h
        exact .inl ⟨by rw [hevs _ h7]; exact List.mem_singleton_self _, (hfire n m args i hk h0 hs hkp).1⟩
      | fireFail n m args i e hk h0 hs hkp hc h6 => cases h6.symm.trans h
      | ret n y o _ _ h3 => cases h3.symm.trans h
      | wait n y m _ _ h3 => cases h3.symm.trans h
      | flatten n m o _ _ h3 => cases h3.symm.trans h
      | abandon n _ h2 => cases h2.symm.trans h
    · right; rw [← (hfr n hn).1]; exact h
  have hstay : ∀ n, (τ'.g.pc n = .queued ∨ ∃ m, τ'.g.pc n = .waiting m) → a ≠ .create n → a ≠ .ret n → τ.g.pc n = τ'.g.pc n := by
    intro n h ha ha'
    by_cases hn : n = subj a
    · subst hn
      cases E with
      | create n => exact absurd rfl ha
      | call n y h1 h2 h3 => rcases h with h | ⟨m, h⟩ <;> cases h2.symm.trans h
      | fail n p e _ h2 => rcases h with h | ⟨m, h⟩ <;> cases h2.symm.trans h
      | arg n m args a _ _ _ _ h5 => exact h5.symm
      | drop n m args _ _ _ h4 => rcases h with h | ⟨m, h⟩ <;> cases h4.symm.trans h
      | fireCall n m args i xs idx hk h0 hs hkp hc h6 h7 => rcases h with h | ⟨m, h⟩ <;> cases h6.symm.trans h
      | fireFail n m args i e hk h0 hs hkp hc h6 => rcases h with h | ⟨m, h⟩ <;> cases h6.symm.trans h
      | ret n => exact absurd rfl ha'
      | wait n => exact absurd rfl ha'
      | flatten n m o _ _ h3 => rcases h with h | ⟨m, h⟩ <;> cases h3.symm.trans h
      | abandon n _ h2 => rcases h with h | ⟨m, h⟩ <;> cases h2.symm.trans h
    · exact (hfr n hn).1.symm
  have hcr : ∀ n x, Event.called n x ∈ evs → τ'.g.pc n = .running x := by
    intro n x h
    have h2 := (hev _ h).1
    simp only [node] at h2
    rcases htrc with ⟨h', -⟩ | ⟨y, h', h4, -⟩ | ⟨y, h', -⟩ | ⟨h', -⟩
    · rw [hevs0 h'] at h; cases h
    · rw [hevs _ h'] at h
      simp only [List.mem_singleton, Event.called.injEq] at h
      rw [h.1, h.2]; exact h4
    · rw [hevs _ h'] at h; simp at h
    · rw [hevs _ h'] at h; simp at h
  have hcu : ∀ n x y, Event.called n x ∈ τ.g.trace → Event.called n y ∈ τ.g.trace → x = y := by
    intro n x y h h'
    obtain ⟨s, t, hst⟩ := List.append_of_mem h
    have h1 := (I.legal s _ t hst).1
    rw [hst] at h'
    rcases List.mem_append.1 h' with h' | h'
    · exact absurd h' (h1 y)
    · rcases List.mem_cons.1 h' with h' | h'
      · cases h'; rfl
      · obtain ⟨s', t', hst'⟩ := List.append_of_mem h'
        have := (I.legal (s ++ .called n x :: s') (.called n y) t' (by rw [hst, hst']; simp)).1 x
        simp at this
  have hknow : ∀ n p, needs P τ.g n = some p → τ.g.out p ≠ none → leq (τ.tk n) c → Knows τ' p c := by
    intro n p h h' h''
    exact ⟨hout' p h', by rw [hrdy p h']; exact (H.k3 n p h h').trans h''⟩
  have hC : ∀ n o, Event.resolved n o ∈ evs → ∀ e ∈ τ.log, ∀ y, e.1 = .called n y → leq e.2 c := by
    intro n o h e hl y hy
    have hy' : Event.called n y ∈ τ.g.trace := hy ▸ htr e hl
    obtain ⟨-, -, hn⟩ := hres n o h
    subst hn
    cases E with
    | create n k _ _ _ h4 => rw [hevs0 h4] at h; cases h
    | call n y h1 h2 h3 => rw [hevs _ h3] at h; simp at h
    | fail n p e h1 => exact absurd hy' (I.fresh n (.inr h1) y)
    | arg n m args a _ _ _ _ _ h6 => rw [hevs0 h6] at h; cases h
    | drop n m args _ _ _ _ h5 => rw [hevs _ h5] at h; simp at h
    | fireCall n m args i xs idx hk h0 hs hkp hc h6 h7 => rw [hevs _ h7] at h; simp at h
    | fireFail n m args i e hk h0 hs hkp hc h6 => exact absurd hy' (I.fresh n (.inr (hfire n m args i hk h0 hs hkp).1) y)
    | ret n x o h1 => exact (H.k1 n x h1 e hl y hy).trans (T.ret n rfl)
    | wait n x m h1 h2 h3 h4 => rw [hevs0 h4] at h; cases h
    | flatten n m o h1 => exact (H.k2 n m h1 e hl y hy).trans (T.start n (.inr rfl))
    | abandon n _ h2 h3 => rw [hevs _ h3] at h; simp at h
  refine ⟨I', J', ?_, ?_, ?_, ?_, ?_, ?_, ?_, ?_, ?_, ?_, ?_⟩
  · -- the log
    rw [hlog', he, List.map_append, H.tr, List.map_map]
    congr 1
    exact (List.map_congr_left fun _ _ => rfl).trans (List.map_id _)
  · intro e h n o h'
    rcases hlm e h with h | ⟨h, h2⟩
    · rw [hrdy n (hyes n o (h' ▸ htr e h))]
      exact H.rd e h n o h'
    · rw [h'] at h
      obtain ⟨h3, h4, -⟩ := hres n o h
      rw [h2, hnew n h3 (by rw [h4]; simp)]
  · -- the mutexes
    intro p hp
    by_cases h : τ.g.out p = none
    · rw [hnew p h hp]
      obtain ⟨o, ho⟩ := hfresh p (fresh_iff.2 ⟨h, hp⟩)
      have hs := (hres p o ho).2.2
      have : locks P τ.g τ'.g a = some p := by
        unfold locks
        rw [← hs]
        exact if_pos (fresh_iff.2 ⟨h, hp⟩)
      rw [(T.lk p this).2]; exact leq.refl _
    · rw [hrdy p h]; exact (H.mx p h).trans (hmx p)
  · -- running
    intro n x hx e h y hy
    rcases hrun n x hx with ⟨h1, h2⟩ | h1
    · rcases hlm e h with h | ⟨h, h3⟩
      · exact absurd (hy ▸ htr e h) (hcalled n x h1 y)
      · rw [h3, T.thr' n h2 (by rw [hx]; simp)]; exact leq.refl _
    · rcases hlm e h with h | ⟨h, h3⟩
      · rw [T.thr n (by rw [h1]; simp)]
        exact (H.k1 n x h1 e h y hy).trans (T.vc _)
      · rw [hy] at h
        exact absurd (I.run n x h1) (hcalled n y h x)
  · -- waiting
    intro n m hx e h y hy
    rcases hlm e h with h | ⟨h, -⟩
    · by_cases ha : a = .ret n
      · subst ha
        rw [T.tkc n (.inr rfl)]
        cases E with
        | ret _ x o _ _ h3 => rw [hx] at h3; cases h3
        | wait _ x m h1 => exact (H.k1 n x h1 e h y hy).trans (T.ret n rfl)
      · by_cases ha' : a = .create n
        · subst ha'
          cases E with
          | create _ k _ _ h3 => rw [hx] at h3; cases h3
        · have := hstay n (.inr ⟨m, hx⟩) ha' ha
          rcases T.tk n with h1 | h1 | h1
          · exact (H.k2 n m (this.trans hx) e h y hy).trans h1
          · exact absurd h1 ha'
          · exact absurd h1 ha
    · rw [hy] at h
      have := hcr n y h
      rw [hx] at this; cases this
  · -- tasks
    intro n p hn hp
    by_cases h0 : τ.g.out p = none
    · rw [hnew p h0 hp]
      exact T.tkf n p hn (fresh_iff.2 ⟨h0, hp⟩)
    · rw [hrdy p h0]
      by_cases ha : a = .ret n ∨ a = .create n
      · have hl : locks P τ.g τ'.g a = some p := by
          rcases ha with rfl | rfl
          · cases E with
            | ret _ x o _ _ h3 => simp [needs, h3] at hn
            | wait _ x m h1 h2 h3 h4 h5 => simp [locks, fresh, subj, h5, hn]
          · cases E with
            | create _ k h1 h2 h3 h4 h5 => simp [locks, fresh, subj, h5, hn]
        rw [T.tkc n ha.symm]
        exact (H.mx p h0).trans (T.lk p hl).1
      · have h1 : a ≠ .ret n := fun h => ha (.inl h)
        have h2 : a ≠ .create n := fun h => ha (.inr h)
        have hs : τ.g.pc n = τ'.g.pc n := by
          refine hstay n ?_ h2 h1
          simp only [needs] at hn
          split at hn
          · rename_i h; exact .inr ⟨_, h⟩
          · rename_i h _; exact .inl h
          · rename_i h _; exact .inl h
          · cases hn
        have : needs P τ.g n = some p := by rw [← hn]; simp only [needs, hs]
        rcases T.tk n with h3 | h3 | h3
        · exact (H.k3 n p this h0).trans h3
        · exact absurd h3 h2
        · exact absurd h3 h1
  · -- ready
    intro n hn e h y hy
    by_cases h0 : τ.g.out n = none
    · obtain ⟨o, ho⟩ := hfresh n (fresh_iff.2 ⟨h0, hn⟩)
      rw [hnew n h0 hn]
      rcases hlm e h with h | ⟨-, h⟩
      · exact hC n o ho e h y hy
      · rw [h]; exact leq.refl _
    · rw [hrdy n h0]
      rcases hlm e h with h | ⟨h, -⟩
      · exact H.k4 n h0 e h y hy
      · exfalso
        rw [hy] at h
        obtain ⟨o, ho⟩ := Option.ne_none_iff_exists'.1 h0
        exact (hok _ h).2.1 o (hno n o ho)
  · -- joins
    intro n m args hk hn
    have hRm : ∀ (J : Join m args (τ.g.pc n) τ.g.out (τ.g.w n)), 0 < args.length → ∀ j c c', (τ.g.w n).arg j ≠ none → leq c c' →
        (∀ p, args[j]? = some p → leq (τ.rdy p) c) → ∀ p, args[j]? = some p → leq (τ'.rdy p) c' := by
      intro J hl j d d' hj hd h p hp
      obtain ⟨o, ho⟩ := Option.ne_none_iff_exists'.1 hj
      obtain ⟨q, hq, hq'⟩ := argOut J hl ho
      rw [hp] at hq
      cases hq
      rw [hrdy p (by rw [hq']; simp)]
      exact (h p hp).trans hd
    have hsame : τ.g.pc n ≠ .none → τ'.g.w n = τ.g.w n → (∀ a', a ≠ .arg n a') → JoinKnows τ' n m args := by
      intro h0 hw ha
      have J := H.joins n m args hk h0
      have hl := hpos n m args hk h0
      unfold JoinKnows
      rw [hw]
      refine (H.jn n m args hk h0).mono (When.Reachable.inv hl J.reach) (hRm J hl) (fun i => T.at_ n i fun h => ha _ h.1) (fun i => ?_) (T.gd n)
      rw [T.wt n i (ha _)]
      exact T.vc _
    have hstep : ∀ a', a = .arg n a' → τ.g.pc n ≠ .none → Verif.JoinGraph.argOk τ.g args a' = true →
        When.step m args.length (τ.g.w n) a' = .ok (τ'.g.w n) → JoinKnows τ' n m args := by
      intro a' ha h0 hao hs
      subst ha
      have J := H.joins n m args hk h0
      have hl := hpos n m args hk h0
      refine (H.jn n m args hk h0).step (When.Reachable.inv hl J.reach) hs (hRm J hl) (fun j d d' hd h p hp => (h p hp).trans hd) ?_ ?_ ?_ ?_ ?_ ?_ (T.gd n)
      · intro i hi
        exact T.at_ n i fun h => hi (by simpa using h)
      · rintro rfl hat p hp
        rw [T.att n rfl]
        obtain ⟨o, ho⟩ := Option.ne_none_iff_exists'.1 hat
        obtain ⟨q, hq, hq'⟩ := argOut J hl ho
        rw [hp] at hq
        cases hq
        have h1 : τ.g.out p ≠ none := by rw [hq']; simp
        rw [hrdy p h1]
        refine (H.mx p h1).trans (T.lk p ?_).1
        have hf : fresh τ.g τ'.g n = false := by
          rw [Bool.eq_false_iff]
          intro hf
          obtain ⟨o, ho⟩ := hfresh n hf
          rcases htrc with ⟨h', -⟩ | ⟨y, h', -⟩ | ⟨y, h', h6, -⟩ | ⟨h', -⟩
          · rw [hevs0 h'] at ho; cases ho
          · rw [hevs _ h'] at ho; simp at ho
          · cases E with
            | arg _ _ _ _ _ _ _ _ _ h7 => rw [hevs0 h7] at ho; cases ho
          · rw [hevs _ h'] at ho; simp at ho
        simp [locks, subj, hf, hk, hp]
      · rintro i o rfl p hp
        simp only [Verif.JoinGraph.argOk, beq_iff_eq] at hao
        obtain ⟨q, h1, h2⟩ := Option.bind_eq_some_iff.1 hao
        rw [hp] at h1
        cases h1
        rw [hrdy p (by rw [h2]; simp)]
        have := T.ares n i o rfl
        simpa [argRdy, hk, hp] using this
      · rintro i rfl
        have := T.run n i rfl
        rw [this.2]; exact this.1
      · intro i hi
        rw [T.wt n i (by simpa using hi)]
        exact T.vc _
      · rintro i rfl
        obtain ⟨h1, h2, h3⟩ := T.crit n i rfl
        rw [T.wt n i (by simp), h2, h3]
        exact ⟨h1, leq.refl _⟩
    by_cases hns : n = subj a
    · subst hns
      cases E with
      | create n k h1 h2 h3 h4 h5 h6 =>
        have h6 : τ'.g.w (subj (.create n)) = _ := h6
        unfold JoinKnows
        rw [h6]
        constructor <;> intro i <;> simp [When.init]
      | call n y h1 h2 h3 h4 h5 => exact hsame (fun h => by cases h1.symm.trans h) (by rw [h5]) (by simp)
      | fail n p e h1 h2 h3 h4 h5 => exact hsame (fun h => by cases h1.symm.trans h) (by rw [h5]) (by simp)
      | arg n m' args' a hk' h0 hao hs =>
        cases hk'.symm.trans hk
        exact hstep a rfl h0 hao hs
      | drop n m' args' hk' h0 hs =>
        cases hk'.symm.trans hk
        exact hstep _ rfl (fun h => by cases h0.symm.trans h) rfl hs
      | fireCall n m' args' i xs idx hk' h0 hs =>
        cases hk'.symm.trans hk
        exact hstep _ rfl h0 rfl hs
      | fireFail n m' args' i e hk' h0 hs =>
        cases hk'.symm.trans hk
        exact hstep _ rfl h0 rfl hs
      | ret n x o h1 h2 h3 h4 h5 h6 => exact hsame (fun h => by cases h1.symm.trans h) (by rw [h6]) (by simp)
      | wait n x m h1 h2 h3 h4 h5 h6 => exact hsame (fun h => by cases h1.symm.trans h) (by rw [h6]) (by simp)
      | flatten n m o h1 h2 h3 h4 h5 h6 => exact hsame (fun h => by cases h1.symm.trans h) (by rw [h6]) (by simp)
      | abandon n h1 h2 h3 h4 h5 =>
        exact hsame (fun h => by rcases h1 with h1 | ⟨m, h1⟩ <;> cases h1.symm.trans h) (by rw [h5]) (by simp)
    · refine hsame (by rw [← (hfr n hns).1]; exact hn) (hfr n hns).2.2 fun a' h => hns (by rw [h]; rfl)
  · -- calls
    intro e h n x hx
    rcases hlm e h with h | ⟨h, h2⟩
    · exact hargs _ _ _ (H.a1 e h n x hx)
    · rw [hx] at h
      rw [h2]
      have hns : n = subj a := (hev _ h).1
      subst hns
      cases E with
      | create n k _ _ _ h4 => rw [hevs0 h4] at h; cases h
      | call n y h1 _ _ _ _ h6 =>
        show Args τ' x c (P.kind n)
        rcases h6 with h6 | ⟨p, h6 | h6, h7⟩ <;> rw [h6]
        · trivial
        · exact hknow n p (by simp [needs, h1, h6]) h7 (T.start n (.inl rfl))
        · exact hknow n p (by simp [needs, h1, h6]) h7 (T.start n (.inl rfl))
      | fail n p e h1 h2 h3 => rw [hevs _ h3] at h; simp at h
      | arg n m args a _ _ _ _ _ h6 => rw [hevs0 h6] at h; cases h
      | drop n m args _ _ _ _ h5 => rw [hevs _ h5] at h; simp at h
      | fireCall n m args i xs idx hk h0 hs hkp hc h6 h7 =>
        rw [hevs _ h7] at h
        simp only [List.mem_singleton, Event.called.injEq] at h
        have J := H.joins n m args hk h0
        obtain ⟨-, hl, hf⟩ := hfire n m args i hk h0 hs hkp
        have F := fire_call J hl hs hkp hc ((H.jn n m args hk h0).j4 i hf)
        have key : ∀ j p, args[j]? = some p → (τ.g.w n).arg j ≠ none → (∀ p, args[j]? = some p → leq (τ.rdy p) (τ.vc (τ.wt n i))) → Knows τ' p c := by
          intro j p hp hj hr
          obtain ⟨o, ho⟩ := Option.ne_none_iff_exists'.1 hj
          obtain ⟨q, hq, hq'⟩ := argOut J hl ho
          rw [hp] at hq
          cases hq
          have h1 : τ.g.out p ≠ none := by rw [hq']; simp
          exact ⟨hout' p h1, by rw [hrdy p h1]; exact (hr p hp).trans (T.fire n i rfl)⟩
        show Args τ' x c (P.kind n)
        rw [hk]
        simp only [Args]
        split at F
        · rename_i hm
          rw [if_pos hm]
          intro p hp
          obtain ⟨j, hj⟩ := List.mem_iff_getElem?.1 hp
          obtain ⟨h8, h9⟩ := F j (List.getElem?_eq_some_iff.1 hj).1
          exact key j p hj h8 h9
        · rename_i hm
          rw [if_neg hm]
          obtain ⟨j, hidx, hj, h8, h9⟩ := F
          refine ⟨xs, j, args[j], by rw [h.2, hidx], List.getElem?_eq_getElem hj, key j _ (List.getElem?_eq_getElem hj) h8 h9⟩
      | fireFail n m args i e hk h0 hs hkp hc h6 h7 => rw [hevs _ h7] at h; simp at h
      | ret n x o h1 h2 h3 h4 => rw [hevs _ h4] at h; simp at h
      | wait n x m h1 h2 h3 h4 => rw [hevs0 h4] at h; cases h
      | flatten n m o h1 h2 h3 h4 => rw [hevs _ h4] at h; simp at h
      | abandon n _ h2 h3 => rw [hevs _ h3] at h; simp at h
  · -- errors
    intro e h n o hx hnc
    rcases hlm e h with h | ⟨h, h2⟩
    · exact hfails _ _ _ (H.a2 e h n o hx fun x hx => hnc x ((hmem _).2 (.inl hx)))
    · rw [hx] at h
      rw [h2]
      obtain ⟨-, ho', hns⟩ := hres n o h
      subst hns
      cases E with
      | create n k _ _ _ h4 => rw [hevs0 h4] at h; cases h
      | call n y h1 h2 h3 => rw [hevs _ h3] at h; simp at h
      | fail n p e h1 _ h3 _ _ h6 h7 =>
        rw [hevs _ h3] at h
        simp only [List.mem_singleton, Event.resolved.injEq] at h
        show Fails τ' o c (P.kind n)
        rw [h6, h.2]
        exact ⟨hout _ _ h7, (hknow n p (by simp [needs, h1, h6]) (by rw [h7]; simp) (T.start n (.inl rfl))).2⟩
      | arg n m args a _ _ _ _ _ h6 => rw [hevs0 h6] at h; cases h
      | drop n m args _ _ _ _ h5 => rw [hevs _ h5] at h; simp at h
      | fireCall n m args i xs idx hk h0 hs hkp hc h6 h7 => rw [hevs _ h7] at h; simp at h
      | fireFail n m args i er hk h0 hs hkp hc h6 h7 =>
        rw [hevs _ h7] at h
        simp only [List.mem_singleton, Event.resolved.injEq] at h
        have J := H.joins n m args hk h0
        obtain ⟨-, hl, hf⟩ := hfire n m args i hk h0 hs hkp
        have F := fire_fail (When.Reachable.inv hl J.reach) hc ((H.jn n m args hk h0).j4 i hf)
        have key : ∀ j p o, args[j]? = some p → (τ.g.w n).arg j = some o → (∀ p, args[j]? = some p → leq (τ.rdy p) (τ.vc (τ.wt n i))) →
            τ'.g.out p = some o ∧ leq (τ'.rdy p) c := by
          intro j p o hp ho hr
          obtain ⟨q, hq, hq'⟩ := argOut J hl ho
          rw [hp] at hq
          cases hq
          have h1 : τ.g.out p ≠ none := by rw [hq']; simp
          exact ⟨hout p o hq', by rw [hrdy p h1]; exact (hr p hp).trans (T.fire n i rfl)⟩
        show Fails τ' o c (P.kind n)
        rw [hk]
        simp only [Fails]
        split at F
        · rename_i hm
          rw [if_pos hm]
          obtain ⟨j, hj, h8, h9⟩ := F
          refine ⟨args[j], List.getElem_mem hj, ?_⟩
          rw [h.2]
          exact key j _ _ (List.getElem?_eq_getElem hj) h8 h9
        · rename_i hm
          rw [if_neg hm]
          intro p hp
          obtain ⟨j, hj⟩ := List.mem_iff_getElem?.1 hp
          obtain ⟨h8, h9⟩ := F j (List.getElem?_eq_some_iff.1 hj).1
          obtain ⟨o', ho⟩ := Option.ne_none_iff_exists'.1 h8
          have := key j p o' hj ho h9
          exact ⟨by rw [this.1]; simp, this.2⟩
      | ret n x o h1 => exact absurd ((hmem _).2 (.inl (I.run n x h1))) (hnc x)
      | wait n x m h1 h2 h3 h4 => rw [hevs0 h4] at h; cases h
      | flatten n m o h1 =>
        obtain ⟨⟨x, h2, -⟩, -⟩ := I.wait n m h1
        exact absurd ((hmem _).2 (.inl h2)) (hnc x)
      | abandon n _ h2 h3 => rw [hevs _ h3] at h; simp at h
  · -- futures returned
    intro e h n o hx x m hcx hfn
    rcases hlm e h with h | ⟨h, h2⟩
    · have hc' : Event.called n x ∈ τ.g.trace := by
        rcases (hmem _).1 hcx with h' | h'
        · exact h'
        · exact absurd (hx ▸ htr e h) ((hok _ h').2.1 o)
      obtain ⟨h1, h2⟩ := H.a3 e h n o hx x m hc' hfn
      exact ⟨hout _ _ h1, by rw [hrdy _ (by rw [h1]; simp)]; exact h2⟩
    · rw [hx] at h
      rw [h2]
      have hc' : Event.called n x ∈ τ.g.trace := by
        rcases (hmem _).1 hcx with h' | h'
        · exact h'
        · rw [(hev _ h).2] at h'; simp at h'
      obtain ⟨-, ho', hns⟩ := hres n o h
      subst hns
      cases E with
      | create n k _ _ _ h4 => rw [hevs0 h4] at h; cases h
      | call n y h1 h2 h3 => rw [hevs _ h3] at h; simp at h
      | fail n p e h1 => exact absurd hc' (I.fresh n (.inr h1) x)
      | arg n m args a _ _ _ _ _ h6 => rw [hevs0 h6] at h; cases h
      | drop n m args _ _ _ _ h5 => rw [hevs _ h5] at h; simp at h
      | fireCall n m args i xs idx hk h0 hs hkp hc h6 h7 => rw [hevs _ h7] at h; simp at h
      | fireFail n m args i e hk h0 hs hkp hc h6 => exact absurd hc' (I.fresh n (.inr (hfire n m args i hk h0 hs hkp).1) x)
      | ret n y o h1 h2 =>
        cases hcu n x y hc' (I.run n y h1)
        exact absurd hfn (h2 m)
      | wait n x m h1 h2 h3 h4 => rw [hevs0 h4] at h; cases h
      | flatten n m' q h1 h5 h6 h7 =>
        obtain ⟨⟨y, h2, h3⟩, -⟩ := I.wait n m' h1
        cases hcu n x y hc' h2
        cases h3.symm.trans hfn
        rw [hevs _ h7] at h
        simp only [List.mem_singleton, Event.resolved.injEq] at h
        rw [h.2]
        exact ⟨hout _ _ h5, (hknow n _ (by simp [needs, h1]) (by rw [h5]; simp) (T.start n (.inr rfl))).2⟩
      | abandon n _ h2 h3 => rw [hevs _ h3] at h; simp at h

/-- Threads learn more; nothing else changes. -/
theorem HB.learn (H : HB P τ) {v : Nat → Clock} {rs : List (Nat × Clock)} (hv : ∀ x, leq (τ.vc x) (v x)) : HB P { τ with vc := v, reads := rs } := by
  refine ⟨H.inv, H.joins, H.tr, H.rd, H.mx, fun n x hx e h y hy => (H.k1 n x hx e h y hy).trans (hv _), H.k2, H.k3, H.k4, fun n m args hk h0 => ?_,
    H.a1, H.a2, H.a3⟩
  have J := H.joins n m args hk h0
  obtain ⟨k, hk', -, hb⟩ := H.inv.par n h0
  rw [hk] at hk'
  cases hk'
  have hl : 0 < args.length := by
    cases args with
    | nil => cases hb
    | cons => simp
  exact (H.jn n m args hk h0).mono (When.Reachable.inv hl J.reach) (fun j c c' _ hc h p hp => (h p hp).trans hc) (fun _ => leq.refl _) (fun _ => hv _) (leq.refl _)

theorem HB.step (H : HB P τ) {a : Act} (h : JoinGraph.step P τ a = some τ') : HB P τ' := by
  have hl : ∀ t c, leq (τ.vc t) c → ∀ x, leq (τ.vc x) (upd τ.vc t c x) := by
    intro t c h x
    simp only [upd]
    split
    · subst x; exact h
    · exact leq.refl _
  cases a with
  | graph a u =>
    obtain ⟨h1, c, h2, h3⟩ := tick h
    exact H.graph h1 h2 h3
  | read n u =>
    simp only [JoinGraph.step] at h
    split at h
    · cases h
    · cases h
      refine H.learn (hl _ _ fun i => ?_)
      have := leq_joinl (τ.vc u) (τ.rdy n) i
      simp only [upd]
      split
      · subst i; omega
      · exact this
  | sync t t' =>
    simp only [JoinGraph.step, Option.some.injEq] at h
    subst h
    exact H.learn (hl _ _ (leq_joinl _ _))

theorem Reachable.hb (r : Reachable P τ) : HB P τ := by
  induction r with
  | init => exact HB.init
  | step a _ h ih => exact ih.step h

/-! ## C119 -/

/-- Node `p` gives an argument of the function of node `n`. -/
inductive Uses (P : Prog) (t : List Event) (p n : Nat) : Prop
  | thn : P.kind n = some (.thn p) → Uses P t p n
  | rcv : P.kind n = some (.rcv p) → Uses P t p n
  | all (m : Mode) (args : List Nat) : P.kind n = some (.join m args) → m.isAll = true → p ∈ args → Uses P t p n
  | any (m : Mode) (args : List Nat) (xs : List Nat) (i : Nat) : P.kind n = some (.join m args) → m.isAll = false → .called n (.many xs (some i)) ∈ t →
      args[i]? = some p → Uses P t p n

/-- The result of node `n` depends on that of node `q` through calls of functions and futures returned. -/
inductive Past (P : Prog) (t : List Event) (q : Nat) : Nat → Prop
  | self : Past P t q q
  | arg {n p : Nat} {x : Input} : .called n x ∈ t → Uses P t p n → Past P t q p → Past P t q n
  | ret {n m : Nat} {x : Input} : .called n x ∈ t → P.fn n x = .fut m → Past P t q m → Past P t q n

/-- The clocks are those of the events of the graph. -/
theorem c119_log (r : Reachable P τ) : τ.log.map Prod.fst = τ.g.trace ∧ Verif.JoinGraph.Reachable P τ.g := by
  refine ⟨r.hb.tr, ?_⟩
  induction r with
  | init => exact ⟨[], rfl⟩
  | @step τ τ' a _ h ih =>
    cases a with
    | sync t t' => simp only [JoinGraph.step, Option.some.injEq] at h; subst h; exact ih
    | read n u => simp only [JoinGraph.step] at h; split at h <;> cases h; exact ih
    | graph a u =>
      obtain ⟨as, ih⟩ := ih
      refine ⟨as ++ [a], ?_⟩
      have h1 := (tick h).1
      generalize ({} : Verif.JoinGraph.St) = s0 at ih ⊢
      induction as generalizing s0 with
      | nil => cases ih; simp [Verif.JoinGraph.exec, h1]
      | cons b as ih' =>
        simp only [Verif.JoinGraph.exec, List.cons_append] at ih ⊢
        split at ih
        · exact ih' _ ih
        · cases ih

/-- A node that is resolved has an event, and only one clock. -/
theorem HB.event (H : HB P τ) {p : Nat} {o : Outcome} (h : τ.g.out p = some o) : (.resolved p o, τ.rdy p) ∈ τ.log := by
  have : Event.resolved p o ∈ τ.g.trace := Verif.JoinGraph.outs_mem (by rw [← H.inv.out]; exact h)
  rw [← H.tr] at this
  obtain ⟨⟨e, d⟩, h1, rfl⟩ := List.mem_map.1 this
  rwa [← H.rd _ h1 p o rfl]

theorem HB.log_trace (H : HB P τ) {e : Event} {d : Clock} (h : (e, d) ∈ τ.log) : e ∈ τ.g.trace := by
  rw [← H.tr]; exact List.mem_map_of_mem h

theorem HB.resolved_out (H : HB P τ) {p : Nat} {o : Outcome} (h : Event.resolved p o ∈ τ.g.trace) : τ.g.out p = some o := by
  obtain ⟨s, t, hst⟩ := List.append_of_mem h
  have h1 := (H.inv.legal s _ t hst).1
  obtain ⟨q, hq⟩ := Verif.JoinGraph.outs_some h
  have h2 := Verif.JoinGraph.outs_mem hq
  rw [H.inv.out, hq]
  rw [hst] at h2
  rcases List.mem_append.1 h2 with h2 | h2
  · exact absurd h2 (h1 q)
  · rcases List.mem_cons.1 h2 with h2 | h2
    · cases h2; rfl
    · obtain ⟨s', t', hst'⟩ := List.append_of_mem h2
      have := (H.inv.legal (s ++ .resolved p o :: s') (.resolved p q) t' (by rw [hst, hst']; simp)).1 o
      simp at this

theorem Knows.event (H : HB P τ) {p : Nat} {d : Clock} (h : Knows τ p d) : ∃ o d', (.resolved p o, d') ∈ τ.log ∧ leq d' d := by
  obtain ⟨o, ho⟩ := Option.ne_none_iff_exists'.1 h.1
  exact ⟨o, _, H.event ho, h.2⟩

/-- **C119**: the function of a `when_all` is called with the values of its arguments, and each of them was resolved before the call. -/
theorem c119_when_all (r : Reachable P τ) {n : Nat} {m : Mode} {args : List Nat} (hk : P.kind n = some (.join m args)) (hm : m.isAll = true) {x : Input} {d : Clock}
    (h : (.called n x, d) ∈ τ.log) :
    ∃ xs, x = .many xs none ∧ xs.length = args.length ∧ ∀ (i p : Nat), args[i]? = some p → ∃ v d', xs[i]? = some v ∧ (.resolved p (.val v), d') ∈ τ.log ∧ leq d' d := by
  have H := r.hb
  have ha := H.a1 _ h n x rfl
  rw [hk] at ha
  simp only [Args, hm, if_true] at ha
  obtain ⟨s, t, hst⟩ := List.append_of_mem (H.log_trace h)
  obtain ⟨-, -, k, j, hk', hf⟩ := H.inv.legal s _ t hst
  rw [hk] at hk'
  cases hk'
  simp only [Verif.JoinGraph.fate, Verif.JoinGraph.verdict, hm, if_true] at hf
  split at hf
  · rename_i xs hv
    cases hf
    have hs := Verif.JoinGraph.allVals_spec hv
    refine ⟨xs, rfl, by have := congrArg List.length hs; simpa using this.symm, fun i p hp => ?_⟩
    have hi := congrArg (·[i]?) hs
    simp only [List.getElem?_map, hp, Option.map_some] at hi
    obtain ⟨v, hv, hv'⟩ := Option.map_eq_some_iff.1 hi.symm
    have ho : τ.g.out p = some (.val v) := by
      refine H.resolved_out ?_
      rw [hst]
      exact List.mem_append_left _ (Verif.JoinGraph.outs_mem hv'.symm)
    exact ⟨v, _, hv, H.event ho, (ha p (List.mem_iff_getElem?.2 ⟨i, hp⟩)).2⟩
  · split at hf <;> simp at hf

/-- **C119**: the function of a `when_any` is called with the value of one argument and its index, and that argument was resolved before the call. -/
theorem c119_when_any (r : Reachable P τ) {n : Nat} {m : Mode} {args : List Nat} (hk : P.kind n = some (.join m args)) (hm : m.isAll = false) {x : Input} {d : Clock}
    (h : (.called n x, d) ∈ τ.log) :
    ∃ (v i p : Nat) (d' : Clock), x = .many [v] (some i) ∧ args[i]? = some p ∧ (.resolved p (.val v), d') ∈ τ.log ∧ leq d' d := by
  have H := r.hb
  have ha := H.a1 _ h n x rfl
  rw [hk] at ha
  simp only [Args, hm, Bool.false_eq_true, if_false] at ha
  obtain ⟨s, t, hst⟩ := List.append_of_mem (H.log_trace h)
  obtain ⟨-, -, k, j, hk', hf⟩ := H.inv.legal s _ t hst
  rw [hk] at hk'
  cases hk'
  simp only [Verif.JoinGraph.fate, Verif.JoinGraph.verdict, hm, Bool.false_eq_true, if_false] at hf
  split at hf
  · rename_i v hv
    cases hf
    obtain ⟨xs, i, p, h1, h2, h3⟩ := ha
    cases h1
    simp only [List.getElem?_map, h2, Option.map_some, Option.some.injEq] at hv
    have ho : τ.g.out p = some (.val v) := by
      refine H.resolved_out ?_
      rw [hst]
      exact List.mem_append_left _ (Verif.JoinGraph.outs_mem hv)
    exact ⟨v, _, p, _, rfl, h2, H.event ho, h3.2⟩
  · split at hf <;> simp at hf
  · cases hf

/-- **C119**: whatever gives an argument of a function was resolved before the function is called. -/
theorem c119_argument (r : Reachable P τ) {n p : Nat} {x : Input} {d : Clock} (h : (.called n x, d) ∈ τ.log) (hu : Uses P τ.g.trace p n) :
    ∃ o d', (.resolved p o, d') ∈ τ.log ∧ leq d' d := by
  have H := r.hb
  have ha := H.a1 _ h n x rfl
  cases hu with
  | thn hk => rw [hk] at ha; exact Knows.event H ha
  | rcv hk => rw [hk] at ha; exact Knows.event H ha
  | all m args hk hm hp =>
    rw [hk] at ha
    simp only [Args, hm, if_true] at ha
    exact Knows.event H (ha p hp)
  | any m args xs i hk hm hc hp =>
    rw [hk] at ha
    simp only [Args, hm, Bool.false_eq_true, if_false] at ha
    obtain ⟨ys, j, q, h1, h2, h3⟩ := ha
    have h4 := H.log_trace h
    have hx : Input.many xs (some i) = x := by
      obtain ⟨s, t, hst⟩ := List.append_of_mem hc
      have h5 := (H.inv.legal s _ t hst).1
      rw [hst] at h4
      rcases List.mem_append.1 h4 with h4 | h4
      · exact absurd h4 (h5 x)
      · rcases List.mem_cons.1 h4 with h4 | h4
        · cases h4; rfl
        · obtain ⟨s', t', hst'⟩ := List.append_of_mem h4
          have := (H.inv.legal (s ++ .called n (.many xs (some i)) :: s') (.called n x) t' (by rw [hst, hst']; simp)).1 (.many xs (some i))
          simp at this
    rw [h1] at hx
    cases hx
    rw [hp] at h2
    cases h2
    exact Knows.event H h3

/-- **C119**: the call of a function happens before its future is resolved, and so does the resolution of the future it returned, with the same result. -/
theorem c119_resolution (r : Reachable P τ) {n : Nat} {o : Outcome} {x : Input} {d d' : Clock} (h : (.resolved n o, d) ∈ τ.log) (hc : (.called n x, d') ∈ τ.log) :
    leq d' d ∧ ∀ m, P.fn n x = .fut m → ∃ d'', (.resolved m o, d'') ∈ τ.log ∧ leq d'' d := by
  have H := r.hb
  have ho := H.resolved_out (H.log_trace h)
  refine ⟨?_, fun m hm => ?_⟩
  · have e : d = τ.rdy n := H.rd _ h n o rfl
    rw [e]
    exact H.k4 n (by rw [ho]; simp) _ hc x rfl
  · obtain ⟨h1, h2⟩ := H.a3 _ h n o rfl x m (H.log_trace hc) hm
    exact ⟨_, H.event h1, h2⟩

/-- **C119**: a future that is resolved though its function was not called has the error of a future it continues, or of an argument of `when_all`, which was resolved before;
or it is that of a `when_any` all of whose arguments failed before. -/
theorem c119_error (r : Reachable P τ) {n : Nat} {o : Outcome} {d : Clock} (h : (.resolved n o, d) ∈ τ.log) (hc : ∀ x, .called n x ∉ τ.g.trace) :
    (∃ p d', P.kind n = some (.thn p) ∧ (.resolved p o, d') ∈ τ.log ∧ leq d' d) ∨
    ∃ m args, P.kind n = some (.join m args) ∧
      ((m.isAll = true ∧ ∃ p ∈ args, ∃ d', (.resolved p o, d') ∈ τ.log ∧ leq d' d) ∨
       (m.isAll = false ∧ (∃ p ∈ args, τ.g.out p = some o) ∧ ∀ p ∈ args, ∃ e d', (.resolved p (.exc e), d') ∈ τ.log ∧ leq d' d)) := by
  have H := r.hb
  have hf := H.a2 _ h n o rfl hc
  unfold Fails at hf
  split at hf
  · rename_i p hk
    exact .inl ⟨p, _, hk, H.event hf.1, hf.2⟩
  · rename_i m args hk
    refine .inr ⟨m, args, hk, ?_⟩
    split at hf
    · rename_i hm
      obtain ⟨p, hp, h1, h2⟩ := hf
      exact .inl ⟨hm, p, hp, _, H.event h1, h2⟩
    · rename_i hm
      have hm : m.isAll = false := by simpa using hm
      obtain ⟨s, t, hst⟩ := List.append_of_mem (H.log_trace h)
      have ok := (H.inv.legal s _ t hst).2
      rcases ok with ⟨x, hx, -⟩ | ⟨-, k, j, e, hk', hv, ho⟩
      · exact absurd (by rw [hst]; exact List.mem_append_left _ hx) (hc x)
      · rw [hk] at hk'
        cases hk'
        simp only [Verif.JoinGraph.fate, Verif.JoinGraph.verdict, hm, Bool.false_eq_true, if_false] at hv
        split at hv
        · simp at hv
        · rename_i e' hj
          split at hv
          · rename_i hall
            cases hv
            have hout : ∀ p q, Verif.JoinGraph.outs s p = some q → τ.g.out p = some q := fun p q h => by
              refine H.resolved_out ?_
              rw [hst]
              exact List.mem_append_left _ (Verif.JoinGraph.outs_mem h)
            refine .inr ⟨hm, ?_, fun p hp => ?_⟩
            · rw [List.getElem?_map] at hj
              obtain ⟨p, hp, hp'⟩ := Option.map_eq_some_iff.1 hj
              exact ⟨p, List.mem_iff_getElem?.2 ⟨j, hp⟩, by rw [ho]; exact hout p _ hp'⟩
            · have := List.all_eq_true.1 hall _ (List.mem_map_of_mem hp)
              cases hq : Verif.JoinGraph.outs s p with
              | none => rw [hq] at this; cases this
              | some q =>
                cases q with
                | val v => rw [hq] at this; cases this
                | exc e => exact ⟨e, _, H.event (hout p _ hq), (hf p hp).2⟩
          · cases hv
        · cases hv
  · exact hf.elim

/-- **C119**: whatever the result of a future depends on, through any number of continuations, `when_all`s, `when_any`s and futures returned by functions, was resolved before,
and its function was called before. -/
theorem c119_past (r : Reachable P τ) {n q : Nat} {o : Outcome} {d : Clock} (h : (.resolved n o, d) ∈ τ.log) (hp : Past P τ.g.trace q n) :
    (∃ o' d', (.resolved q o', d') ∈ τ.log ∧ leq d' d) ∧ ∀ x d', (.called q x, d') ∈ τ.log → leq d' d := by
  have H := r.hb
  have hlog : ∀ n x, Event.called n x ∈ τ.g.trace → ∃ d, (Event.called n x, d) ∈ τ.log := by
    intro n x h
    rw [← H.tr] at h
    obtain ⟨⟨e, d⟩, h1, rfl⟩ := List.mem_map.1 h
    exact ⟨d, h1⟩
  induction hp generalizing o d with
  | self => exact ⟨⟨o, d, h, leq.refl _⟩, fun x d' h' => (c119_resolution r h h').1⟩
  | arg hc hu _ ih =>
    obtain ⟨d1, h1⟩ := hlog _ _ hc
    obtain ⟨o2, d2, h2, h3⟩ := c119_argument r h1 hu
    obtain ⟨⟨o4, d4, h4, h5⟩, h6⟩ := ih h2
    have h7 := h3.trans (c119_resolution r h h1).1
    exact ⟨⟨o4, d4, h4, h5.trans h7⟩, fun x d' h' => (h6 x d' h').trans h7⟩
  | ret hc hf _ ih =>
    obtain ⟨d1, h1⟩ := hlog _ _ hc
    obtain ⟨d2, h2, h3⟩ := (c119_resolution r h h1).2 _ hf
    obtain ⟨⟨o4, d4, h4, h5⟩, h6⟩ := ih h2
    exact ⟨⟨o4, d4, h4, h5.trans h3⟩, fun x d' h' => (h6 x d' h').trans h3⟩

/-- **C119**: what the functions did on whose results the arguments of a function depend happens before the function is called. -/
theorem c119_call (r : Reachable P τ) {n p q : Nat} {x y : Input} {d d' : Clock} (h : (.called n x, d) ∈ τ.log) (hu : Uses P τ.g.trace p n)
    (hp : Past P τ.g.trace q p) (hq : (.called q y, d') ∈ τ.log) : leq d' d := by
  obtain ⟨o1, d1, h1, h2⟩ := c119_argument r h hu
  exact ((c119_past r h1 hp).2 y d' hq).trans h2

/-- Who read the result of a node knows what was known when it was resolved. -/
theorem Reachable.reads (r : Reachable P τ) : ∀ x ∈ τ.reads, τ.g.out x.1 ≠ none ∧ leq (τ.rdy x.1) x.2 := by
  induction r with
  | init => intro x h; cases h
  | @step τ τ' a r h ih =>
    cases a with
    | sync t t' => cases h; exact ih
    | read n u =>
      simp only [JoinGraph.step] at h
      split at h
      · cases h
      · rename_i hn
        cases h
        intro x hx
        rcases List.mem_append.1 hx with hx | hx
        · exact ih x hx
        · cases List.mem_singleton.1 hx
          refine ⟨hn, fun i => ?_⟩
          have h1 := leq_joinr (τ.vc u) (τ.rdy n) i
          dsimp only
          simp only [upd]
          split
          · subst i; omega
          · exact h1
    | graph a u =>
      obtain ⟨h1, c, T, h3⟩ := tick h
      have hr : τ'.reads = τ.reads ∧ ∀ e ∈ τ.log, e ∈ τ'.log := by
        simp only [JoinGraph.step] at h
        split at h <;> cases h
        exact ⟨rfl, fun e he => List.mem_append_left _ he⟩
      intro x hx
      rw [hr.1] at hx
      obtain ⟨h4, h5⟩ := ih x hx
      rw [T.rdy x.1 (by simp [fresh, h4])]
      refine ⟨?_, h5⟩
      obtain ⟨o, ho⟩ := Option.ne_none_iff_exists'.1 h4
      rw [(r.hb.step h).resolved_out ((r.hb.step h).log_trace (hr.2 _ (r.hb.event ho)))]
      simp

/-- **C119**: when a thread reads the result of a future, the future was resolved before, and so was whatever its result depends on; and the functions of those futures were
called before. -/
theorem c119_read (r : Reachable P τ) {n q : Nat} {c : Clock} (h : (n, c) ∈ τ.reads) (hp : Past P τ.g.trace q n) :
    (∃ o d, (.resolved q o, d) ∈ τ.log ∧ leq d c) ∧ ∀ x d, (.called q x, d) ∈ τ.log → leq d c := by
  obtain ⟨h1, h2⟩ := r.reads _ h
  obtain ⟨o, ho⟩ := Option.ne_none_iff_exists'.1 h1
  obtain ⟨⟨o', d, h3, h4⟩, h5⟩ := c119_past r (r.hb.event ho) hp
  exact ⟨⟨o', d, h3, h4.trans h2⟩, fun x d h => (h5 x d h).trans h2⟩

/-- The last time of each thread. -/
def now (τ : St) : Clock := fun t => τ.vc t t

/-- No clock is ahead of the threads. -/
structure Bound (τ : St) : Prop where
  vc : ∀ x, leq (τ.vc x) (now τ)
  mx : ∀ n, leq (τ.mx n) (now τ)
  rdy : ∀ n, leq (τ.rdy n) (now τ)
  tk : ∀ n, leq (τ.tk n) (now τ)
  at_ : ∀ n i, leq (τ.at_ n i) (now τ)
  gd : ∀ n, leq (τ.gd n) (now τ)
  log : ∀ e ∈ τ.log, leq e.2 (now τ)
  reads : ∀ e ∈ τ.reads, leq e.2 (now τ)

theorem Bound.clock (B : Bound τ) (a : Verif.JoinGraph.Act) (w : Nat) (l : Option Nat) :
    clock τ w (taken τ a) l w = now τ w + 1 ∧ leq (clock τ w (taken τ a) l) (upd (now τ) w (now τ w + 1)) := by
  have ht : leq (taken τ a) (now τ) := by
    unfold taken
    split
    · exact B.tk _
    · exact B.tk _
    · exact B.at_ _ _
    · exact B.gd _
    · exact fun _ => Nat.zero_le _
  have hj : ∀ c, leq c (now τ) → c w = now τ w → upd c w (c w + 1) w = now τ w + 1 ∧ leq (upd c w (c w + 1)) (upd (now τ) w (now τ w + 1)) := by
    intro c h h'
    refine ⟨by simp [upd, h'], fun i => ?_⟩
    simp only [upd]
    split
    · omega
    · exact h i
  have h1 : leq (join (τ.vc w) (taken τ a)) (now τ) := join_leq (B.vc w) ht
  have h2 : ∀ c, leq c (now τ) → leq (τ.vc w) c → c w = now τ w := fun c h h' => Nat.le_antisymm (h w) (h' w)
  unfold JoinGraph.clock
  cases l with
  | none => exact hj _ h1 (h2 _ h1 (leq_joinl _ _))
  | some p =>
    have h3 := join_leq h1 (B.mx p)
    exact hj _ h3 (h2 _ h3 ((leq_joinl _ _).trans (leq_joinl _ _)))

theorem Bound.step (B : Bound τ) {a : Act} (h : JoinGraph.step P τ a = some τ') : Bound τ' := by
  cases a with
  | sync t t' =>
    simp only [JoinGraph.step, Option.some.injEq] at h
    subst h
    have hn : now { τ with vc := upd τ.vc t' (join (τ.vc t') (τ.vc t)) } = now τ := by
      funext i
      simp only [now, upd]
      split
      · subst i
        exact Nat.max_eq_left (B.vc t t')
      · rfl
    have hx : ∀ {c}, leq c (now τ) → leq c (now { τ with vc := upd τ.vc t' (join (τ.vc t') (τ.vc t)) }) := fun h => by rw [hn]; exact h
    refine ⟨fun x => hx ?_, fun n => hx (B.mx n), fun n => hx (B.rdy n), fun n => hx (B.tk n), fun n i => hx (B.at_ n i), fun n => hx (B.gd n), fun e he => hx (B.log e he),
      fun e he => hx (B.reads e he)⟩
    simp only [upd]
    split
    · exact join_leq (B.vc _) (B.vc _)
    · exact B.vc _
  | read n u =>
    simp only [JoinGraph.step] at h
    split at h
    · cases h
    · have h1 : leq (join (τ.vc u) (τ.rdy n)) (now τ) := join_leq (B.vc u) (B.rdy n)
      have h2 : join (τ.vc u) (τ.rdy n) u = now τ u := Nat.le_antisymm (h1 u) (leq_joinl _ _ u)
      generalize join (τ.vc u) (τ.rdy n) = c at *
      cases h
      have hx : ∀ d, leq d (now τ) → leq d fun t => upd τ.vc u (upd c u (c u + 1)) t t := by
        intro d h i
        have := h i
        by_cases hi : i = u
        · subst hi; simp only [upd, if_true]; omega
        · simpa [upd, hi, now] using this
      have hcn : leq (upd c u (c u + 1)) fun t => upd τ.vc u (upd c u (c u + 1)) t t := by
        intro i
        have := h1 i
        by_cases hi : i = u
        · subst hi; simp [upd]
        · simpa [upd, hi, now] using this
      refine ⟨fun x => ?_, fun n => hx _ (B.mx n), fun n => hx _ (B.rdy n), fun n => hx _ (B.tk n), fun n i => hx _ (B.at_ n i), fun n => hx _ (B.gd n),
        fun e he => hx _ (B.log e he), fun e he => ?_⟩ <;>
        change leq _ (fun t => (upd τ.vc u (upd c u (c u + 1))) t t)
      · by_cases hk : x = u
        · subst hk; dsimp only; rw [upd_same]; exact hcn
        · dsimp only; rw [upd_ne _ _ hk]; exact hx _ (B.vc x)
      · rcases List.mem_append.1 he with he | he
        · exact hx _ (B.reads e he)
        · cases List.mem_singleton.1 he
          exact hcn
  | graph a u =>
    simp only [JoinGraph.step] at h
    split at h
    · rename_i g' hg
      obtain ⟨hc1, hc2⟩ := B.clock a (who τ u a) (locks P τ.g g' a)
      cases h
      generalize hc : JoinGraph.clock τ (who τ u a) (taken τ a) (locks P τ.g g' a) = c at *
      generalize who τ u a = w at *
      have hn : ∀ i, (upd τ.vc w c) i i = upd (now τ) w (now τ w + 1) i := by
        intro i
        simp only [upd]
        split
        · subst i; exact hc1
        · rfl
      have hx : ∀ d, leq d (now τ) → leq d (fun t => (upd τ.vc w c) t t) := by
        intro d h i
        simp only [hn]
        refine Nat.le_trans (h i) ?_
        simp only [upd]
        split
        · subst i; omega
        · exact Nat.le_refl _
      have hcn : leq c (fun t => (upd τ.vc w c) t t) := fun i => by simp only [hn]; exact hc2 i
      refine ⟨fun x => ?_, fun n => ?_, fun n => ?_, fun n => ?_, fun n i => ?_, fun n => ?_, fun e he => ?_, fun e he => hx _ (B.reads e he)⟩ <;>
        change leq _ (fun t => (upd τ.vc w c) t t) <;> (try dsimp only)
      · simp only [upd]
        split
        · exact hcn
        · exact hx _ (B.vc x)
      · split
        · exact hcn
        · exact hx _ (B.mx n)
      · split
        · exact hcn
        · exact hx _ (B.rdy n)
      · split
        · exact hcn
        · split
          · exact join_leq (hx _ (B.tk n)) hcn
          · exact hx _ (B.tk n)
      · split
        · split
          · exact hcn
          · exact hx _ (B.at_ n i)
        · split
          · refine join_leq (hx _ (B.at_ n i)) (hx _ ?_)
            unfold argRdy
            split
            · split
              · exact B.rdy _
              · exact fun _ => Nat.zero_le _
            · exact fun _ => Nat.zero_le _
          · exact hx _ (B.at_ n i)
        · exact hx _ (B.at_ n i)
      · split
        · rename_i k j
          by_cases hk : n = k
          · subst hk; rw [upd_same]; exact hcn
          · rw [upd_ne _ _ hk]; exact hx _ (B.gd n)
        · exact hx _ (B.gd n)
      · rcases List.mem_append.1 he with he | he
        · exact hx _ (B.log e he)
        · obtain ⟨x, -, rfl⟩ := List.mem_map.1 he
          exact hcn
    · cases h

theorem Reachable.bound (r : Reachable P τ) : Bound τ := by
  induction r with
  | init => exact ⟨fun _ _ => Nat.le_refl _, fun _ _ => Nat.le_refl _, fun _ _ => Nat.le_refl _, fun _ _ => Nat.le_refl _, fun _ _ _ => Nat.le_refl _,
      fun _ _ => Nat.le_refl _, fun e h => (by cases h), fun e h => by cases h⟩
  | step a _ h ih => exact ih.step h

/-- **C119**: what a thread did before a step happens before the events of the step; and they do not happen before anything that came earlier, nor before what any thread does next,
unless it is the thread of the step. -/
theorem c119_thread (r : Reachable P τ) {a : Verif.JoinGraph.Act} {u : Nat} (h : JoinGraph.step P τ (.graph a u) = some τ') : ∃ es, τ'.log = τ.log ++ es ∧
    ∀ e ∈ es, leq (τ.vc (who τ u a)) e.2 ∧ (∀ e' ∈ τ.log, ¬ leq e.2 e'.2) ∧ ∀ t, leq e.2 (τ'.vc t) ↔ t = who τ u a := by
  have B := r.bound
  simp only [JoinGraph.step] at h
  split at h
  · rename_i g' hg
    obtain ⟨hc1, hc2⟩ := B.clock a (who τ u a) (locks P τ.g g' a)
    have hc3 := (clock_vc τ (who τ u a) (taken τ a) (locks P τ.g g' a)).1
    cases h
    refine ⟨_, rfl, fun e he => ?_⟩
    obtain ⟨x, -, rfl⟩ := List.mem_map.1 he
    refine ⟨hc3, fun e' he' hle => ?_, fun t => ⟨fun hle => ?_, fun ht => ?_⟩⟩
    · have h1 := hle (who τ u a)
      have h2 := B.log e' he' (who τ u a)
      simp only [hc1] at h1
      omega
    · refine Classical.byContradiction fun hne => ?_
      simp only [upd_ne _ _ hne] at hle
      have h1 := hle (who τ u a)
      have h2 := B.vc t (who τ u a)
      simp only [hc1] at h1
      omega
    · subst ht
      simp only [upd_same]
      exact leq.refl _
  · cases h

/-- **C119**: every execution of the graph is one with clocks, whatever threads take the steps. -/
theorem c119_all_executions {as : List Verif.JoinGraph.Act} {g : Verif.JoinGraph.St} (h : Verif.JoinGraph.exec P {} as = some g) (u : Nat → Nat) :
    ∃ τ, Reachable P τ ∧ τ.g = g := by
  suffices ∀ (as : List Verif.JoinGraph.Act) (τ : St) (i : Nat), Reachable P τ → Verif.JoinGraph.exec P τ.g as = some g → ∃ τ', Reachable P τ' ∧ τ'.g = g from
    this as {} 0 .init h
  intro as
  induction as with
  | nil => intro τ i r e; cases e; exact ⟨τ, r, rfl⟩
  | cons a as ih =>
    intro τ i r e
    simp only [Verif.JoinGraph.exec] at e
    split at e
    · next g1 h1 =>
      have : ∃ τ1, JoinGraph.step P τ (.graph a (u i)) = some τ1 ∧ τ1.g = g1 := by
        simp only [JoinGraph.step, h1]
        exact ⟨_, rfl, rfl⟩
      obtain ⟨τ1, e1, e2⟩ := this
      exact ih τ1 (i + 1) (.step _ r e1) (by rw [e2]; exact e)
    · cases e

/-! ## Examples -/

theorem exec_reach {as : List Act} (r : Reachable P τ) (h : exec P τ as = some τ') : Reachable P τ' := by
  induction as generalizing τ with
  | nil => cases h; exact r
  | cons a as ih =>
    obtain ⟨τ1, h1, h2⟩ := Option.bind_eq_some_iff.mp h
    exact ih (.step _ r h1) h2

theorem witness {as : List Act} (Q : St → Bool) (he : (exec P {} as).any Q = true) : ∃ τ, Reachable P τ ∧ Q τ = true := by
  cases h : exec P {} as with
  | none => rw [h] at he; cases he
  | some s => rw [h] at he; exact ⟨s, exec_reach .init h, he⟩

/-- 2 is the `when_all` of 0 and 1, 3 is the `when_any` of them, 4 continues 2 and returns the future of 1, 5 fails, 6 is the `when_all` of 0 and 5. -/
def exP : Prog where
  kind
    | 0 => some .async
    | 1 => some .async
    | 2 => some (.join .allPack [0, 1])
    | 3 => some (.join .anyRange [0, 1])
    | 4 => some (.thn 2)
    | 5 => some .async
    | 6 => some (.join .allPack [0, 5])
    | _ => none
  fn
    | 0, _ => .val 7
    | 1, _ => .val 8
    | 2, .many [a, b] none => .val (10 * a + b)
    | 3, .many [a] (some i) => .val (10 * a + i)
    | 4, _ => .fut 1
    | 5, _ => .throw 9
    | _, _ => .val 0

/-- The continuation of argument `i` of node `n`, on thread `u`. -/
def argOn (n i : Nat) (o : Outcome) (u : Nat) : List Act := [.graph (.arg n (.resolve i o)) u, .graph (.arg n (.run i)) u, .graph (.arg n (.crit i)) u]

/-- Thread 0 makes the futures; threads 1, 2 and 5 execute 0, 1 and 5; the continuations of the `when_all`s run on threads 3 and 4, those of the `when_any` on thread 6;
4 is executed on thread 7, and thread 9 reads its result. -/
def steps : List Act :=
  ([.create 0, .create 1, .create 2, .arg 2 .attach, .arg 2 .store, .arg 2 .attach, .arg 2 .store, .create 3, .arg 3 .attach, .arg 3 .store, .arg 3 .attach, .arg 3 .store,
    .create 4, .create 5, .create 6, .arg 6 .attach, .arg 6 .store, .arg 6 .attach, .arg 6 .store].map fun a => Act.graph a 0) ++
  [.graph (.start 0) 1, .graph (.start 1) 2, .graph (.ret 1) 2, .graph (.ret 0) 1] ++ argOn 3 1 (.val 8) 6 ++ [.graph (.arg 3 (.fire 1)) 6, .graph (.ret 3) 6] ++
  argOn 2 1 (.val 8) 4 ++ argOn 2 0 (.val 7) 3 ++ [.graph (.arg 2 (.fire 0)) 3, .graph (.ret 2) 3, .graph (.start 4) 7, .graph (.ret 4) 7, .graph (.flatten 4) 8,
    .graph (.start 5) 5, .graph (.ret 5) 5] ++ argOn 6 1 (.exc (.user 9)) 4 ++ [.graph (.arg 6 (.fire 1)) 4, .read 4 9]

set_option maxRecDepth 20000 in
/-- The function of the `when_all` runs on thread 3 after threads 1 and 2 resolved the arguments; that of the `when_any` runs on thread 6, after thread 2 but not after thread 1. -/
example : ∃ τ, Reachable exP τ ∧ (∃ c, (.called 2 (.many [7, 8] none), c) ∈ τ.log ∧ 2 ≤ c 1 ∧ 2 ≤ c 2) ∧
    (∃ c, (.called 3 (.many [8] (some 1)), c) ∈ τ.log ∧ c 1 = 0 ∧ 2 ≤ c 2) ∧ ∃ c, (4, c) ∈ τ.reads ∧ 2 ≤ c 1 ∧ c 5 = 0 := by
  obtain ⟨τ, r, h⟩ := witness (P := exP) (as := steps) (fun τ =>
    (τ.log.any fun e => decide (e.1 = .called 2 (.many [7, 8] none) ∧ 2 ≤ e.2 1 ∧ 2 ≤ e.2 2)) &&
    (τ.log.any fun e => decide (e.1 = .called 3 (.many [8] (some 1)) ∧ e.2 1 = 0 ∧ 2 ≤ e.2 2)) &&
    (τ.reads.any fun e => decide (e.1 = 4 ∧ 2 ≤ e.2 1 ∧ e.2 5 = 0))) (by decide)
  simp only [Bool.and_eq_true, List.any_eq_true, decide_eq_true_eq] at h
  obtain ⟨⟨⟨⟨e, c⟩, h1, rfl, h2⟩, ⟨e', c'⟩, h3, rfl, h4⟩, ⟨m, b⟩, h5, rfl, h6⟩ := h
  exact ⟨τ, r, ⟨c, h1, h2⟩, ⟨c', h3, h4⟩, b, h5, h6⟩

set_option maxRecDepth 20000 in
/-- Node 4 depends on nodes 0 and 1 through the `when_all`; node 6 fails with the error of node 5, and neither its resolution nor that of node 3 happens before the other. -/
example : ∃ τ, Reachable exP τ ∧ (∃ c, (.resolved 4 (.val 8), c) ∈ τ.log) ∧ Past exP τ.g.trace 0 4 ∧ Past exP τ.g.trace 1 4 ∧ Uses exP τ.g.trace 1 3 ∧
    ∃ c d, (.resolved 6 (.exc (.user 9)), c) ∈ τ.log ∧ (∀ x, .called 6 x ∉ τ.g.trace) ∧ (.resolved 3 (.val 81), d) ∈ τ.log ∧ ¬ leq c d ∧ ¬ leq d c := by
  obtain ⟨τ, r, h⟩ := witness (P := exP) (as := steps) (fun τ =>
    (τ.log.any fun e => decide (e.1 = .resolved 4 (.val 8))) &&
    decide (.called 4 (.one (.val 78)) ∈ τ.g.trace ∧ .called 2 (.many [7, 8] none) ∈ τ.g.trace ∧ .called 3 (.many [8] (some 1)) ∈ τ.g.trace) &&
    (τ.g.trace.all fun e => match e with | .called 6 _ => false | _ => true) &&
    (τ.log.any fun e => τ.log.any fun e' => decide (e.1 = .resolved 6 (.exc (.user 9)) ∧ e'.1 = .resolved 3 (.val 81) ∧ e'.2 5 < e.2 5 ∧ e.2 6 < e'.2 6))) (by decide)
  simp only [Bool.and_eq_true, List.any_eq_true, decide_eq_true_eq, List.all_eq_true] at h
  obtain ⟨⟨⟨⟨⟨e, c⟩, h1, rfl⟩, h2, h3, h4⟩, h5⟩, ⟨e1, c1⟩, h6, ⟨e2, c2⟩, h7, rfl, rfl, h8, h9⟩ := h
  refine ⟨τ, r, ⟨c, h1⟩, .arg h2 (.thn rfl) (.arg h3 (.all .allPack [0, 1] rfl rfl (by simp)) .self), .ret h2 rfl .self, .any .anyRange [0, 1] [8] 1 rfl rfl h4 rfl,
    c1, c2, h6, fun x hx => ?_, h7, fun h => by have := h 5; simp only at h8; omega, fun h => by have := h 6; simp only at h9; omega⟩
  have := h5 _ hx
  cases this

end Verif.Sync.JoinGraph
