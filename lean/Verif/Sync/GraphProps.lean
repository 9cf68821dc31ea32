import Verif.Sync.GraphFrame

/-!
# Happens-before in graphs of futures
-/

namespace Verif.Sync.Graph

open Verif.Graph (Kind Pc Event Inv par bind_par)
open Verif.Shared (Outcome)

variable {τ τ' : St} {g g' : Verif.Graph.St}

/-- The node an event is about. -/
def node : Event → Nat
  | .created n _ | .called n _ | .returned n _ | .resolved n _ | .discarded n => n

/-- Node `k` needs the result of node `p`: it continues it, or its function returned the future of `p`. -/
def Needs (t : List Event) (k p : Nat) : Prop := .created k (.thn p) ∈ t ∨ .created k (.rcv p) ∈ t ∨ .returned k (.fut p) ∈ t

/-- The event is about node `k`, or is the resolution of a node that `k` needs. -/
def Rel (t : List Event) (k : Nat) (e : Event) : Prop := node e = k ∨ ∃ p o, Needs t k p ∧ e = .resolved p o

/-- The clock in which all that concerns node `k` is known. -/
inductive Know (τ : St) (k : Nat) : Clock → Prop
  | queued (p : Nat) : τ.g.pc k = .queued → par (τ.g.kind k) p → Know τ k (τ.mx p)
  | due : due (τ.g.pc k) = true → Know τ k (τ.tk k)
  | running : τ.g.pc k = .running → Know τ k (τ.vc (τ.thr k))
  | waiting (m : Nat) : τ.g.pc k = .waiting m → Know τ k (τ.mx m)

structure HB (τ : St) : Prop where
  inv : Inv τ.g
  tr : τ.log.map Prod.fst = τ.g.trace
  nn : ∀ e ∈ τ.g.trace, τ.g.pc (node e) ≠ .none
  pr : ∀ k p, par (τ.g.kind k) p → τ.g.pc k ≠ .queued → τ.g.pc p = .ready
  rt : ∀ k m, .returned k (.fut m) ∈ τ.g.trace →
    τ.g.pc k = .waiting m ∨ τ.g.pc k = .flat m ∨ (τ.g.pc k = .ready ∧ τ.g.pc m = .ready) ∨ τ.g.pc k = .dead
  kn : ∀ k c, Know τ k c → ∀ e ∈ τ.log, Rel τ.g.trace k e.1 → leq e.2 c
  rd : ∀ e ∈ τ.log, ∀ n o, e.1 = .resolved n o → leq e.2 (τ.mx n) ∧ leq e.2 (τ.rdy n)
  ord : τ.log.Pairwise fun e e' => node e.1 = node e'.1 → leq e.2 e'.2
  ca : ∀ e ∈ τ.log, ∀ k x, e.1 = .called k x → ∀ e' ∈ τ.log, ∀ p o, par (τ.g.kind k) p → e'.1 = .resolved p o → leq e'.2 e.2
  rs : ∀ e ∈ τ.log, ∀ k x, e.1 = .resolved k x → ∀ e' ∈ τ.log, ∀ p o, Needs τ.g.trace k p → e'.1 = .resolved p o → leq e'.2 e.2
  rl : ∀ e ∈ τ.log, ∀ r ∈ τ.log, ∀ o, r.1 = .resolved (node e.1) o → leq e.2 r.2
  rds : ∀ x ∈ τ.reads, τ.g.pc x.1 = .ready ∧ ∀ e ∈ τ.log, ∀ o, e.1 = .resolved x.1 o → leq e.2 x.2

theorem HB.init : HB {} where
  inv := Inv.init
  tr := rfl
  nn e h := by cases h
  pr k p h := by rcases h with h | h <;> cases h
  rt k m h := by cases h
  kn k c _ e h := by cases h
  rd e h := by cases h
  ord := .nil
  ca e h := by cases h
  rs e h := by cases h
  rl e h := by cases h
  rds x h := by cases h

theorem needs_par (I : Inv g) {k p : Nat} : Needs g.trace k p ↔ par (g.kind k) p ∨ .returned k (.fut p) ∈ g.trace := by
  simp only [Needs, par, I.cr, or_assoc]

theorem due_cases {x : Pc} (h : due x = true) : x = .sched ∨ ∃ m, x = .flat m := by
  cases x <;> simp_all [due]

/-- A step of the graph, with the clocks given by what is known about them. -/
theorem HB.graph (H : HB τ) {a : Verif.Graph.Act} {c : Clock} {vc' mx' rdy' tk' : Nat → Clock} {thr' : Nat → Nat}
    (hs : Verif.Graph.step τ.g a = .ok g')
    (hvc : ∀ x, leq (τ.vc x) (vc' x))
    (hcal : ∀ k, caller a = some k → leq (τ.vc (τ.thr k)) c)
    (htask : ∀ k, task a = some k → leq (τ.tk k) c)
    (hmx : ∀ n, leq (τ.mx n) (mx' n))
    (hlk : ∀ n, locks τ.g g' a = some n → leq (τ.mx n) c ∧ mx' n = c)
    (hrdy : ∀ n, τ.g.pc n = .ready → rdy' n = τ.rdy n)
    (hrdy' : ∀ n, τ.g.pc n ≠ .ready → g'.pc n = .ready → rdy' n = c)
    (htk : ∀ n, g'.pc n = τ.g.pc n → tk' n = τ.tk n)
    (htk' : ∀ n, g'.pc n ≠ τ.g.pc n → due (g'.pc n) = true → tk' n = c)
    (hthr : ∀ n, a ≠ .run n → thr' n = τ.thr n)
    (hrun : ∀ n, a = .run n → vc' (thr' n) = c) :
    HB { g := g', vc := vc', mx := mx', rdy := rdy', tk := tk', thr := thr',
         log := τ.log ++ (g'.trace.drop τ.g.trace.length).map (·, c), reads := τ.reads } := by
  have I := H.inv
  have I' := I.step hs
  have F := frame I hs
  obtain ⟨evs, he, hev⟩ := F.tr
  have hlog : (g'.trace.drop τ.g.trace.length).map (·, c) = evs.map (·, c) := by rw [he, List.drop_left]
  rw [hlog]
  have htr : ∀ e ∈ τ.log, e.1 ∈ τ.g.trace := fun e h => by rw [← H.tr]; exact List.mem_map_of_mem h
  have hmem : ∀ e, e ∈ g'.trace ↔ e ∈ τ.g.trace ∨ e ∈ evs := fun e => by rw [he]; exact List.mem_append
  have hlm : ∀ e, e ∈ τ.log ++ evs.map (·, c) → e ∈ τ.log ∨ (e.1 ∈ evs ∧ e.2 = c) := by
    intro e h
    rcases List.mem_append.1 h with h | h
    · exact .inl h
    · obtain ⟨x, h1, rfl⟩ := List.mem_map.1 h
      exact .inr ⟨h1, rfl⟩
  -- all that concerns a node about which there is an event
  have hact : ∀ k, (task a = some k ∧ due (τ.g.pc k) = true ∨ caller a = some k ∧ τ.g.pc k = .running) → ∀ e ∈ τ.log, Rel τ.g.trace k e.1 → leq e.2 c := by
    intro k h e hl hr
    rcases h with ⟨h1, h2⟩ | ⟨h1, h2⟩
    · exact (H.kn k _ (.due h2) e hl hr).trans (htask k h1)
    · exact (H.kn k _ (.running h2) e hl hr).trans (hcal k h1)
  have hevn : ∀ e ∈ evs, (τ.g.pc (node e) = .none ∧ g'.pc (node e) ≠ .none) ∨
      ((task a = some (node e) ∧ due (τ.g.pc (node e)) = true ∨ caller a = some (node e) ∧ τ.g.pc (node e) = .running) ∧ g'.pc (node e) ≠ τ.g.pc (node e)) := by
    intro e h
    have := hev e h
    cases e with
    | created k x => exact .inl this
    | called k x => exact .inr ⟨.inl ⟨this.1, by simp only [node]; rw [this.2.1]; rfl⟩, by simp only [node]; rw [this.2.1, this.2.2]; simp⟩
    | returned k r => exact .inr ⟨.inr ⟨this.1, this.2.1⟩, by simp only [node]; rw [this.2.1]; exact this.2.2.1⟩
    | resolved k o =>
      refine .inr ⟨this.2, ?_⟩
      simp only [node]
      rw [this.1]
      rcases this.2 with ⟨-, h⟩ | ⟨-, h⟩
      · rcases due_cases h with h | ⟨m, h⟩ <;> rw [h] <;> simp
      · rw [h]; simp
    | discarded k => exact .inr ⟨.inl ⟨this.1, by simp only [node]; rw [this.2.1]; rfl⟩, by simp only [node]; rw [this.2.1, this.2.2]; simp⟩
  have hevk : ∀ e ∈ evs, ∀ e' ∈ τ.log, node e'.1 = node e → leq e'.2 c := by
    intro e h e' h' hn
    rcases hevn e h with ⟨h1, -⟩ | ⟨h1, -⟩
    · exact absurd (by rw [hn]; exact h1) (H.nn _ (htr e' h'))
    · exact hact _ h1 e' h' (.inl hn)
  have hres : ∀ n o, .resolved n o ∈ evs → τ.g.pc n ≠ .ready ∧ g'.pc n = .ready := by
    intro n o h
    obtain ⟨h1, h2⟩ := hev _ h
    refine ⟨?_, h1⟩
    rcases h2 with ⟨-, h⟩ | ⟨-, h⟩
    · rcases due_cases h with h | ⟨m, h⟩ <;> rw [h] <;> simp
    · rw [h]; simp
  have hresl : ∀ e ∈ τ.log, ∀ n o, e.1 = .resolved n o → τ.g.pc n = .ready := by
    intro e h n o h'
    refine (I.rd n).2 ?_
    have := htr e h
    rw [h'] at this
    rw [(I.rs n o).1 this]; simp
  have hkind : ∀ k p, par (g'.kind k) p → τ.g.pc k ≠ .none → par (τ.g.kind k) p := fun k p h h' => by rw [← F.kind k h']; exact h
  have hparn : ∀ k p, par (τ.g.kind k) p → τ.g.pc k ≠ .none := fun k p h h' => by
    have := (I.kd k).2 h'
    rw [this] at h
    rcases h with h | h <;> cases h
  -- what a node needs stays the same, except for the one that goes on
  have hneed : ∀ k p, Needs g'.trace k p → τ.g.pc k ≠ .none → Needs τ.g.trace k p ∨ (.returned k (.fut p) ∈ evs) := by
    intro k p h h'
    rw [needs_par I'] at h
    rw [needs_par I]
    rcases h with h | h
    · exact .inl (.inl (hkind k p h h'))
    · rcases (hmem _).1 h with h | h
      · exact .inl (.inr h)
      · exact .inr h
  have hpr : ∀ k p, par (g'.kind k) p → g'.pc k ≠ .queued → g'.pc p = .ready := by
    intro k p h hq
    by_cases h0 : τ.g.pc k = .none
    · rcases F.mv k with e | m
      · have : g'.pc k = .none := by rw [e]; exact h0
        rw [(I'.kd k).2 this] at h
        rcases h with h | h <;> cases h
      · have hun : ∀ p', par (g'.kind k) p' → p' = p := by
          intro p' h'
          rcases h with h | h <;> rcases h' with h' | h' <;> rw [h] at h' <;> cases h' <;> rfl
        cases m with
        | async _ _ hk => rw [hk] at h; rcases h with h | h <;> cases h
        | queued p' _ h1 _ _ => exact absurd h1 hq
        | sched p' _ _ h1 _ h2 => rw [← hun p' h1]; exact F.ready _ h2
        | wake p' h1 => rw [h0] at h1; cases h1
        | flat m h1 => rw [h0] at h1; cases h1
        | call _ h1 => rw [h0] at h1; cases h1
        | dead _ h1 => rw [h0] at h1; cases h1
        | done _ _ h1 => rcases h1 with ⟨_, h1⟩ | ⟨_, h1⟩ <;> rw [h0] at h1 <;> cases h1
        | ret m _ h1 => rw [h0] at h1; cases h1
    · have hp := hkind k p h h0
      by_cases hq0 : τ.g.pc k = .queued
      · rcases F.mv k with e | m
        · exact absurd (by rw [e]; exact hq0) hq
        · cases m with
          | async h1 => exact absurd h1 h0
          | queued p' h1 => exact absurd h1 h0
          | sched p' h1 => exact absurd h1 h0
          | wake p' _ _ h1 _ h2 =>
            have : p' = p := by rcases hp with h | h <;> rcases h1 with h' | h' <;> rw [h] at h' <;> cases h' <;> rfl
            rw [← this]; exact h2
          | flat m h1 => rw [hq0] at h1; cases h1
          | call _ h1 => rw [hq0] at h1; cases h1
          | dead _ h1 => rw [hq0] at h1; cases h1
          | done _ _ h1 => rcases h1 with ⟨_, h1⟩ | ⟨_, h1⟩ <;> rw [hq0] at h1 <;> cases h1
          | ret m _ h1 => rw [hq0] at h1; cases h1
      · exact F.ready _ (H.pr k p hp hq0)
  have hrt : ∀ k m, .returned k (.fut m) ∈ g'.trace →
      g'.pc k = .waiting m ∨ g'.pc k = .flat m ∨ (g'.pc k = .ready ∧ g'.pc m = .ready) ∨ g'.pc k = .dead := by
    intro k m h
    rcases (hmem _).1 h with h | h
    · rcases H.rt k m h with h1 | h1 | ⟨h1, h2⟩ | h1
      · rcases F.mv k with e | mv
        · exact .inl (by rw [e]; exact h1)
        · cases mv with
          | flat m' h2 h3 => rw [h1] at h2; cases h2; exact .inr (.inl h3)
          | async h2 => rw [h1] at h2; cases h2
          | queued _ h2 => rw [h1] at h2; cases h2
          | sched _ h2 => rw [h1] at h2; cases h2
          | wake _ h2 => rw [h1] at h2; cases h2
          | call _ h2 => rw [h1] at h2; cases h2
          | dead _ h2 => rw [h1] at h2; cases h2
          | done _ _ h2 => rcases h2 with ⟨_, h2⟩ | ⟨_, h2⟩ <;> rw [h1] at h2 <;> cases h2
          | ret _ _ h2 => rw [h1] at h2; cases h2
      · rcases F.mv k with e | mv
        · exact .inr (.inl (by rw [e]; exact h1))
        · cases mv with
          | dead h2 => exact .inr (.inr (.inr h2))
          | done h2 => exact .inr (.inr (.inl ⟨h2, F.ready m (I.fl k m h1).1⟩))
          | flat m' h2 h3 => rw [h1] at h2; cases h2
          | async h2 => rw [h1] at h2; cases h2
          | queued _ h2 => rw [h1] at h2; cases h2
          | sched _ h2 => rw [h1] at h2; cases h2
          | wake _ h2 => rw [h1] at h2; cases h2
          | call _ h2 => rw [h1] at h2; cases h2
          | ret _ _ h2 => rw [h1] at h2; cases h2
      · exact .inr (.inr (.inl ⟨F.ready k h1, F.ready m h2⟩))
      · rcases F.mv k with e | mv
        · exact .inr (.inr (.inr (by rw [e]; exact h1)))
        · cases mv with
          | dead h2 => exact .inr (.inr (.inr h2))
          | done _ _ h2 => rcases h2 with ⟨_, h2⟩ | ⟨_, h2⟩ <;> rw [h1] at h2 <;> cases h2
          | flat m' h2 h3 => rw [h1] at h2; cases h2
          | async h2 => rw [h1] at h2; cases h2
          | queued _ h2 => rw [h1] at h2; cases h2
          | sched _ h2 => rw [h1] at h2; cases h2
          | wake _ h2 => rw [h1] at h2; cases h2
          | call _ h2 => rw [h1] at h2; cases h2
          | ret _ _ h2 => rw [h1] at h2; cases h2
    · rcases (hev _ h).2.2.2 m rfl with h | h
      · exact .inl h
      · exact .inr (.inl h)
  -- nothing new concerns a node that does not go on
  have hstay : ∀ k, g'.pc k = τ.g.pc k → τ.g.pc k ≠ .none → (τ.g.pc k = .queued ∨ due (τ.g.pc k) = true ∨ τ.g.pc k = .running ∨ ∃ m, τ.g.pc k = .waiting m) →
      ∀ e ∈ τ.log ++ evs.map (·, c), Rel g'.trace k e.1 → e ∈ τ.log ∧ Rel τ.g.trace k e.1 := by
    intro k hk h0 hst e hl hr
    have hno : ∀ e ∈ evs, node e ≠ k := by
      intro e h hn
      rcases hevn e h with ⟨h1, -⟩ | ⟨-, h1⟩
      · rw [hn] at h1; exact h0 h1
      · rw [hn] at h1; exact h1 hk
    have hne : ∀ p, Needs g'.trace k p → Needs τ.g.trace k p := fun p h => (hneed k p h h0).resolve_right fun h => hno _ h rfl
    rcases hlm e hl with hl | ⟨hl, -⟩
    · refine ⟨hl, ?_⟩
      rcases hr with hr | ⟨p, o, h1, h2⟩
      · exact .inl hr
      · exact .inr ⟨p, o, hne p h1, h2⟩
    · exfalso
      rcases hr with hr | ⟨p, o, h1, h2⟩
      · exact hno _ hl hr
      · rw [h2] at hl
        obtain ⟨h3, h4⟩ := hres p o hl
        rcases (needs_par I).1 (hne p h1) with h5 | h5
        · by_cases hq : τ.g.pc k = .queued
          · exact I'.qu k p (by rw [hk]; exact hq) (by rw [F.kind k h0]; exact h5) h4
          · exact h3 (H.pr k p h5 hq)
        · rcases hrt k p ((hmem _).2 (.inl h5)) with h6 | h6 | ⟨h6, -⟩ | h6
          · exact (I'.wt k p h6).1 h4
          · exact h3 (I.fl k p (by rw [← hk]; exact h6)).1
          · rw [hk] at h6; rcases hst with h | h | h | ⟨m, h⟩ <;> rw [h6] at h <;> cases h
          · rw [hk] at h6; rcases hst with h | h | h | ⟨m, h⟩ <;> rw [h6] at h <;> cases h
  -- a node that goes on
  have hgo : ∀ k, Move τ.g g' a k → g'.pc k ≠ .ready → g'.pc k ≠ .dead → ∀ e ∈ τ.log ++ evs.map (·, c), Rel g'.trace k e.1 → leq e.2 c := by
    intro k mv hnr hnd e hl hr
    rcases hlm e hl with hl | ⟨-, hl⟩
    · have hnew : τ.g.pc k = .none → ∀ p, node e.1 ≠ k ∧ .returned k (.fut p) ∉ g'.trace := by
        intro h0 p
        refine ⟨fun h => H.nn _ (htr e hl) (by rw [h]; exact h0), fun h => ?_⟩
        rcases (hmem _).1 h with h | h
        · exact H.nn _ h h0
        · have := (hev _ h).2.1; rw [h0] at this; cases this
      have hold : τ.g.pc k ≠ .none → (∀ p, .returned k (.fut p) ∈ evs → ∀ o, e.1 = .resolved p o → leq e.2 c) →
          (Rel τ.g.trace k e.1 → leq e.2 c) → leq e.2 c := by
        intro h0 h1 h2
        rcases hr with hr | ⟨p, o, h3, h4⟩
        · exact h2 (.inl hr)
        · rcases hneed k p h3 h0 with h3 | h3
          · exact h2 (.inr ⟨p, o, h3, h4⟩)
          · exact h1 p h3 o h4
      have hnoret : τ.g.pc k ≠ .running → ∀ p, .returned k (.fut p) ∈ evs → ∀ o, e.1 = .resolved p o → leq e.2 c := fun h p h1 => absurd (hev _ h1).2.1 h
      cases mv with
      | async h0 _ hk =>
        exfalso
        rcases hr with hr | ⟨p, o, h1, h2⟩
        · exact (hnew h0 0).1 hr
        · rcases (needs_par I').1 h1 with h | h
          · rw [hk] at h; rcases h with h | h <;> cases h
          · exact (hnew h0 p).2 h
      | queued p0 h0 hq hk hlo =>
        exfalso
        rcases hr with hr | ⟨p, o, h1, h2⟩
        · exact (hnew h0 0).1 hr
        · rcases (needs_par I').1 h1 with h | h
          · exact I'.qu k p hq h (F.ready _ (hresl e hl p o h2))
          · exact (hnew h0 p).2 h
      | sched p0 h0 _ hk hlo _ =>
        rcases hr with hr | ⟨p, o, h1, h2⟩
        · exact absurd hr (hnew h0 0).1
        · rcases (needs_par I').1 h1 with h | h
          · have : p0 = p := by rcases hk with h' | h' <;> rcases h with h | h <;> rw [h] at h' <;> cases h' <;> rfl
            subst this
            exact (H.rd e hl p0 o h2).1.trans (hlk _ hlo).1
          · exact absurd h (hnew h0 p).2
      | wake p h0 _ hk hlo _ =>
        exact hold (by rw [h0]; simp) (hnoret (by rw [h0]; simp)) fun h => (H.kn k _ (.queued p h0 hk) e hl h).trans (hlk _ hlo).1
      | flat m h0 _ hlo _ =>
        exact hold (by rw [h0]; simp) (hnoret (by rw [h0]; simp)) fun h => (H.kn k _ (.waiting m h0) e hl h).trans (hlk _ hlo).1
      | call ha h0 _ =>
        exact hold (by rw [h0]; simp) (hnoret (by rw [h0]; simp)) fun h => hact k (.inl ⟨by rw [ha]; rfl, by rw [h0]; rfl⟩) e hl h
      | dead h => exact absurd h hnd
      | done h => exact absurd h hnr
      | ret m ha h0 h1 hlo =>
        refine hold (by rw [h0]; simp) ?_ fun h => hact k (.inr ⟨ha, h0⟩) e hl h
        intro p h2 o h3
        have : p = m := by
          rcases (hev _ h2).2.2.2 p rfl with h | h <;> rcases h1 with h' | ⟨h', -⟩ <;> rw [h] at h' <;> cases h' <;> rfl
        subst this
        exact (H.rd e hl p o h3).1.trans (hlk _ hlo).1
    · rw [hl]; exact leq.refl _
  refine ⟨I', ?_, ?_, hpr, hrt, ?_, ?_, ?_, ?_, ?_, ?_, ?_⟩
  · -- trace
    simp only [List.map_append, H.tr, he]
    congr 1
    rw [List.map_map]
    exact (List.map_congr_left fun _ _ => rfl).trans (List.map_id _)
  · intro e h
    rcases (hmem _).1 h with h | h
    · have h0 := H.nn e h
      rcases F.mv (node e) with h1 | mv
      · simp only; rw [h1]; exact h0
      · cases mv with
        | async h2 => exact absurd h2 h0
        | queued _ h2 => exact absurd h2 h0
        | sched _ h2 => exact absurd h2 h0
        | wake _ _ h2 => simp [h2]
        | flat _ _ h2 => simp [h2]
        | call _ _ h2 => simp [h2]
        | dead h2 => simp [h2]
        | done h2 => simp [h2]
        | ret _ _ _ h2 => rcases h2 with h2 | ⟨h2, -⟩ <;> simp [h2]
    · rcases hevn e h with ⟨-, h1⟩ | ⟨h1, -⟩
      · exact h1
      · have h0 : τ.g.pc (node e) ≠ .none := by
          rcases h1 with ⟨-, h1⟩ | ⟨-, h1⟩ <;> intro h2 <;> rw [h2] at h1 <;> cases h1
        intro h2
        have h3 := (I'.kd (node e)).2 h2
        rw [F.kind _ h0] at h3
        exact h0 ((I.kd _).1 h3)
  · -- what is known about the nodes
    intro k c' hk e hl hr
    by_cases hpc : g'.pc k = τ.g.pc k
    · have h0 : τ.g.pc k ≠ .none := by
        intro h0
        rw [h0] at hpc
        cases hk with
        | queued p h => simp only at h; rw [hpc] at h; cases h
        | due h => simp only at h; rw [hpc] at h; cases h
        | running h => simp only at h; rw [hpc] at h; cases h
        | waiting m h => simp only at h; rw [hpc] at h; cases h
      cases hk with
      | queued p h h1 =>
        simp only at h h1 ⊢
        rw [hpc] at h
        obtain ⟨h2, h3⟩ := hstay k hpc h0 (.inl h) e hl hr
        exact (H.kn k _ (.queued p h (hkind k p h1 h0)) e h2 h3).trans (hmx p)
      | due h =>
        simp only at h ⊢
        rw [hpc] at h
        obtain ⟨h2, h3⟩ := hstay k hpc h0 (.inr (.inl h)) e hl hr
        rw [htk k hpc]
        exact H.kn k _ (.due h) e h2 h3
      | running h =>
        simp only at h ⊢
        rw [hpc] at h
        obtain ⟨h2, h3⟩ := hstay k hpc h0 (.inr (.inr (.inl h))) e hl hr
        have ha : a ≠ .run k := by
          rintro rfl
          simp only [Verif.Graph.step] at hs
          rw [h] at hs
          simp at hs
        rw [hthr k ha]
        exact (H.kn k _ (.running h) e h2 h3).trans (hvc _)
      | waiting m h =>
        simp only at h ⊢
        rw [hpc] at h
        obtain ⟨h2, h3⟩ := hstay k hpc h0 (.inr (.inr (.inr ⟨m, h⟩))) e hl hr
        exact (H.kn k _ (.waiting m h) e h2 h3).trans (hmx m)
    · have mv := (F.mv k).resolve_left hpc
      have : c' = c ∧ g'.pc k ≠ .ready ∧ g'.pc k ≠ .dead := by
        cases hk with
        | queued p h h1 =>
          simp only at h h1 ⊢
          refine ⟨?_, by rw [h]; simp, by rw [h]; simp⟩
          cases mv with
          | queued p' _ _ h2 h3 =>
            have : p' = p := by rcases h1 with h' | h' <;> rcases h2 with h | h <;> rw [h] at h' <;> cases h' <;> rfl
            subst this
            exact (hlk _ h3).2
          | async _ h2 => rw [h] at h2; cases h2
          | sched _ _ h2 => rw [h] at h2; cases h2
          | wake _ _ h2 => rw [h] at h2; cases h2
          | flat _ _ h2 => rw [h] at h2; cases h2
          | call _ _ h2 => rw [h] at h2; cases h2
          | dead h2 => rw [h] at h2; cases h2
          | done h2 => rw [h] at h2; cases h2
          | ret _ _ _ h2 => rcases h2 with h2 | ⟨h2, -⟩ <;> rw [h] at h2 <;> cases h2
        | due h =>
          simp only at h ⊢
          refine ⟨htk' k hpc h, ?_, ?_⟩ <;> rcases due_cases h with h | ⟨m, h⟩ <;> rw [h] <;> simp
        | running h =>
          simp only at h ⊢
          refine ⟨?_, by rw [h]; simp, by rw [h]; simp⟩
          cases mv with
          | call ha => exact hrun k ha
          | queued _ _ h2 => rw [h] at h2; cases h2
          | async _ h2 => rw [h] at h2; cases h2
          | sched _ _ h2 => rw [h] at h2; cases h2
          | wake _ _ h2 => rw [h] at h2; cases h2
          | flat _ _ h2 => rw [h] at h2; cases h2
          | dead h2 => rw [h] at h2; cases h2
          | done h2 => rw [h] at h2; cases h2
          | ret _ _ _ h2 => rcases h2 with h2 | ⟨h2, -⟩ <;> rw [h] at h2 <;> cases h2
        | waiting m h =>
          simp only at h ⊢
          refine ⟨?_, by rw [h]; simp, by rw [h]; simp⟩
          cases mv with
          | ret m' _ _ h2 h3 =>
            rcases h2 with h2 | ⟨h2, -⟩ <;> rw [h] at h2 <;> cases h2
            exact (hlk _ h3).2
          | call _ _ h2 => rw [h] at h2; cases h2
          | queued _ _ h2 => rw [h] at h2; cases h2
          | async _ h2 => rw [h] at h2; cases h2
          | sched _ _ h2 => rw [h] at h2; cases h2
          | wake _ _ h2 => rw [h] at h2; cases h2
          | flat _ _ h2 => rw [h] at h2; cases h2
          | dead h2 => rw [h] at h2; cases h2
          | done h2 => rw [h] at h2; cases h2
      rw [this.1]
      exact hgo k mv this.2.1 this.2.2 e hl hr
  · -- mutexes
    intro e hl n o h
    simp only
    rcases hlm e hl with hl | ⟨hl, hc⟩
    · refine ⟨(H.rd e hl n o h).1.trans (hmx n), ?_⟩
      rw [hrdy n (hresl e hl n o h)]
      exact (H.rd e hl n o h).2
    · rw [h] at hl
      obtain ⟨h1, h2⟩ := hres n o hl
      have hlo : locks τ.g g' a = some n := by
        have mv := (F.mv n).resolve_left (fun e => h1 (by rw [← e]; exact h2))
        cases mv with
        | done _ h => exact h
        | ret _ _ _ h => rcases h with h | ⟨h, -⟩ <;> rw [h2] at h <;> cases h
        | call _ _ h => rw [h2] at h; cases h
        | queued _ _ h => rw [h2] at h; cases h
        | async _ h => rw [h2] at h; cases h
        | sched _ _ h => rw [h2] at h; cases h
        | wake _ _ h => rw [h2] at h; cases h
        | flat _ _ h => rw [h2] at h; cases h
        | dead h => rw [h2] at h; cases h
      rw [hc, (hlk n hlo).2, hrdy' n h1 h2]
      exact ⟨leq.refl _, leq.refl _⟩
  · -- order
    simp only
    refine List.pairwise_append.2 ⟨H.ord, ?_, fun e he e' he' hn => ?_⟩
    · rw [List.pairwise_map]
      exact List.pairwise_of_forall fun _ _ _ => leq.refl _
    · obtain ⟨x, h1, rfl⟩ := List.mem_map.1 he'
      exact hevk x h1 e he hn
  · -- calls
    intro e hl k x hx e' hl' p o hp hr
    simp only at hp
    rcases hlm e hl with hl | ⟨hl, hc⟩
    · have h0 : .called k x ∈ τ.g.trace := by rw [← hx]; exact htr e hl
      have hk0 := H.nn _ h0
      simp only [node] at hk0
      have hp0 := hkind k p hp hk0
      rcases hlm e' hl' with hl' | ⟨hl', -⟩
      · exact H.ca e hl k x hx e' hl' p o hp0 hr
      · rw [hr] at hl'
        exact absurd (H.pr k p hp0 fun h => I.ca k x h0 (by rw [h]; trivial)) (hres p o hl').1
    · rw [hx] at hl
      obtain ⟨h1, h2, -⟩ := hev _ hl
      rw [hc]
      have hp0 := hkind k p hp (by rw [h2]; simp)
      rcases hlm e' hl' with hl' | ⟨-, hc'⟩
      · exact hact k (.inl ⟨h1, by rw [h2]; rfl⟩) e' hl' (.inr ⟨p, o, (needs_par I).2 (.inl hp0), hr⟩)
      · rw [hc']; exact leq.refl _
  · -- resolutions
    intro e hl k x hx e' hl' p o hp hr
    simp only at hp
    rcases hlm e hl with hl | ⟨hl, hc⟩
    · have hk0 := hresl e hl k x hx
      have hp0 : Needs τ.g.trace k p := (hneed k p hp (by rw [hk0]; simp)).resolve_right fun h => by
        have := (hev _ h).2.1; rw [hk0] at this; cases this
      rcases hlm e' hl' with hl' | ⟨hl', -⟩
      · exact H.rs e hl k x hx e' hl' p o hp0 hr
      · rw [hr] at hl'
        refine absurd ?_ (hres p o hl').1
        rcases (needs_par I).1 hp0 with h | h
        · exact H.pr k p h (by rw [hk0]; simp)
        · rcases H.rt k p h with h | h | ⟨-, h⟩ | h
          · rw [hk0] at h; cases h
          · rw [hk0] at h; cases h
          · exact h
          · rw [hk0] at h; cases h
    · rw [hx] at hl
      obtain ⟨h1, h2⟩ := hev _ hl
      rw [hc]
      have h0 : τ.g.pc k ≠ .none := by
        rcases h2 with ⟨-, h2⟩ | ⟨-, h2⟩ <;> intro h <;> rw [h] at h2 <;> cases h2
      have hp0 : Needs τ.g.trace k p := (hneed k p hp h0).resolve_right fun h => by
        rcases (hev _ h).2.2.2 p rfl with h | h <;> rw [h1] at h <;> cases h
      rcases hlm e' hl' with hl' | ⟨-, hc'⟩
      · exact hact k h2 e' hl' (.inr ⟨p, o, hp0, hr⟩)
      · rw [hc']; exact leq.refl _
  · -- the end of a node
    intro e hl r hl' o hr
    rcases hlm r hl' with hl' | ⟨hl', hc'⟩
    · rcases hlm e hl with hl | ⟨hl, -⟩
      · exact H.rl e hl r hl' o hr
      · have h0 := hresl r hl' _ o hr
        rcases hevn _ hl with ⟨h1, -⟩ | ⟨h1, -⟩
        · rw [h0] at h1; cases h1
        · rcases h1 with ⟨-, h1⟩ | ⟨-, h1⟩ <;> rw [h0] at h1 <;> cases h1
    · rw [hr] at hl'
      rw [hc']
      rcases hlm e hl with hl | ⟨-, hc⟩
      · exact hevk _ hl' e hl rfl
      · rw [hc]; exact leq.refl _
  · -- reads
    intro x hx
    obtain ⟨h1, h2⟩ := H.rds x hx
    refine ⟨F.ready _ h1, fun e hl o h => ?_⟩
    rcases hlm e hl with hl | ⟨hl, -⟩
    · exact h2 e hl o h
    · rw [h] at hl
      exact absurd h1 (hres _ o hl).1

theorem also_base (c : Clock) (f : Nat → Clock) (o : Option Nat) : leq c (also c f o) := by
  cases o with
  | none => exact leq.refl _
  | some n => exact leq_joinl _ _

theorem leq_bump (c : Clock) (w : Nat) : leq c (upd c w (c w + 1)) := by
  intro i
  by_cases h : i = w
  · subst h; rw [upd_same]; omega
  · rw [upd_ne _ _ h]; exact Nat.le_refl _

theorem clock_vc (τ : St) (w : Nat) (t l : Option Nat) : leq (τ.vc w) (clock τ w t l) :=
  ((also_base _ _ _).trans (also_base _ _ _)).trans (leq_bump _ _)

theorem clock_tk (τ : St) (w t : Nat) (l : Option Nat) : leq (τ.tk t) (clock τ w (some t) l) :=
  ((leq_joinr _ _).trans (also_base _ _ _)).trans (leq_bump _ _)

theorem clock_mx (τ : St) (w : Nat) (t : Option Nat) (l : Nat) : leq (τ.mx l) (clock τ w t (some l)) := (leq_joinr _ _).trans (leq_bump _ _)

theorem upd_leq {f : Nat → Clock} {w : Nat} {c : Clock} (h : leq (f w) c) (x : Nat) : leq (f x) (upd f w c x) := by
  by_cases e : x = w
  · subst e; rw [upd_same]; exact h
  · rw [upd_ne _ _ e]; exact leq.refl _

theorem HB.step (H : HB τ) {a : Act} (h : step τ a = some τ') : HB τ' := by
  cases a with
  | graph a u =>
    simp only [Graph.step] at h
    split at h
    · next g' hs =>
      cases h
      refine H.graph hs (upd_leq (clock_vc _ _ _ _)) ?_ ?_ ?_ ?_ ?_ ?_ ?_ ?_ ?_ ?_
      · intro k hk
        have : who τ.thr a u = τ.thr k := by simp only [who, hk]
        rw [← this]; exact clock_vc _ _ _ _
      · intro k hk; rw [hk]; exact clock_tk _ _ _ _
      · intro n
        split
        · next h => rw [h]; exact clock_mx _ _ _ _
        · exact leq.refl _
      · intro n hn; rw [if_pos hn, hn]; exact ⟨clock_mx _ _ _ _, rfl⟩
      · intro n hn; rw [if_neg (fun h => h.1 hn)]
      · intro n h1 h2; rw [if_pos ⟨h1, h2⟩]
      · intro n hn; rw [if_neg (fun h => h.1 hn)]
      · intro n h1 h2; rw [if_pos ⟨h1, h2⟩]
      · intro n hn
        cases a with
        | run m =>
          show upd τ.thr m _ n = _
          rw [upd_ne]
          rintro rfl; exact hn rfl
        | _ => rfl
      · rintro n rfl
        simp only [upd_same]
    · cases h
  | read f u =>
    simp only [Graph.step] at h
    split at h
    · cases h
    · next n hn =>
      split at h
      · next hr =>
        cases h
        have hv : ∀ x, leq (τ.vc x) (upd τ.vc u (upd (join (τ.vc u) (τ.rdy n)) u (join (τ.vc u) (τ.rdy n) u + 1)) x) :=
          upd_leq ((leq_joinl _ _).trans (leq_bump _ _))
        refine ⟨H.inv, H.tr, H.nn, H.pr, H.rt, fun k c hk e hl hr => ?_, H.rd, H.ord, H.ca, H.rs, H.rl, fun x hx => ?_⟩
        · cases hk with
          | queued p h1 h2 => exact H.kn k _ (.queued p h1 h2) e hl hr
          | due h1 => exact H.kn k _ (.due h1) e hl hr
          | running h1 => exact (H.kn k _ (.running h1) e hl hr).trans (hv _)
          | waiting m h1 => exact H.kn k _ (.waiting m h1) e hl hr
        · rcases List.mem_append.1 hx with hx | hx
          · exact H.rds x hx
          · rw [List.mem_singleton.1 hx]
            exact ⟨hr, fun e hl o he => ((H.rd e hl n o he).2.trans (leq_joinr _ _)).trans (leq_bump _ _)⟩
      · cases h
  | sync t t' =>
    cases h
    have hv : ∀ x, leq (τ.vc x) (upd τ.vc t' (join (τ.vc t') (τ.vc t)) x) := upd_leq (leq_joinl _ _)
    refine ⟨H.inv, H.tr, H.nn, H.pr, H.rt, fun k c hk e hl hr => ?_, H.rd, H.ord, H.ca, H.rs, H.rl, H.rds⟩
    cases hk with
    | queued p h1 h2 => exact H.kn k _ (.queued p h1 h2) e hl hr
    | due h1 => exact H.kn k _ (.due h1) e hl hr
    | running h1 => exact (H.kn k _ (.running h1) e hl hr).trans (hv _)
    | waiting m h1 => exact H.kn k _ (.waiting m h1) e hl hr

theorem Reachable.hb (r : Reachable τ) : HB τ := by
  induction r with
  | init => exact HB.init
  | step a _ h ih => exact ih.step h

theorem HB.mem (H : HB τ) {e : Event} : e ∈ τ.g.trace ↔ ∃ c, (e, c) ∈ τ.log := by
  rw [← H.tr, List.mem_map]
  exact ⟨fun ⟨x, h, e⟩ => ⟨x.2, by rw [← e]; exact h⟩, fun ⟨c, h⟩ => ⟨_, h, rfl⟩⟩

/-- **C118**: the log has all events of the graph, in their order. -/
theorem c118_log (r : Reachable τ) : τ.log.map Prod.fst = τ.g.trace := r.hb.tr

/-- **C118**: what concerns one future is ordered: making it, the call of its function, the end of the call and the resolution, each happens before the later ones. -/
theorem c118_one_future (r : Reachable τ) : τ.log.Pairwise fun e e' => node e.1 = node e'.1 → leq e.2 e'.2 := r.hb.ord

/-- The results on which the argument of the function of node `k` depends: the node it continues, and whatever that one needs. -/
inductive Before (t : List Event) : Nat → Nat → Prop
  | thn {k p : Nat} : .created k (.thn p) ∈ t → Before t p k
  | rcv {k p : Nat} : .created k (.rcv p) ∈ t → Before t p k
  | step {k p q : Nat} : Before t p k → Needs t p q → Before t q k

/-- What a resolved node needs was resolved, and that happened before. -/
theorem HB.needs (H : HB τ) {k p : Nat} {x : Outcome} {d : Clock} (hk : (.resolved k x, d) ∈ τ.log) (hn : Needs τ.g.trace k p) :
    (∃ o d', (.resolved p o, d') ∈ τ.log) ∧ ∀ o d', (.resolved p o, d') ∈ τ.log → leq d' d := by
  refine ⟨?_, fun o d' h => H.rs _ hk k x rfl _ h p o hn rfl⟩
  have hr : τ.g.pc k = .ready := by
    refine (H.inv.rd k).2 ?_
    rw [(H.inv.rs k x).1 (H.mem.2 ⟨d, hk⟩)]; simp
  have hp : τ.g.pc p = .ready := by
    rcases (needs_par H.inv).1 hn with h | h
    · exact H.pr k p h (by rw [hr]; simp)
    · rcases H.rt k p h with h | h | ⟨-, h⟩ | h
      · rw [hr] at h; cases h
      · rw [hr] at h; cases h
      · exact h
      · rw [hr] at h; cases h
  obtain ⟨o, ho⟩ := Option.ne_none_iff_exists'.1 ((H.inv.rd p).1 hp)
  obtain ⟨d', h⟩ := H.mem.1 ((H.inv.rs p o).2 ho)
  exact ⟨o, d', h⟩

/-- **C118**: when a function is called, all futures on which its argument depends, however indirectly, have been resolved, and everything about them happened
before the call: that they were made, the calls of their functions and what these did, and their resolution. -/
theorem c118_argument (r : Reachable τ) {k p : Nat} {x : Option Outcome} {c : Clock} (hc : (.called k x, c) ∈ τ.log) (hb : Before τ.g.trace p k) :
    (∃ o d, (.resolved p o, d) ∈ τ.log) ∧ ∀ e ∈ τ.log, node e.1 = p → leq e.2 c := by
  have H := r.hb
  have first : ∀ {p : Nat}, par (τ.g.kind k) p → (∃ o d, (.resolved p o, d) ∈ τ.log) ∧ ∀ o d, (.resolved p o, d) ∈ τ.log → leq d c := by
    intro p hp
    have hr := H.pr k p hp fun h => H.inv.ca k x (H.mem.2 ⟨c, hc⟩) (by rw [h]; trivial)
    obtain ⟨o, ho⟩ := Option.ne_none_iff_exists'.1 ((H.inv.rd p).1 hr)
    obtain ⟨d', h⟩ := H.mem.1 ((H.inv.rs p o).2 ho)
    exact ⟨⟨o, d', h⟩, fun o d h => H.ca _ hc k x rfl _ h p o hp rfl⟩
  have key : (∃ o d, (.resolved p o, d) ∈ τ.log) ∧ ∀ o d, (.resolved p o, d) ∈ τ.log → leq d c := by
    induction hb with
    | thn h => exact first (.inl ((H.inv.cr _ _).1 h))
    | rcv h => exact first (.inr ((H.inv.cr _ _).1 h))
    | step _ hn ih =>
      obtain ⟨⟨o, d, h1⟩, h2⟩ := ih hc first
      obtain ⟨h3, h4⟩ := H.needs h1 hn
      exact ⟨h3, fun o' d' h => (h4 o' d' h).trans (h2 o d h1)⟩
  refine ⟨key.1, fun e he hn => ?_⟩
  obtain ⟨o, d, hd⟩ := key.1
  exact (H.rl e he _ hd o (by rw [hn])).trans (key.2 o d hd)

/-- **C118**: the same when a future is resolved, with the futures it needs: the one it continues, and one that its function returned. -/
theorem c118_resolution (r : Reachable τ) {k p : Nat} {x : Outcome} {c : Clock} (hc : (.resolved k x, c) ∈ τ.log) (hn : Needs τ.g.trace k p) :
    (∃ o d, (.resolved p o, d) ∈ τ.log) ∧ ∀ e ∈ τ.log, node e.1 = p → leq e.2 c := by
  have H := r.hb
  obtain ⟨⟨o, d, hd⟩, h⟩ := H.needs hc hn
  exact ⟨⟨o, d, hd⟩, fun e he hn => (H.rl e he _ hd o (by rw [hn])).trans (h o d hd)⟩

/-- **C118**: when a thread reads the result of a future, everything about that future happened before. -/
theorem c118_read (r : Reachable τ) {n : Nat} {c : Clock} (hr : (n, c) ∈ τ.reads) :
    (∃ o d, (.resolved n o, d) ∈ τ.log) ∧ ∀ e ∈ τ.log, node e.1 = n → leq e.2 c := by
  have H := r.hb
  obtain ⟨h1, h2⟩ := H.rds _ hr
  obtain ⟨o, ho⟩ := Option.ne_none_iff_exists'.1 ((H.inv.rd n).1 h1)
  obtain ⟨d, hd⟩ := H.mem.1 ((H.inv.rs n o).2 ho)
  exact ⟨⟨o, d, hd⟩, fun e he hn => (H.rl e he _ hd o (by rw [hn])).trans (h2 _ hd o rfl)⟩

/-- The result of node `k` depends on that of node `q`, however indirectly. -/
inductive Past (t : List Event) (k : Nat) : Nat → Prop
  | self : Past t k k
  | step {p q : Nat} : Past t k p → Needs t p q → Past t k q

/-- **C118**: when a future is resolved, everything about the futures on which its result depends, however indirectly, happened before. -/
theorem c118_past (r : Reachable τ) {k q : Nat} {x : Outcome} {c : Clock} (hc : (.resolved k x, c) ∈ τ.log) (hp : Past τ.g.trace k q) :
    ∃ o d, (.resolved q o, d) ∈ τ.log ∧ leq d c ∧ (q ≠ k → ∀ e ∈ τ.log, node e.1 = q → leq e.2 c) := by
  induction hp with
  | self => exact ⟨x, c, hc, leq.refl _, fun h => absurd rfl h⟩
  | step _ hn ih =>
    obtain ⟨o, d, h1, h2, -⟩ := ih
    obtain ⟨⟨o', d', h3⟩, h4⟩ := c118_resolution r h1 hn
    exact ⟨o', d', h3, (h4 _ h3 rfl).trans h2, fun _ e he h => (h4 e he h).trans h2⟩

/-- **C118**: the same when a thread reads the result of a future. -/
theorem c118_read_past (r : Reachable τ) {n q : Nat} {c : Clock} (hr : (n, c) ∈ τ.reads) (hp : Past τ.g.trace n q) :
    (∃ o d, (.resolved q o, d) ∈ τ.log) ∧ ∀ e ∈ τ.log, node e.1 = q → leq e.2 c := by
  obtain ⟨⟨o, d, h1⟩, h2⟩ := c118_read r hr
  obtain ⟨o', d', h3, -, h5⟩ := c118_past r h1 hp
  refine ⟨⟨o', d', h3⟩, fun e he h => ?_⟩
  by_cases hq : q = n
  · exact h2 e he (h.trans hq)
  · exact (h5 hq e he h).trans (h2 _ h1 rfl)

/-- **C118**: what a thread did before a step happens before the events of the step: attaching a continuation, returning from a function. -/
theorem c118_thread {a : Verif.Graph.Act} {u : Nat} (h : step τ (.graph a u) = some τ') : ∃ es, τ'.log = τ.log ++ es ∧
    ∀ e ∈ es, leq (τ.vc (who τ.thr a u)) e.2 ∧ τ.vc (who τ.thr a u) (who τ.thr a u) < e.2 (who τ.thr a u) := by
  simp only [Graph.step] at h
  split at h
  · next g' hs =>
    cases h
    refine ⟨_, rfl, fun e he => ?_⟩
    obtain ⟨x, -, rfl⟩ := List.mem_map.1 he
    refine ⟨clock_vc _ _ _ _, ?_⟩
    have := ((also_base (τ.vc (who τ.thr a u)) τ.tk (task a)).trans (also_base _ τ.mx (locks τ.g g' a))) (who τ.thr a u)
    simp only [clock, upd_same]
    omega
  · cases h

/-- The last time of each thread. -/
def now (τ : St) : Clock := fun t => τ.vc t t

/-- No clock is ahead of the threads. -/
structure Bound (τ : St) : Prop where
  vc : ∀ x, leq (τ.vc x) (now τ)
  mx : ∀ n, leq (τ.mx n) (now τ)
  rdy : ∀ n, leq (τ.rdy n) (now τ)
  tk : ∀ n, leq (τ.tk n) (now τ)
  log : ∀ e ∈ τ.log, leq e.2 (now τ)
  reads : ∀ e ∈ τ.reads, leq e.2 (now τ)

/-- The next time of thread `w`, if it knows `c`. -/
theorem Bound.next (_ : Bound τ) {c : Clock} {w : Nat} (h : leq c (now τ)) (h' : leq (τ.vc w) c) :
    upd c w (c w + 1) w = now τ w + 1 ∧ (∀ d, leq d (now τ) → leq d fun t => upd τ.vc w (upd c w (c w + 1)) t t) ∧
    leq (upd c w (c w + 1)) fun t => upd τ.vc w (upd c w (c w + 1)) t t := by
  have hw : c w = now τ w := Nat.le_antisymm (h w) (h' w)
  refine ⟨by simp [upd, hw], fun d hd i => ?_, fun i => ?_⟩
  · have := hd i
    by_cases hi : i = w
    · subst hi; simp only [upd, if_true]; omega
    · simpa [upd, hi, now] using this
  · have := h i
    by_cases hi : i = w
    · subst hi; simp [upd]
    · simpa [upd, hi, now] using this

theorem Bound.also (B : Bound τ) (w : Nat) (t l : Option Nat) : leq (also (also (τ.vc w) τ.tk t) τ.mx l) (now τ) := by
  have h1 : leq (Graph.also (τ.vc w) τ.tk t) (now τ) := by
    cases t with
    | none => exact B.vc w
    | some n => exact join_leq (B.vc w) (B.tk n)
  cases l with
  | none => exact h1
  | some n => exact join_leq h1 (B.mx n)

theorem Bound.step (B : Bound τ) {a : Act} (h : Graph.step τ a = some τ') : Bound τ' := by
  cases a with
  | sync t t' =>
    simp only [Graph.step, Option.some.injEq] at h
    subst h
    have hn : now { τ with vc := upd τ.vc t' (join (τ.vc t') (τ.vc t)) } = now τ := by
      funext i
      simp only [now, upd]
      split
      · subst i
        exact Nat.max_eq_left (B.vc t t')
      · rfl
    have hx : ∀ {c}, leq c (now τ) → leq c (now { τ with vc := upd τ.vc t' (join (τ.vc t') (τ.vc t)) }) := fun h => by rw [hn]; exact h
    refine ⟨fun x => hx ?_, fun n => hx (B.mx n), fun n => hx (B.rdy n), fun n => hx (B.tk n), fun e he => hx (B.log e he), fun e he => hx (B.reads e he)⟩
    simp only [upd]
    split
    · exact join_leq (B.vc _) (B.vc _)
    · exact B.vc _
  | read f u =>
    simp only [Graph.step] at h
    split at h
    · cases h
    · rename_i n hn
      split at h
      · obtain ⟨-, hx, hcn⟩ := B.next (join_leq (B.vc u) (B.rdy n)) (leq_joinl _ _)
        cases h
        generalize upd (join (τ.vc u) (τ.rdy n)) u (join (τ.vc u) (τ.rdy n) u + 1) = c at *
        refine ⟨fun x => ?_, fun n => hx _ (B.mx n), fun n => hx _ (B.rdy n), fun n => hx _ (B.tk n), fun e he => hx _ (B.log e he), fun e he => ?_⟩ <;>
          change leq _ (fun t => (upd τ.vc u c) t t) <;> (try dsimp only)
        · by_cases hk : x = u
          · subst hk; rw [upd_same]; exact hcn
          · rw [upd_ne _ _ hk]; exact hx _ (B.vc x)
        · rcases List.mem_append.1 he with he | he
          · exact hx _ (B.reads e he)
          · cases List.mem_singleton.1 he
            exact hcn
      · cases h
  | graph a u =>
    simp only [Graph.step] at h
    split at h
    · rename_i g' hg
      obtain ⟨-, hx, hcn⟩ := B.next (B.also (who τ.thr a u) (task a) (locks τ.g g' a)) ((also_base _ _ _).trans (also_base _ _ _))
      cases h
      change ∀ d, leq d (now τ) → leq d fun t => upd τ.vc (who τ.thr a u) (clock τ (who τ.thr a u) (task a) (locks τ.g g' a)) t t at hx
      change leq (clock τ (who τ.thr a u) (task a) (locks τ.g g' a)) (fun t => upd τ.vc (who τ.thr a u) (clock τ (who τ.thr a u) (task a) (locks τ.g g' a)) t t) at hcn
      generalize clock τ (who τ.thr a u) (task a) (locks τ.g g' a) = c at *
      generalize who τ.thr a u = w at *
      refine ⟨fun x => ?_, fun n => ?_, fun n => ?_, fun n => ?_, fun e he => ?_, fun e he => hx _ (B.reads e he)⟩ <;>
        change leq _ (fun t => (upd τ.vc w c) t t) <;> (try dsimp only)
      · by_cases hk : x = w
        · subst hk; rw [upd_same]; exact hcn
        · rw [upd_ne _ _ hk]; exact hx _ (B.vc x)
      · split
        · exact hcn
        · exact hx _ (B.mx n)
      · split
        · exact hcn
        · exact hx _ (B.rdy n)
      · split
        · exact hcn
        · exact hx _ (B.tk n)
      · rcases List.mem_append.1 he with he | he
        · exact hx _ (B.log e he)
        · obtain ⟨x, -, rfl⟩ := List.mem_map.1 he
          exact hcn
    · cases h

theorem Reachable.bound (r : Reachable τ) : Bound τ := by
  induction r with
  | init => exact ⟨fun _ _ => Nat.le_refl _, fun _ _ => Nat.le_refl _, fun _ _ => Nat.le_refl _, fun _ _ => Nat.le_refl _, fun e h => (by cases h), fun e h => by cases h⟩
  | step a _ h ih => exact ih.step h

/-- **C118**: the events of a step do not happen before anything that came earlier, nor before what any thread does next, unless it is the thread of the step. -/
theorem c118_order (r : Reachable τ) {a : Verif.Graph.Act} {u : Nat} (h : Graph.step τ (.graph a u) = some τ') : ∃ es, τ'.log = τ.log ++ es ∧
    ∀ e ∈ es, (∀ e' ∈ τ.log, ¬ leq e.2 e'.2) ∧ ∀ t, leq e.2 (τ'.vc t) ↔ t = who τ.thr a u := by
  have B := r.bound
  simp only [Graph.step] at h
  split at h
  · rename_i g' hg
    obtain ⟨hc1, -⟩ := B.next (B.also (who τ.thr a u) (task a) (locks τ.g g' a)) ((also_base _ _ _).trans (also_base _ _ _))
    change clock τ (who τ.thr a u) (task a) (locks τ.g g' a) (who τ.thr a u) = _ at hc1
    cases h
    refine ⟨_, rfl, fun e he => ?_⟩
    obtain ⟨x, -, rfl⟩ := List.mem_map.1 he
    refine ⟨fun e' he' hle => ?_, fun t => ⟨fun hle => ?_, fun ht => ?_⟩⟩
    · have h1 := hle (who τ.thr a u)
      have h2 := B.log e' he' (who τ.thr a u)
      simp only [hc1] at h1
      omega
    · refine Classical.byContradiction fun hne => ?_
      simp only [upd_ne _ _ hne] at hle
      have h1 := hle (who τ.thr a u)
      have h2 := B.vc t (who τ.thr a u)
      simp only [hc1] at h1
      omega
    · subst ht
      simp only [upd_same]
      exact leq.refl _
  · cases h

/-- **C118**: every execution of the graph is one with clocks, whatever threads take the steps. -/
theorem c118_all_executions {as : List Verif.Graph.Act} (h : Verif.Graph.exec {} as = some g) (u : Nat → Nat) : ∃ τ, Reachable τ ∧ τ.g = g := by
  suffices ∀ (as : List Verif.Graph.Act) (τ : St) (i : Nat), Reachable τ → Verif.Graph.exec τ.g as = some g → ∃ τ', Reachable τ' ∧ τ'.g = g from
    this as {} 0 .init h
  intro as
  induction as with
  | nil => intro τ i r e; cases e; exact ⟨τ, r, rfl⟩
  | cons a as ih =>
    intro τ i r e
    simp only [Verif.Graph.exec] at e
    split at e
    · next g1 h1 =>
      have : ∃ τ1, Graph.step τ (.graph a (u i)) = some τ1 ∧ τ1.g = g1 := by
        simp only [Graph.step, h1]
        exact ⟨_, rfl, rfl⟩
      obtain ⟨τ1, e1, e2⟩ := this
      exact ih τ1 (i + 1) (.step _ r e1) (by rw [e2]; exact e)
    · cases e

theorem exec_reach {as : List Act} (r : Reachable τ) (h : exec τ as = some τ') : Reachable τ' := by
  induction as generalizing τ with
  | nil => cases h; exact r
  | cons a as ih =>
    obtain ⟨τ1, h1, h2⟩ := Option.bind_eq_some_iff.mp h
    exact ih (.step _ r h1) h2

theorem witness {as : List Act} (Q : St → Bool) (he : (exec {} as).any Q = true) : ∃ τ, Reachable τ ∧ Q τ = true := by
  cases h : exec {} as with
  | none => rw [h] at he; cases he
  | some s => rw [h] at he; exact ⟨s, exec_reach .init h, he⟩

/-- Thread 0 makes three futures, of which 1 and 2 continue 0; thread 1 executes the function of 0, threads 2 and 3 those of the others; the function of 1
returns the future of 3, made by thread 4 and executed by thread 5; 4 continues 1 and is executed by thread 6. -/
def steps : List Act :=
  [.graph (.async 0 0) 0, .graph (.attach 0 1 1 true false) 0, .graph (.attach 0 2 2 true false) 0, .graph (.run 0) 1, .graph (.retVal 0 7) 1,
   .graph (.run 1) 2, .graph (.run 2) 3, .graph (.retVal 2 8) 3, .graph (.async 3 3) 4, .graph (.attach 1 4 4 false false) 4, .graph (.run 3) 5,
   .graph (.retFut 1 3) 2, .graph (.retVal 3 9) 5, .graph (.flatten 1) 5, .graph (.run 4) 6, .read 1 7]

/-- Nodes 0 and 3 come before the function of node 4, on thread 6; thread 7 read the result of node 1. -/
example : ∃ τ, Reachable τ ∧ (∃ c, (.called 4 (some (.val 9)), c) ∈ τ.log ∧ 0 < c 1 ∧ 0 < c 5) ∧ Before τ.g.trace 0 4 ∧ Before τ.g.trace 3 4 ∧
    ∃ c, (1, c) ∈ τ.reads ∧ 0 < c 5 := by
  obtain ⟨τ, r, h⟩ := witness (as := steps) (fun τ =>
    (τ.log.any fun e => decide (e.1 = .called 4 (some (.val 9)) ∧ 0 < e.2 1 ∧ 0 < e.2 5)) &&
    (τ.reads.any fun e => decide (e.1 = 1 ∧ 0 < e.2 5)) &&
    decide (.created 4 (.rcv 1) ∈ τ.g.trace ∧ .created 1 (.thn 0) ∈ τ.g.trace ∧ .returned 1 (.fut 3) ∈ τ.g.trace)) (by decide)
  simp only [Bool.and_eq_true, List.any_eq_true, decide_eq_true_eq] at h
  obtain ⟨⟨⟨⟨e, c⟩, h1, rfl, h2⟩, ⟨⟨n, c'⟩, h3, rfl, h4⟩⟩, h5, h6, h7⟩ := h
  exact ⟨τ, r, ⟨c, h1, h2⟩, .step (.rcv h5) (.inl h6), .step (.rcv h5) (.inr (.inr h7)), c', h3, h4⟩

/-- The result of node 1, read by thread 7, depends on those of nodes 0 and 3. -/
example : ∃ τ, Reachable τ ∧ (∃ c, (1, c) ∈ τ.reads) ∧ Past τ.g.trace 1 0 ∧ Past τ.g.trace 1 3 := by
  obtain ⟨τ, r, h⟩ := witness (as := steps) (fun τ => (τ.reads.any fun e => decide (e.1 = 1)) &&
    decide (.created 1 (.thn 0) ∈ τ.g.trace ∧ .returned 1 (.fut 3) ∈ τ.g.trace)) (by decide)
  simp only [Bool.and_eq_true, List.any_eq_true, decide_eq_true_eq] at h
  obtain ⟨⟨⟨n, c⟩, h1, rfl⟩, h2, h3⟩ := h
  exact ⟨τ, r, ⟨c, h1⟩, .step .self (.inl h2), .step .self (.inr (.inr h3))⟩

/-- Two functions that continue the same future are not ordered: neither call happens before the other. -/
example : ∃ τ, Reachable τ ∧ ∃ c d, (.called 1 (some (.val 7)), c) ∈ τ.log ∧ (.called 2 (some (.val 7)), d) ∈ τ.log ∧ ¬ leq c d ∧ ¬ leq d c := by
  obtain ⟨τ, r, h⟩ := witness (as := steps) (fun τ => τ.log.any fun e => τ.log.any fun e' =>
    decide (e.1 = .called 1 (some (.val 7)) ∧ e'.1 = .called 2 (some (.val 7)) ∧ e'.2 2 < e.2 2 ∧ e.2 3 < e'.2 3)) (by decide)
  simp only [List.any_eq_true, decide_eq_true_eq] at h
  obtain ⟨⟨e, c⟩, h1, ⟨e', d⟩, h2, rfl, rfl, h3, h4⟩ := h
  exact ⟨τ, r, c, d, h1, h2, fun h => by have := h 2; simp only at h3; omega, fun h => by have := h 3; simp only at h4; omega⟩

end Verif.Sync.Graph
