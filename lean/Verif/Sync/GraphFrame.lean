import Verif.Sync.Graph

/-!
# What a step in a graph of futures changes
-/

namespace Verif.Sync.Graph

open Verif.Graph (Kind Pc Event Inv par bind_par)
open Verif.Shared (Outcome)

/-- How node `k` goes on in the step `a` from `g` to `g'`. -/
inductive Move (g g' : Verif.Graph.St) (a : Verif.Graph.Act) (k : Nat) : Prop
  | async : g.pc k = .none → g'.pc k = .sched → g'.kind k = some .async → Move g g' a k
  | queued (p : Nat) : g.pc k = .none → g'.pc k = .queued → par (g'.kind k) p → locks g g' a = some p → Move g g' a k
  | sched (p : Nat) : g.pc k = .none → g'.pc k = .sched → par (g'.kind k) p → locks g g' a = some p → g.pc p = .ready → Move g g' a k
  | wake (p : Nat) : g.pc k = .queued → g'.pc k = .sched → par (g.kind k) p → locks g g' a = some p → g'.pc p = .ready → Move g g' a k
  | flat (m : Nat) : g.pc k = .waiting m → g'.pc k = .flat m → locks g g' a = some m → g'.pc m = .ready → Move g g' a k
  | call : a = .run k → g.pc k = .sched → g'.pc k = .running → Move g g' a k
  | dead : g'.pc k = .dead → due (g.pc k) = true → Move g g' a k
  | done : g'.pc k = .ready → locks g g' a = some k → (task a = some k ∧ due (g.pc k) = true ∨ caller a = some k ∧ g.pc k = .running) → Move g g' a k
  | ret (m : Nat) : caller a = some k → g.pc k = .running → (g'.pc k = .waiting m ∨ g'.pc k = .flat m ∧ g.pc m = .ready) → locks g g' a = some m →
      Move g g' a k

/-- What events of the step `a` mean. -/
def Means (g g' : Verif.Graph.St) (a : Verif.Graph.Act) : Event → Prop
  | .created k _ => g.pc k = .none ∧ g'.pc k ≠ .none
  | .called k _ => task a = some k ∧ g.pc k = .sched ∧ g'.pc k = .running
  | .returned k r => caller a = some k ∧ g.pc k = .running ∧ g'.pc k ≠ .running ∧ ∀ m, r = .fut m → g'.pc k = .waiting m ∨ g'.pc k = .flat m
  | .resolved k _ => g'.pc k = .ready ∧ (task a = some k ∧ due (g.pc k) = true ∨ caller a = some k ∧ g.pc k = .running)
  | .discarded k => task a = some k ∧ g.pc k = .sched ∧ g'.pc k = .ready

structure Frame (g g' : Verif.Graph.St) (a : Verif.Graph.Act) : Prop where
  tr : ∃ evs, g'.trace = g.trace ++ evs ∧ ∀ e ∈ evs, Means g g' a e
  ready : ∀ k, g.pc k = .ready → g'.pc k = .ready
  kind : ∀ k, g.pc k ≠ .none → g'.kind k = g.kind k
  mv : ∀ k, g'.pc k = g.pc k ∨ Move g g' a k

theorem Frame.same {g g' : Verif.Graph.St} {a : Verif.Graph.Act} (h1 : g'.pc = g.pc) (h2 : g'.kind = g.kind) (h3 : g'.trace = g.trace) : Frame g g' a :=
  ⟨⟨[], by simp [h3], by simp⟩, fun k h => by rw [h1]; exact h, fun k _ => by rw [h2], fun k => .inl (by rw [h1])⟩

@[simp] theorem dropOwn_pc (g : Verif.Graph.St) (n : Nat) : (Verif.Graph.dropOwn g n).pc = g.pc := by
  simp only [Verif.Graph.dropOwn]; split <;> rfl

@[simp] theorem dropOwn_kind (g : Verif.Graph.St) (n : Nat) : (Verif.Graph.dropOwn g n).kind = g.kind := by
  simp only [Verif.Graph.dropOwn]; split <;> rfl

@[simp] theorem dropOwn_trace (g : Verif.Graph.St) (n : Nat) : (Verif.Graph.dropOwn g n).trace = g.trace := by
  simp only [Verif.Graph.dropOwn]; split <;> rfl

@[simp] theorem dropOwn_fut (g : Verif.Graph.St) (n : Nat) : (Verif.Graph.dropOwn g n).fut = g.fut := by
  simp only [Verif.Graph.dropOwn]; split <;> rfl

/-- Node `n` is resolved. -/
theorem Frame.fin {g g' : Verif.Graph.St} {a : Verif.Graph.Act} {n : Nat} {o : Outcome} {evs : List Event}
    (hpc : g'.pc = fun k => if k = n then .ready else if g.pc k = .queued ∧ (g.kind k).bind Kind.parent = some n then .sched
      else if g.pc k = .waiting n then .flat n else g.pc k)
    (hk : g'.kind = g.kind) (ht : g'.trace = g.trace ++ evs ++ [.resolved n o])
    (hl : locks g g' a = some n) (hc : task a = some n ∧ due (g.pc n) = true ∨ caller a = some n ∧ g.pc n = .running)
    (he : ∀ e ∈ evs, Means g g' a e) : Frame g g' a := by
  have hn : g'.pc n = .ready := by rw [hpc]; simp
  refine ⟨⟨evs ++ [.resolved n o], by rw [ht, List.append_assoc], fun e h => ?_⟩, fun k h => ?_, fun k _ => by rw [hk], fun k => ?_⟩
  · rcases List.mem_append.1 h with h | h
    · exact he e h
    · rw [List.mem_singleton.1 h]
      exact ⟨hn, hc⟩
  · rw [hpc]
    simp only [h]
    split
    · rfl
    · simp
  · by_cases h1 : k = n
    · subst h1; exact .inr (.done hn hl hc)
    · by_cases h2 : g.pc k = .queued ∧ (g.kind k).bind Kind.parent = some n
      · exact .inr (.wake n h2.1 (by rw [hpc]; simp only [if_neg h1, if_pos h2]) (bind_par.1 h2.2) hl hn)
      · by_cases h3 : g.pc k = .waiting n
        · exact .inr (.flat n h3 (by rw [hpc]; simp only [if_neg h1, if_neg h2, if_pos h3]) hl hn)
        · exact .inl (by rw [hpc]; simp only [if_neg h1, if_neg h2, if_neg h3])

/-- Only node `n` goes on. -/
theorem Frame.one {g g' : Verif.Graph.St} {a : Verif.Graph.Act} {n : Nat} {x : Pc} {evs : List Event} (hpc : g'.pc = Verif.Shared.upd g.pc n x)
    (hk : ∀ k, k ≠ n → g'.kind k = g.kind k) (hkn : g.pc n ≠ .none → g'.kind n = g.kind n) (hr : g.pc n ≠ .ready) (ht : g'.trace = g.trace ++ evs)
    (he : ∀ e ∈ evs, Means g g' a e) (hm : g'.pc n = x → Move g g' a n) : Frame g g' a := by
  refine ⟨⟨evs, ht, he⟩, fun k h => ?_, fun k h => ?_, fun k => ?_⟩
  · rw [hpc]
    simp only [Verif.Shared.upd]
    split
    · next e => subst e; exact absurd h hr
    · exact h
  · by_cases e : k = n
    · subst e; exact hkn h
    · exact hk k e
  · by_cases e : k = n
    · subst e; exact .inr (hm (by rw [hpc]; simp [Verif.Shared.upd]))
    · left; rw [hpc]; simp [Verif.Shared.upd, e]

theorem frame {g g' : Verif.Graph.St} (I : Inv g) {a : Verif.Graph.Act} (h : Verif.Graph.step g a = .ok g') : Frame g g' a := by
  cases a with
  | async n f =>
    simp only [Verif.Graph.step] at h
    split at h
    · next hc =>
      cases h
      refine Frame.one (n := n) (x := .sched) (evs := [.created n .async]) rfl ?_ ?_ ?_ rfl ?_ ?_
      · intro k hk; simp [Verif.Shared.upd, hk]
      · exact fun h => absurd hc.1 h
      · rw [hc.1]; simp
      · intro e he; rw [List.mem_singleton.1 he]; exact ⟨hc.1, by simp [Verif.Shared.upd]⟩
      · intro h; exact .async hc.1 h (by simp [Verif.Shared.upd])
    · cases h
  | attach f n g2 b mv =>
    simp only [Verif.Graph.step] at h
    split at h
    · cases h
    · next p hp =>
      split at h
      · next hc =>
        cases h
        have hne : p ≠ n := fun e => by subst e; exact (I.exu f p hp) hc.1
        refine Frame.one (n := n) (x := if g.pc p = .ready then .sched else .queued) (evs := [.created n (if b then Kind.thn p else Kind.rcv p)]) rfl ?_ ?_ ?_ rfl ?_ ?_
        · intro k hk; simp [Verif.Shared.upd, hk]
        · exact fun h => absurd hc.1 h
        · rw [hc.1]; simp
        · intro e he; rw [List.mem_singleton.1 he]
          refine ⟨hc.1, ?_⟩
          simp only [Verif.Shared.upd, if_true]
          split <;> simp
        · intro h
          have hk : par (some (if b then Kind.thn p else Kind.rcv p)) p := by cases b <;> simp [par]
          by_cases hr : g.pc p = .ready
          · exact .sched p hc.1 (h.trans (if_pos hr)) (by simpa [Verif.Shared.upd] using hk) hp hr
          · exact .queued p hc.1 (h.trans (if_neg hr)) (by simpa [Verif.Shared.upd] using hk) hp
      · cases h
  | copy f g2 =>
    simp only [Verif.Graph.step] at h
    split at h
    · cases h; exact .same rfl rfl rfl
    · cases h
  | drop f =>
    simp only [Verif.Graph.step] at h
    split at h
    · cases h; exact .same rfl rfl rfl
    · cases h
  | detach f =>
    simp only [Verif.Graph.step] at h
    split at h
    · split at h <;> cases h <;> exact .same rfl rfl rfl
    · cases h
  | keep n g2 =>
    simp only [Verif.Graph.step] at h
    split at h
    · cases h; exact .same rfl rfl rfl
    · cases h
  | reap n =>
    simp only [Verif.Graph.step] at h
    split at h
    · cases h; exact .same (by simp) (by simp) (by simp)
    · cases h
  | retVal n v =>
    simp only [Verif.Graph.step] at h
    split at h
    · cases h
    · next hc =>
      simp only [ne_eq, Decidable.not_not] at hc
      cases h
      refine Frame.fin (n := n) (evs := [.returned n (.val v)]) (by simp [Verif.Graph.resolve]) (by simp [Verif.Graph.resolve])
        (by simp [Verif.Graph.resolve]; rfl) rfl (.inr ⟨rfl, hc⟩) ?_
      intro e he; rw [List.mem_singleton.1 he]; exact ⟨rfl, hc, by simp [Verif.Graph.resolve], by simp⟩
  | retThrow n v =>
    simp only [Verif.Graph.step] at h
    split at h
    · cases h
    · next hc =>
      simp only [ne_eq, Decidable.not_not] at hc
      cases h
      refine Frame.fin (n := n) (evs := [.returned n (.throw v)]) (by simp [Verif.Graph.resolve]) (by simp [Verif.Graph.resolve])
        (by simp [Verif.Graph.resolve]; rfl) rfl (.inr ⟨rfl, hc⟩) ?_
      intro e he; rw [List.mem_singleton.1 he]; exact ⟨rfl, hc, by simp [Verif.Graph.resolve], by simp⟩
  | retFut n f =>
    simp only [Verif.Graph.step] at h
    split at h
    · cases h
    · next m hm =>
      split at h
      · cases h
      · next hc =>
        simp only [ne_eq, Decidable.not_not] at hc
        cases h
        refine Frame.one (n := n) (x := if g.pc m = .ready then .flat m else .waiting m) (evs := [.returned n (.fut m)]) (by simp) (by simp) (by simp) ?_
          (by simp) ?_ ?_
        · rw [hc]; simp
        · intro e he; rw [List.mem_singleton.1 he]
          refine ⟨rfl, hc, ?_, ?_⟩
          · simp only [dropOwn_pc, Verif.Shared.upd, if_true]; split <;> simp
          · intro m' e; cases e
            simp only [dropOwn_pc, Verif.Shared.upd, if_true]; split <;> simp
        · intro h
          by_cases hr : g.pc m = .ready
          · rw [if_pos hr] at h
            exact .ret m rfl hc (.inr ⟨h, hr⟩) hm
          · rw [if_neg hr] at h
            exact .ret m rfl hc (.inl h) hm
  | run n =>
    simp only [Verif.Graph.step] at h
    split at h
    · cases h
    · next hc =>
      simp only [ne_eq, Decidable.not_not] at hc
      have hcall : ∀ x, g'.pc = Verif.Shared.upd g.pc n .running → g'.kind = g.kind → g'.trace = g.trace ++ [.called n x] → Frame g g' (.run n) := by
        intro x h1 h2 h3
        refine Frame.one (n := n) (x := .running) (evs := [.called n x]) h1 (fun k _ => by rw [h2]) (fun _ => by rw [h2]) (by rw [hc]; simp) h3 ?_ ?_
        · intro e he; rw [List.mem_singleton.1 he]; exact ⟨rfl, hc, by rw [h1]; simp [Verif.Shared.upd]⟩
        · exact fun h => .call rfl hc h
      split at h
      · cases h
        refine Frame.one (n := n) (x := .dead) (evs := []) rfl (by simp) (by simp) (by rw [hc]; simp) (by simp) (by simp) ?_
        exact fun h => .dead h (by rw [hc]; rfl)
      · split at h
        · cases h
        · cases h; exact hcall none rfl rfl rfl
        · split at h
          · cases h
          · cases h; exact hcall _ rfl rfl rfl
        · split at h
          · cases h
          · cases h; exact hcall _ rfl rfl rfl
          · cases h
            refine Frame.fin (n := n) (evs := []) (by simp [Verif.Graph.resolve]) (by simp [Verif.Graph.resolve])
              (by simp [Verif.Graph.resolve]; rfl) (by simp [locks, Verif.Graph.resolve]) (.inl ⟨rfl, by rw [hc]; rfl⟩) (by simp)
  | discard n =>
    simp only [Verif.Graph.step] at h
    split at h
    · cases h
    · next hc =>
      simp only [ne_eq, Decidable.not_not] at hc
      split at h
      · cases h
        refine Frame.one (n := n) (x := .dead) (evs := []) rfl (by simp) (by simp) (by rw [hc]; simp) (by simp) (by simp) ?_
        exact fun h => .dead h (by rw [hc]; rfl)
      · cases h
        refine Frame.fin (n := n) (evs := [.discarded n]) (by simp [Verif.Graph.resolve]) (by simp [Verif.Graph.resolve])
          (by simp [Verif.Graph.resolve]; rfl) (by simp [locks, Verif.Graph.resolve]) (.inl ⟨rfl, by rw [hc]; rfl⟩) ?_
        intro e he; rw [List.mem_singleton.1 he]; exact ⟨rfl, hc, by simp [Verif.Graph.resolve]⟩
  | flatten n =>
    simp only [Verif.Graph.step] at h
    split at h
    · next m hc =>
      split at h
      · cases h
        refine Frame.one (n := n) (x := .dead) (evs := []) rfl (by simp) (by simp) (by rw [hc]; simp) (by simp) (by simp) ?_
        exact fun h => .dead h (by rw [hc]; rfl)
      · split at h
        · cases h
        · cases h
          refine Frame.fin (n := n) (evs := []) (by simp [Verif.Graph.resolve]) (by simp [Verif.Graph.resolve])
            (by simp [Verif.Graph.resolve]; rfl) (by simp [locks, Verif.Graph.resolve]) (.inl ⟨rfl, by rw [hc]; rfl⟩) (by simp)
    · cases h

end Verif.Sync.Graph
