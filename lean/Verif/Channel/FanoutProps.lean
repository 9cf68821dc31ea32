import Verif.Channel.Fanout
import Verif.Channel.ProcessInv3

/-!
# C56: a process goes on serving its receivers when one of them is gone

It does not, if one remains: the destroyed one is waited for. As long as none is destroyed, it does. If the result cannot be copied,
it does not even go on alone. The two calls of `free_buffer` are undefined behaviour if the receiver goes away between them.
-/

namespace Verif.Fanout

open Verif.Channel (upd sumTo sumTo_congr sumTo_change sumTo_le)
open Verif.Process (sumTo_zero sumTo_one sumTo_eq_zero sumTo_dec)

variable {mo : Bool} {n : Nat} {s s' : St}

theorem upd_apply {α : Type} (f : Nat → α) (i : Nat) (v : α) (j : Nat) : upd f i v j = if j = i then v else f j := rfl

/-- What the process waits for, except for itself: for messages to be sent, and to be taken. -/
def due (s : St) (k : Nat) : Nat := s.dq k + match s.pc with
  | .send j => if j ≤ k then 1 else 0
  | _ => 0

/-- With all receivers there. -/
structure Inv (n : Nat) (s : St) : Prop where
  al : ∀ k, s.alive k = true
  qq : s.running = false → s.pc = .idle ∧ s.q = 0 ∧ s.susp = 0
  sp : s.susp = match s.pc with
    | .send _ | .own => 1 + sumTo n (due s)
    | _ => sumTo n (due s)
  id : s.running = true → s.pc = .idle → s.susp ≠ 0
  le : ∀ k, k < n → due s k ≤ 1
  zz : (match s.pc with | .start | .min .. | .min2 .. | .susp _ => True | _ => False) → s.susp = 0
  mi : ∀ k v, s.pc = .min k v → k ≤ n ∧ n ≠ 0 ∧ (k ≠ 0 → v ≤ 1)
  m2 : ∀ k v, s.pc = .min2 k v → k < n
  su : ∀ v, s.pc = .susp v → v ≤ 1
  sn : ∀ k, s.pc = .send k → k ≤ n
  co : s.inp = s.calls + s.q
  se : ∀ k, k < n → s.sent k + (match s.pc with
    | .min .. | .min2 .. | .susp _ => 1
    | .send j => if j ≤ k then 1 else 0
    | _ => 0) = s.calls

theorem Inv.init (n : Nat) : Inv n {} := by
  constructor <;> simp [due]
  exact (sumTo_zero n).symm

/-- `due` does not change. -/
theorem sum_eq {n : Nat} {s s' : St} (h : ∀ k, k < n → due s' k = due s k) : sumTo n (due s') = sumTo n (due s) :=
  sumTo_congr h

theorem sum_zero {n : Nat} {s : St} (h : ∀ k, k < n → s.dq k = 0) (hp : ∀ j, s.pc ≠ .send j) : sumTo n (due s) = 0 := by
  rw [← sumTo_zero n]
  refine sumTo_congr fun i hi => ?_
  simp only [due, h i hi]

theorem free_le (q : Nat) (h : q ≤ 1) : free q ≤ 1 := by
  unfold free
  rcases q with _ | _ | _ <;> first | decide | omega

theorem Inv.go (h : Inv n s) (hs : Fanout.step mo n s .go = .ok s') : Inv n s' := by
  obtain ⟨al, qq, sp, id, le, zz, mi, m2, su, sn, co, se⟩ := h
  rcases hp : s.pc with _ | _ | ⟨k, v⟩ | ⟨k, v⟩ | v | k | _ <;> simp only [Fanout.step, hp] at hs
  · cases hs
  · have h0 := zz (by simp [hp])
    have hr : s.running = true := by
      rcases hr : s.running with _ | _
      · simp [hp] at qq; grind
      · rfl
    have hz : ∀ k, k < n → s.dq k = 0 := by
      simp only [hp, h0] at sp
      intro k hk; have := sumTo_eq_zero sp.symm k hk; simpa [due, hp] using this
    clear sp
    split at hs <;> cases hs
    · constructor
      case sp => simp only [h0]; symm; apply sum_zero; exact hz; simp
      all_goals simp_all [due]
    · constructor
      case sp =>
        by_cases hn : n = 0
        · simp only [h0, hn, if_true, sumTo]
        · simp only [h0, hn, if_false]; symm; apply sum_zero; exact hz; simp
      all_goals by_cases hn : n = 0 <;> simp_all [due] <;> omega
  · have h0 := zz (by simp [hp])
    have hr : s.running = true := by
      rcases hr : s.running with _ | _
      · simp [hp] at qq; grind
      · rfl
    have hz : ∀ k, k < n → s.dq k = 0 := by
      simp only [hp, h0] at sp
      intro k hk; have := sumTo_eq_zero sp.symm k hk; simpa [due, hp] using this
    clear sp
    simp only [al, if_true] at hs
    split at hs <;> cases hs <;> constructor
    case min.isTrue.refl.sp => simp only [h0]; symm; apply sum_zero; exact hz; simp
    case min.isFalse.refl.sp => simp only [h0]; symm; apply sum_zero; exact hz; simp
    all_goals simp_all [due] <;> grind
  · have h0 := zz (by simp [hp])
    have hr : s.running = true := by
      rcases hr : s.running with _ | _
      · simp [hp] at qq; grind
      · rfl
    have hz : ∀ k, k < n → s.dq k = 0 := by
      simp only [hp, h0] at sp
      intro k hk; have := sumTo_eq_zero sp.symm k hk; simpa [due, hp] using this
    clear sp
    simp only [al, if_true] at hs
    have hk := m2 _ _ hp
    have hf := free_le (s.dq k) (by simp [hz k hk])
    have hm : Nat.min v (free (s.dq k)) ≤ 1 := Nat.le_trans (Nat.min_le_right _ _) hf
    cases hs
    constructor
    case sp => simp only [h0]; symm; apply sum_zero; exact hz; simp
    all_goals simp_all [due] <;> grind
  · have h0 := zz (by simp [hp])
    have hr : s.running = true := by
      rcases hr : s.running with _ | _
      · simp [hp] at qq; grind
      · rfl
    have hv := su _ hp
    simp only [hp, h0] at sp
    have hz := sumTo_eq_zero sp.symm
    simp only [hv, if_true] at hs
    cases hs
    have hd : ∀ k, k < n → s.dq k = 0 := by
      intro k hk; have := hz k hk; simpa [due, hp] using this
    have hS : sumTo n (due { s with susp := n + 1, pc := .send 0 }) = n := by
      rw [← sumTo_one n, sumTo_one n]
      have : sumTo n (due { s with susp := n + 1, pc := .send 0 }) = sumTo n (fun _ => 1) :=
        sumTo_congr (fun k hk => by simp [due, hd k hk])
      rw [this, sumTo_one]
    constructor <;> simp_all [due] <;> grind
  · have hr : s.running = true := by
      rcases hr : s.running with _ | _
      · simp [hp] at qq; grind
      · rfl
    simp only [al, if_true] at hs
    simp only [hp] at sp
    split at hs <;> cases hs
    · rename_i hk
      have hd : ∀ i, i < n → due { s with dq := upd s.dq k (s.dq k + 1), sent := upd s.sent k (s.sent k + 1), pc := .send (k + 1) } i
          = due s i := by
        intro i _
        simp only [due, hp, upd_apply]
        grind
      constructor
      · exact al
      · simp [hr]
      · simp only [sum_eq hd]; exact sp
      · simp
      · intro i hi; rw [hd i hi]; exact le i hi
      · simp
      · simp
      · simp
      · simp
      · simp; omega
      · exact co
      · intro i hi
        have := se i hi
        simp only [hp] at this
        simp only [upd_apply]
        grind
    · rename_i hk
      have hd : ∀ i, i < n → due { s with pc := .own } i = due s i := by
        intro i hi
        simp only [due, hp]
        grind
      constructor
      · exact al
      · simp [hr]
      · simp only [sum_eq hd]; exact sp
      · simp
      · intro i hi; rw [hd i hi]; exact le i hi
      · simp
      · simp
      · simp
      · simp
      · simp
      · exact co
      · intro i hi
        have := se i hi
        simp only [hp] at this
        grind
  · have hr : s.running = true := by
      rcases hr : s.running with _ | _
      · simp [hp] at qq; grind
      · rfl
    simp only [hp] at sp
    have hd : ∀ (p : Pc) (b : Bool) (v : Nat), p = .idle ∨ p = .start →
        sumTo n (due { s with susp := v, running := b, pc := p }) = sumTo n (due s) := by
      intro p b v hpp
      apply sum_eq
      intro i _
      rcases hpp with rfl | rfl <;> simp [due, hp]
    have hd' : ∀ (p : Pc) (b : Bool) (v i : Nat), p = .idle ∨ p = .start →
        due { s with susp := v, running := b, pc := p } i = due s i := by
      intro p b v i hpp
      rcases hpp with rfl | rfl <;> simp [due, hp]
    cases hs
    unfold cts
    dsimp only
    split
    · rename_i h0
      split
      · rename_i hq
        have e := hd .start s.running (s.susp - 1) (.inr rfl)
        constructor
        · exact al
        · simp [hr]
        · simp only [e]; omega
        · simp
        · intro i hi; rw [hd' .start _ _ _ (.inr rfl)]; exact le i hi
        · intro _; exact h0
        · simp
        · simp
        · simp
        · simp
        · exact co
        · simpa [hp] using se
      · rename_i hq
        have e := hd .idle false (s.susp - 1) (.inl rfl)
        constructor
        · exact al
        · simp only [ne_eq, Decidable.not_not] at hq; simp [hq, h0]
        · simp only [e]; omega
        · simp
        · intro i hi; rw [hd' .idle _ _ _ (.inl rfl)]; exact le i hi
        · simp
        · simp
        · simp
        · simp
        · simp
        · exact co
        · simpa [hp] using se
    · rename_i h0
      have e := hd .idle s.running (s.susp - 1) (.inl rfl)
      constructor
      · exact al
      · simp [hr]
      · simp only [e]; omega
      · intro _ _; exact h0
      · intro i hi; rw [hd' .idle _ _ _ (.inl rfl)]; exact le i hi
      · simp
      · simp
      · simp
      · simp
      · simp
      · exact co
      · simpa [hp] using se

theorem Inv.pop (h : Inv n s) {k : Nat} (hs : Fanout.step mo n s (.pop k) = .ok s') : Inv n s' := by
  simp only [Fanout.step] at hs
  split at hs
  · rename_i hc
    obtain ⟨hk, _, hq⟩ := hc
    have hl := h.le k hk
    have h1 : s.dq k = 1 := by simp only [due] at hl; omega
    simp only [upd_apply, h1, if_true, Nat.sub_self] at hs
    cases hs
    obtain ⟨al, qq, sp, id, le, zz, mi, m2, su, sn, co, se⟩ := h
    have hdec : ∀ (r : Bool) (v : Nat), sumTo n (due { s with dq := upd s.dq k 0, running := r, susp := v }) + 1 = sumTo n (due s) := by
      intro r v
      apply sumTo_dec hk
      intro i
      simp only [due, upd_apply]
      grind
    have hle : ∀ i, due { s with dq := upd s.dq k 0 } i ≤ due s i := by
      intro i; simp only [due, upd_apply]; grind
    have hr : s.running = true := by
      rcases hr : s.running with _ | _
      · have h2 := qq hr
        simp only [h2.1, h2.2.2] at sp
        have := sumTo_eq_zero sp.symm k hk
        simp [due] at this; omega
      · rfl
    have hnz : s.susp ≠ 0 := by
      intro h0
      have := hdec false 0
      rcases hp : s.pc <;> simp only [hp] at sp <;> omega
    have hpc : s.pc = .idle ∨ (∃ j, s.pc = .send j) ∨ s.pc = .own := by
      rcases hp : s.pc with _ | _ | ⟨k, v⟩ | ⟨k, v⟩ | v | k | _ <;> simp_all
    unfold cts
    dsimp only
    split
    · rename_i h0
      have hp : s.pc = .idle := by
        rcases hpc with hp | ⟨j, hp⟩ | hp
        · exact hp
        all_goals
          simp only [hp] at sp
          have := hdec false 0
          omega
      simp only [hp] at sp
      have hS := hdec s.running s.susp
      have hzero : sumTo n (due { s with dq := upd s.dq k 0 }) = 0 := by
        have : sumTo n (due { s with dq := upd s.dq k 0 }) + 1 = sumTo n (due s) := hS
        omega
      split
      · rename_i hq'
        have e : sumTo n (due { s with dq := upd s.dq k 0, susp := s.susp - 1, pc := .start }) = 0 := by
          exact Eq.trans (sumTo_congr (fun i hi => by simp [due, hp])) hzero
        constructor
        · exact al
        · simp [hr]
        · simp only [e]; omega
        · simp
        · intro i hi
          have := hle i; have := le i hi
          simp only [due, hp] at *
          omega
        · intro _; exact h0
        · simp
        · simp
        · simp
        · simp
        · exact co
        · simpa [hp] using se
      · rename_i hq'
        have e : sumTo n (due { s with dq := upd s.dq k 0, susp := s.susp - 1, running := false }) = 0 := by
          exact Eq.trans (sumTo_congr (fun i hi => by simp [due, hp])) hzero
        constructor
        · exact al
        · simp only [ne_eq, Decidable.not_not] at hq'; simp [hq', h0, hp]
        · simp only [e]; simp only [hp]; omega
        · simp
        · intro i hi
          have := hle i; have := le i hi
          simp only [due, hp] at *
          omega
        · simp [hp]
        · simp [hp]
        · simp [hp]
        · simp [hp]
        · simp [hp]
        · exact co
        · simpa [hp] using se
    · rename_i h0
      have hS := hdec s.running (s.susp - 1)
      constructor
      · exact al
      · simp [hr]
      · rcases hpc with hp | ⟨j, hp⟩ | hp <;> simp only [hp] at sp ⊢ <;>
          simp only [hp] at hS <;> omega
      · intro _ _; exact h0
      · intro i hi
        exact Nat.le_trans (hle i) (le i hi)
      · intro hx
        rcases hpc with hp | ⟨j, hp⟩ | hp <;> simp [hp] at hx
      · exact mi
      · exact m2
      · exact su
      · exact sn
      · exact co
      · exact se
  · cases hs

theorem Inv.send (h : Inv n s) (hs : Fanout.step mo n s .send = .ok s') : Inv n s' := by
  obtain ⟨al, qq, sp, id, le, zz, mi, m2, su, sn, co, se⟩ := h
  simp only [Fanout.step] at hs
  split at hs <;> cases hs
  · rename_i hr
    have e : sumTo n (due { s with q := s.q + 1, inp := s.inp + 1 }) = sumTo n (due s) := sumTo_congr (fun i _ => rfl)
    constructor
    · exact al
    · intro h; rw [hr] at h; cases h
    · simp only [e]; exact sp
    · exact id
    · exact le
    · exact zz
    · exact mi
    · exact m2
    · exact su
    · exact sn
    · simp only; omega
    · exact se
  · rename_i hr
    obtain ⟨hp, hq, h0⟩ := qq (by simpa using hr)
    simp only [hp] at sp
    have e : sumTo n (due { s with q := s.q + 1, inp := s.inp + 1, running := true, pc := .start }) = sumTo n (due s) :=
      sumTo_congr (fun i _ => by simp [due, hp])
    constructor
    · exact al
    · simp
    · simp only [e]; exact sp
    · simp
    · simpa [due, hp] using le
    · intro _; exact h0
    · simp
    · simp
    · simp
    · simp
    · simp only; omega
    · simpa [hp] using se

theorem Inv.reach (h : Reachable mo n false s) : Inv n s := by
  induction h with
  | init => exact Inv.init n
  | @step s s' a _ hs hd h =>
    rcases a with _ | _ | k | k
    · exact h.send hs
    · exact h.go hs
    · exact h.pop hs
    · exact absurd rfl (hd rfl k)

/-! ## With receivers going away -/

/-- What the process still waits for from the receivers that exist. -/
def live (s : St) (k : Nat) : Nat := if s.alive k then due s k else 0

def own : Pc → Nat
  | .send _ | .own => 1
  | _ => 0

def before : Pc → Bool
  | .start | .min .. | .min2 .. | .susp _ => true
  | _ => false

structure InvD (n : Nat) (s : St) : Prop where
  rn : s.running = false → s.pc = .idle
  be : before s.pc = true ∨ s.running = false → ∀ k, k < n → live s k = 0
  sp : before s.pc = false → s.running = true → own s.pc + sumTo n (live s) ≤ s.susp
  mi : ∀ k v, s.pc = .min k v → k ≤ n ∧ (k = 0 ∨ v ≤ 1 ∨ ∀ i, i < k → s.alive i = false)
  m2 : ∀ k v, s.pc = .min2 k v → k < n
  su : ∀ v, s.pc = .susp v → v ≤ 1 ∨ ∀ i, i < n → s.alive i = false

theorem InvD.init (n : Nat) : InvD n {} := by
  constructor <;> simp [live, due, before]

theorem live_cts {s : St} {p : Pc} {r : Bool} {v : Nat} (hp : before p = true ∨ p = .idle) (h : ∀ j, s.pc ≠ .send j) (k : Nat) :
    live { s with susp := v, running := r, pc := p } k = live s k := by
  simp only [live, due, h]
  rcases p with _ | _ | ⟨k, v⟩ | ⟨k, v⟩ | v | k | _ <;> simp_all [before]

/-- `clear_to_send` of somebody the process waits for. -/
theorem InvD.cts (hr : s.running = true) (hp : s.pc = .idle ∨ s.susp ≠ 1)
    (hb : before s.pc = false) (hs : own s.pc + sumTo n (live s) + 1 ≤ s.susp) : InvD n (cts s) := by
  unfold Fanout.cts
  dsimp only
  split
  · rename_i h0
    have hp : s.pc = .idle := hp.resolve_right (fun h => h (by omega))
    have hz := sumTo_eq_zero (n := n) (f := live s) (by omega)
    have hl : ∀ (p : Pc) (r : Bool) (k : Nat), before p = true ∨ p = .idle →
        live { s with susp := s.susp - 1, running := r, pc := p } k = live s k :=
      fun p r k h => live_cts h (by simp [hp]) k
    split
    · constructor <;> simp [hr]
      · intro _ k hk; rw [hl _ _ _ (by simp [before])]; exact hz k hk
      · simp [before]
    · constructor <;> simp [hp]
      intro k hk
      have := hl .idle false k (.inr rfl)
      rw [this]; exact hz k hk
  · rename_i h0
    constructor <;> simp [hb, hr]
    · have : sumTo n (live { s with susp := s.susp - 1 }) = sumTo n (live s) := sumTo_congr fun i _ => rfl
      rw [hr] at this
      omega
    all_goals
      intros
      simp_all [before]

theorem InvD.step (h : InvD n s) {a : Act} (hs : Fanout.step mo n s a = .ok s') : InvD n s' := by
  obtain ⟨rn, be, sp, mi, m2, su⟩ := h
  rcases a with _ | _ | k | k
  · -- send
    simp only [Fanout.step] at hs
    split at hs <;> cases hs
    · exact ⟨rn, be, sp, mi, m2, su⟩
    · rename_i hr
      have hr : s.running = false := by simpa using hr
      have hp := rn hr
      have := be (.inr hr)
      constructor <;> simp [before]
      intro k hk
      have := this k hk
      simpa [live, due, hp] using this
  · -- go
    have hrun : s.pc ≠ .idle → s.running = true := by
      intro hp
      rcases hr : s.running with _ | _
      · exact absurd (rn hr) hp
      · rfl
    rcases hp : s.pc with _ | _ | ⟨k, v⟩ | ⟨k, v⟩ | v | k | _ <;> simp only [Fanout.step, hp] at hs
    · cases hs
    · have hz := be (.inl (by simp [hp, before]))
      have hr := hrun (by simp [hp])
      split at hs <;> cases hs
      · constructor <;> simp
        intro k hk; have := hz k hk; simpa [live, due, hp] using this
      · by_cases hn : n = 0
        · subst hn; constructor <;> simp [before, hr]
        · constructor <;> simp [before, hn, hr]
          intro k hk; have := hz k hk; simpa [live, due, hp] using this
    · have hz := be (.inl (by simp [hp, before]))
      have hr := hrun (by simp [hp])
      obtain ⟨hk, hv⟩ := mi _ _ hp
      have hz' : ∀ i, i < n → s.alive i = true → s.dq i = 0 := by
        intro i hi ha; have := hz i hi; simpa [live, due, hp, ha] using this
      split at hs
      · split at hs
        · cases hs
          constructor <;> simp [before, hr]
          · intro i hi; simp only [live, due]; grind
          · omega
        · cases hs
          rcases mo with _ | _ <;> constructor <;> simp [before, hr]
          · intro i hi; simp only [live, due]; grind
          · refine ⟨by omega, ?_⟩
            rcases hv with h0 | h1 | h2
            · subst h0; right; intro i hi
              have : i = 0 := by omega
              subst this; simpa using ‹¬ s.alive _ = true›
            · exact .inl h1
            · right; intro i hi
              by_cases hik : i = k
              · subst hik; simpa using ‹¬ s.alive _ = true›
              · exact h2 i (by omega)
          · intro i hi; simp only [live, due]; grind
      · cases hs
        constructor <;> simp [before, hr]
        · intro i hi; simp only [live, due]; grind
        · rcases hv with h0 | h1 | h2
          · right; intro i hi; omega
          · exact .inl h1
          · right; intro i hi; exact h2 i (by omega)
    · have hz := be (.inl (by simp [hp, before]))
      have hr := hrun (by simp [hp])
      have hk := m2 _ _ hp
      have hz' : ∀ i, i < n → s.alive i = true → s.dq i = 0 := by
        intro i hi ha; have := hz i hi; simpa [live, due, hp, ha] using this
      split at hs
      · rename_i ha
        cases hs
        have hf := free_le (s.dq k) (by simp [hz' k hk ha])
        have hm : Nat.min v (free (s.dq k)) ≤ 1 := Nat.le_trans (Nat.min_le_right _ _) hf
        constructor <;> simp [before, hr]
        · intro i hi; simp only [live, due]; grind
        · exact ⟨by omega, .inl (by simpa using hm)⟩
      · cases hs
    · have hz := be (.inl (by simp [hp, before]))
      have hr := hrun (by simp [hp])
      have hv := su _ hp
      have hz' : ∀ i, i < n → s.alive i = true → s.dq i = 0 := by
        intro i hi ha; have := hz i hi; simpa [live, due, hp, ha] using this
      cases hs
      constructor <;> simp [before, hr, own]
      split
      · have : sumTo n (live { s with susp := n + 1, pc := .send 0 }) ≤ sumTo n (fun _ => 1) := by
          apply sumTo_le
          intro i hi
          simp only [live, due]
          have := hz' i hi
          grind
        rw [sumTo_one] at this
        rw [hr] at this
        omega
      · rename_i h1
        have hv := hv.resolve_left h1
        have : sumTo n (live { s with susp := 1, pc := .send 0 }) = sumTo n (fun _ => 0) := by
          apply sumTo_congr
          intro i hi
          simp [live, hv i hi]
        rw [sumTo_zero, hr] at this
        omega
    · have hr := hrun (by simp [hp])
      have hsp := sp (by simp [hp, before]) hr
      simp only [hp, own] at hsp
      split at hs
      · split at hs
        · cases hs
          have : sumTo n (live { s with dq := upd s.dq k (s.dq k + 1), sent := upd s.sent k (s.sent k + 1), pc := .send (k + 1) })
              = sumTo n (live s) := by
            apply sumTo_congr
            intro i hi
            simp only [live, due, hp, upd_apply]
            grind
          constructor <;> simp [before, hr, own]
          rw [hr] at this
          omega
        · cases hs
          have : sumTo n (live { s with pc := .send (k + 1) }) = sumTo n (live s) := by
            apply sumTo_congr
            intro i hi
            simp only [live, due, hp]
            grind
          constructor <;> simp [before, hr, own]
          rw [hr] at this
          omega
      · cases hs
        have : sumTo n (live { s with pc := .own }) = sumTo n (live s) := by
          apply sumTo_congr
          intro i hi
          simp only [live, due, hp]
          grind
        constructor <;> simp [before, hr, own]
        rw [hr] at this
        omega
    · have hr := hrun (by simp [hp])
      have hsp := sp (by simp [hp, before]) hr
      simp only [hp, own] at hsp
      cases hs
      have : sumTo n (live { s with pc := .idle }) = sumTo n (live s) := by
        apply sumTo_congr
        intro i hi
        simp only [live, due, hp]
      refine InvD.cts hr (.inl rfl) (by simp [before]) ?_
      simp only [own, this]
      omega
  · -- pop
    simp only [Fanout.step] at hs
    split at hs
    · rename_i hc
      obtain ⟨hk, ha, hq⟩ := hc
      have hlk : live s k ≠ 0 := by simp only [live, ha, if_true, due]; omega
      have hb : before s.pc = false := by
        rcases hb : before s.pc with _ | _
        · rfl
        · exact absurd (be (.inl hb) k hk) hlk
      have hr : s.running = true := by
        rcases hr : s.running with _ | _
        · exact absurd (be (.inr hr) k hk) hlk
        · rfl
      have hsp := sp hb hr
      have hdec : sumTo n (live { s with dq := upd s.dq k (s.dq k - 1) }) + 1 = sumTo n (live s) := by
        apply sumTo_dec hk
        intro i
        simp only [live, due, upd_apply]
        grind
      split at hs <;> cases hs
      · refine InvD.cts hr ?_ hb ?_
        · rcases hpc : s.pc with _ | _ | ⟨k, v⟩ | ⟨k, v⟩ | v | k | _ <;> simp [hpc, before] at hb ⊢ <;>
            simp only [hpc, own] at hsp <;> omega
        · have e : own s.pc + sumTo n (live { s with dq := upd s.dq k (s.dq k - 1) }) + 1 ≤ s.susp := by omega
          exact e
      · constructor <;> simp [hb, hr]
        · rw [hr] at hdec; omega
        all_goals
          intros
          simp_all [before]
    · cases hs
  · -- die
    simp only [Fanout.step] at hs
    split at hs
    · rename_i ha
      cases hs
      have hle : ∀ i, live { s with alive := upd s.alive k false, dq := upd s.dq k 0 } i ≤ live s i := by
        intro i; simp only [live, due, upd_apply]; grind
      constructor
      · exact rn
      · intro hb i hi; have := be hb i hi; have := hle i; omega
      · intro hb hr
        have := sp hb hr
        have h2 : sumTo n (live { s with alive := upd s.alive k false, dq := upd s.dq k 0 }) ≤ sumTo n (live s) :=
          sumTo_le fun i _ => hle i
        simp only
        omega
      · intro j v hj
        obtain ⟨h1, h2⟩ := mi j v hj
        refine ⟨h1, ?_⟩
        rcases h2 with h2 | h2 | h2
        · exact .inl h2
        · exact .inr (.inl h2)
        · refine .inr (.inr fun i hi => ?_)
          simp only [upd_apply]; split
          · rfl
          · exact h2 i hi
      · exact m2
      · intro v hv
        rcases su v hv with h2 | h2
        · exact .inl h2
        · refine .inr fun i hi => ?_
          simp only [upd_apply]; split
          · rfl
          · exact h2 i hi
    · cases hs

theorem InvD.reach (h : Reachable mo n true s) : InvD n s := by
  induction h with
  | init => exact InvD.init n
  | step _ hs _ h => exact h.step hs

/-! ## A process that waits for a receiver that is gone -/

/-- What the process waits for, and 1 for each receiver that was gone (`D`) when it began to. -/
def need (D : Nat → Bool) (s : St) (k : Nat) : Nat := if D k then 1 else live s k

structure Stuck (D : Nat → Bool) (n : Nat) (s : St) : Prop where
  go : before s.pc = false
  rn : s.running = true
  sp : own s.pc + sumTo n (need D s) ≤ s.susp
  de : ∀ k, D k = true → s.alive k = false
  ex : ∃ k, k < n ∧ D k = true

theorem le_sumTo {f : Nat → Nat} {k : Nat} : ∀ {n : Nat}, k < n → f k ≤ sumTo n f
  | 0, h => absurd h (by omega)
  | n + 1, h => by
    simp only [sumTo]
    by_cases hk : k = n
    · subst hk; omega
    · have := le_sumTo (f := f) (k := k) (n := n) (by omega)
      omega

theorem Stuck.pos {D : Nat → Bool} (h : Stuck D n s) : 1 ≤ sumTo n (need D s) := by
  obtain ⟨k, hk, hd⟩ := h.ex
  have := le_sumTo (f := need D s) hk
  simpa [need, hd] using this

theorem Stuck.step {D : Nat → Bool} (h : Stuck D n s) {a : Act} (hs : Fanout.step mo n s a = .ok s') :
    Stuck D n s' ∧ s'.calls = s.calls := by
  have hpos := h.pos
  obtain ⟨hb, hr, hsp, hde, hex⟩ := h
  rcases a with _ | _ | k | k
  · simp only [Fanout.step, hr, if_true] at hs
    cases hs
    exact ⟨⟨hb, rfl, hsp, hde, hex⟩, rfl⟩
  · rcases hp : s.pc with _ | _ | ⟨k, v⟩ | ⟨k, v⟩ | v | k | _ <;> simp only [hp, before] at hb <;>
      simp only [Fanout.step, hp] at hs
    · cases hs
    · cases hb
    · cases hb
    · cases hb
    · cases hb
    · simp only [hp, own] at hsp
      split at hs
      · split at hs <;> cases hs
        · have : sumTo n (need D { s with dq := upd s.dq k (s.dq k + 1), sent := upd s.sent k (s.sent k + 1), pc := .send (k + 1) })
              = sumTo n (need D s) := by
            apply sumTo_congr
            intro i hi
            simp only [need, live, due, hp, upd_apply]
            grind
          refine ⟨⟨rfl, hr, ?_, hde, hex⟩, rfl⟩
          simp only [own, this]
          exact hsp
        · have : sumTo n (need D { s with pc := .send (k + 1) }) = sumTo n (need D s) := by
            apply sumTo_congr
            intro i hi
            simp only [need, live, due, hp]
            grind
          refine ⟨⟨rfl, hr, ?_, hde, hex⟩, rfl⟩
          simp only [own, this]
          exact hsp
      · cases hs
        have : sumTo n (need D { s with pc := .own }) = sumTo n (need D s) := by
          apply sumTo_congr
          intro i hi
          simp only [need, live, due, hp]
          grind
        refine ⟨⟨rfl, hr, ?_, hde, hex⟩, rfl⟩
        simp only [own, this]
        exact hsp
    · simp only [hp, own] at hsp
      cases hs
      have h0 : s.susp - 1 ≠ 0 := by omega
      have : sumTo n (need D { s with susp := s.susp - 1, pc := .idle }) = sumTo n (need D s) := by
        apply sumTo_congr
        intro i hi
        simp only [need, live, due, hp]
      simp only [Fanout.cts, h0, if_false]
      refine ⟨⟨rfl, hr, ?_, hde, hex⟩, trivial⟩
      simp only [own, this]
      omega
  · simp only [Fanout.step] at hs
    split at hs
    · rename_i hc
      obtain ⟨hk, ha, hq⟩ := hc
      have hD : D k = false := by
        rcases hd : D k with _ | _
        · rfl
        · have := hde k hd; rw [ha] at this; cases this
      have hdec : ∀ v, sumTo n (need D { s with dq := upd s.dq k (s.dq k - 1), susp := v }) + 1 = sumTo n (need D s) := by
        intro v
        apply sumTo_dec hk
        intro i
        simp only [need, live, due, upd_apply]
        grind
      have hp' : 1 ≤ sumTo n (need D { s with dq := upd s.dq k (s.dq k - 1), susp := s.susp - 1 }) := by
        obtain ⟨j, hj, hd⟩ := hex
        have := le_sumTo (f := need D { s with dq := upd s.dq k (s.dq k - 1), susp := s.susp - 1 }) hj
        simpa [need, hd] using this
      have hd1 := hdec (s.susp - 1)
      have hd2 := hdec s.susp
      split at hs <;> cases hs
      · have h0 : s.susp - 1 ≠ 0 := by omega
        simp only [Fanout.cts, h0, if_false]
        refine ⟨⟨hb, hr, ?_, hde, hex⟩, trivial⟩
        simp only
        omega
      · refine ⟨⟨hb, hr, ?_, hde, hex⟩, rfl⟩
        have e : own s.pc + sumTo n (need D { s with dq := upd s.dq k (s.dq k - 1), susp := s.susp }) ≤ s.susp := by omega
        exact e
    · cases hs
  · simp only [Fanout.step] at hs
    split at hs
    · cases hs
      have hle : sumTo n (need D { s with alive := upd s.alive k false, dq := upd s.dq k 0 }) ≤ sumTo n (need D s) := by
        apply sumTo_le
        intro i hi
        simp only [need, live, due, upd_apply]
        grind
      refine ⟨⟨hb, hr, ?_, ?_, hex⟩, rfl⟩
      · simp only; omega
      · intro i hi
        simp only [upd_apply]
        split
        · rfl
        · exact hde i hi
    · cases hs

theorem Stuck.exec {D : Nat → Bool} {as : List Act} : ∀ {s : St}, Stuck D n s → exec mo n s as = some s' → s'.calls = s.calls := by
  induction as with
  | nil => intro s _ he; cases he; rfl
  | cons a as ih =>
    intro s h he
    simp only [Fanout.exec] at he
    split at he
    · rename_i s1 hs
      obtain ⟨h1, h2⟩ := h.step hs
      rw [ih h1 he, h2]
    · cases he

/-- A process that is about to send a result, and knows that it has to wait, with one of its receivers gone. -/
theorem stuck_of (h : InvD n s) {v k : Nat} (hp : s.pc = .susp v) (hv : v ≤ 1) (hk : k < n) (hd : s.alive k = false) {as : List Act}
    (he : exec mo n s as = some s') : s'.calls = s.calls := by
  suffices hx : ∀ (as : List Act) (s0 : St), InvD n s0 → s0.pc = .susp v → s0.alive k = false → exec mo n s0 as = some s' →
      s'.calls = s0.calls from hx as s h hp hd he
  intro as
  induction as with
  | nil => intro s _ _ _ he; cases he; rfl
  | cons a as ih =>
    intro s h hp hd he
    simp only [Fanout.exec] at he
    split at he
    · rename_i s1 hs
      have h1 := h.step hs
      rcases a with _ | _ | j | j
      · have hr : s.running = true := by
          rcases hr : s.running with _ | _
          · have := h.rn hr; rw [hp] at this; cases this
          · rfl
        simp only [Fanout.step, hr, if_true] at hs
        cases hs
        have := ih _ h1 hp hd he
        exact this
      · have hz := h.be (.inl (by simp [hp, before]))
        have hz' : ∀ i, i < n → s.alive i = true → s.dq i = 0 := by
          intro i hi ha; have := hz i hi; simpa [live, due, hp, ha] using this
        simp only [Fanout.step, hp, hv, if_true] at hs
        cases hs
        suffices hst : Stuck (fun i => !s.alive i) n { s with susp := n + 1, pc := .send 0 } by
          have := hst.exec he; exact this
        refine ⟨rfl, ?_, ?_, ?_, k, hk, ?_⟩
        · rcases hr : s.running with _ | _
          · have := h.rn hr; rw [hp] at this; cases this
          · rfl
        · have : sumTo n (need (fun i => !s.alive i) { s with susp := n + 1, pc := .send 0 }) ≤ sumTo n (fun _ => 1) := by
            apply sumTo_le
            intro i hi
            simp only [need, live, due]
            have := hz' i hi
            grind
          rw [sumTo_one] at this
          simp only [own]
          omega
        · intro i hi; simpa using hi
        · simpa using hd
      · exfalso
        simp only [Fanout.step] at hs
        split at hs
        · rename_i hc
          have := h.be (.inl (by simp [hp, before])) j hc.1
          simp only [live, hc.2.1, if_true, due] at this
          omega
        · cases hs
      · simp only [Fanout.step] at hs
        split at hs
        · cases hs
          have hd' : upd s.alive j false k = false := by
            simp only [upd_apply]; split
            · rfl
            · exact hd
          have := ih _ h1 hp hd' he
          exact this
        · cases hs
    · cases he

theorem go_of_exec : ∀ {as : List Act} {s : St}, Reachable mo n true s → exec mo n s as = some s' → Reachable mo n true s'
  | [], s, h, he => by cases he; exact h
  | a :: as, s, h, he => by
    simp only [Fanout.exec] at he
    split at he
    · rename_i s1 hs
      exact go_of_exec (.step h hs (by simp)) he
    · cases he

/-- The process always waits for the receiver. -/
theorem mo_le (h : Reachable true 1 true s) : (∀ k v, s.pc = .min k v → k = 0 ∨ v ≤ 1) ∧ ∀ v, s.pc = .susp v → v ≤ 1 := by
  induction h with
  | init => exact ⟨fun _ _ h => (by cases h), fun _ h => (by cases h)⟩
  | @step s s' a hr hs _ ih =>
    have hI := InvD.reach hr
    obtain ⟨h1, h2⟩ := ih
    rcases a with _ | _ | j | j
    · simp only [Fanout.step] at hs
      split at hs <;> cases hs
      · exact ⟨h1, h2⟩
      · simp
    · rcases hp : s.pc with _ | _ | ⟨k, v⟩ | ⟨k, v⟩ | v | k | _ <;> simp only [Fanout.step, hp] at hs
      · cases hs
      · split at hs <;> cases hs <;> simp
      · have := h1 k v hp
        split at hs
        · split at hs <;> cases hs <;> simp
        · cases hs; simp; omega
      · split at hs
        · rename_i ha
          cases hs
          have hk := hI.m2 _ _ hp
          have hz := hI.be (.inl (by simp [hp, before])) k hk
          have hq : s.dq k = 0 := by simpa [live, due, hp, ha] using hz
          have hf := free_le (s.dq k) (by omega)
          have hm : Nat.min v (free (s.dq k)) ≤ 1 := Nat.le_trans (Nat.min_le_right _ _) hf
          refine ⟨?_, by simp⟩
          rintro _ _ e
          cases e
          exact .inr hm
        · cases hs
      · cases hs; simp
      · split at hs
        · split at hs <;> cases hs <;> simp
        · cases hs; simp
      · cases hs
        simp only [Fanout.cts]
        split
        · split <;> simp
        · simp
    · simp only [Fanout.step] at hs
      split at hs
      · split at hs <;> cases hs
        · simp only [Fanout.cts]
          split
          · split
            · simp
            · exact ⟨h1, h2⟩
          · exact ⟨h1, h2⟩
        · exact ⟨h1, h2⟩
      · cases hs
    · simp only [Fanout.step] at hs
      split at hs <;> cases hs
      exact ⟨h1, h2⟩

/-! ## The theorems -/

/-- If no receiver is destroyed, an empty optional is never dereferenced. -/
theorem c56_no_undefined_partial (h : Reachable mo n false s) (a : Act) : Fanout.step mo n s a ≠ .ub := by
  have hI := Inv.reach h
  intro hs
  rcases a with _ | _ | k | k
  · simp only [Fanout.step] at hs; split at hs <;> cases hs
  · rcases hp : s.pc with _ | _ | ⟨k, v⟩ | ⟨k, v⟩ | v | k | _ <;> simp only [Fanout.step, hp, hI.al, if_true] at hs
    · cases hs
    · split at hs <;> cases hs
    · split at hs <;> cases hs
    · cases hs
    · cases hs
    · split at hs <;> cases hs
    · cases hs
  · simp only [Fanout.step] at hs
    split at hs
    · split at hs <;> cases hs
    · cases hs
  · simp only [Fanout.step] at hs; split at hs <;> cases hs

/-- If no receiver is destroyed, and there is nothing left to do for the process and its receivers, then all messages have been
handled, and each receiver has got all results. -/
theorem c56_rest_partial (h : Reachable mo n false s) (hp : s.pc = .idle) (hq : ∀ k, k < n → s.dq k = 0) :
    s.q = 0 ∧ s.running = false ∧ s.calls = s.inp ∧ ∀ k, k < n → s.sent k = s.inp := by
  have hI := Inv.reach h
  have h0 : s.susp = 0 := by
    have := hI.sp
    simp only [hp] at this
    rw [this]
    exact sum_zero hq (by simp [hp])
  have hr : s.running = false := by
    rcases hr : s.running with _ | _
    · rfl
    · exact absurd h0 (hI.id hr hp)
  have hq := (hI.qq hr).2.1
  have hc := hI.co
  refine ⟨hq, hr, by omega, fun k hk => ?_⟩
  have := hI.se k hk
  simp only [hp] at this
  omega

/-- In the full claim receivers may be destroyed. With one left and one gone at the time of a broadcast, the process handles no
further message whatever happens. -/
theorem c56_stall_counterexample (h : Reachable mo n true s) {v i k : Nat} (hp : s.pc = .susp v) (hi : i < n) (ha : s.alive i = true)
    (hk : k < n) (hd : s.alive k = false) {as : List Act} (he : exec mo n s as = some s') : s'.calls = s.calls := by
  have hI := InvD.reach h
  refine stuck_of hI hp ?_ hk hd he
  rcases hI.su v hp with h1 | h1
  · exact h1
  · have := h1 i hi; rw [ha] at this; cases this

/-- If the result cannot be copied, it does not handle a further message even with no receiver at all. -/
theorem c56_move_only_counterexample (h : Reachable true 1 true s) {v : Nat} (hp : s.pc = .susp v) (hd : s.alive 0 = false)
    {as : List Act} (he : exec true 1 s as = some s') : s'.calls = s.calls :=
  stuck_of (InvD.reach h) hp ((mo_le h).2 v hp) (by omega) hd he

/-- The receiver goes away between the two calls of `free_buffer`. -/
theorem c56_undefined_counterexample : ∃ s, Reachable false 1 true s ∧ Fanout.step false 1 s .go = .ub := by
  refine ⟨_, go_of_exec (as := [.send, .go, .go, .die 0]) .init rfl, rfl⟩

/-! ## The hypotheses can be met -/

/-- Two receivers, two messages, and everything is done. -/
def work : List Act := [.send, .go, .go, .go, .go, .go, .go, .go, .go, .send, .go, .pop 1, .go, .pop 0, .go,
  .go, .go, .go, .go, .go, .go, .go, .go, .go, .go, .pop 0, .go, .pop 1]

theorem reach_of_exec (hd : ∀ k, Act.die k ∉ as) : ∀ {s : St}, Reachable mo n false s → exec mo n s as = some s' →
    Reachable mo n false s' := by
  induction as with
  | nil => intro s h he; cases he; exact h
  | cons a as ih =>
    intro s h he
    simp only [Fanout.exec] at he
    split at he
    · rename_i s1 hs
      refine ih (fun k hk => hd k (List.mem_cons_of_mem _ hk)) (.step h hs fun _ k e => ?_) he
      exact hd k (by simp [e])
    · cases he

example : ∃ s, Reachable false 2 false s ∧ s.pc = .idle ∧ s.dq 0 = 0 ∧ s.dq 1 = 0 ∧ s.inp = 2 ∧ s.calls = 2 ∧ s.sent 1 = 2 :=
  ⟨_, reach_of_exec (as := work) (by simp [work]) .init rfl, rfl, rfl, rfl, rfl, rfl, rfl⟩

/-- Two receivers, of which the second goes away; the process is at line 1144 with the first of two messages. The function is
called once and not again, though the first receiver takes its message. -/
example : ∃ s, Reachable false 2 true s ∧ s.pc = .susp 1 ∧ s.alive 0 = true ∧ s.alive 1 = false ∧ s.calls = 1 ∧ s.q = 1 ∧
    ∃ s', exec false 2 s [.go, .go, .go, .go, .go, .pop 0] = some s' ∧ s'.calls = 1 ∧ s'.q = 1 ∧ s'.pc = .idle := by
  refine ⟨_, go_of_exec (as := [.die 1, .send, .send, .go, .go, .go, .go, .go]) .init rfl, rfl, rfl, rfl, rfl, rfl, _, rfl,
    rfl, rfl, rfl⟩

/-- The same without a receiver, for a result that cannot be copied; nothing is left to do. -/
example : ∃ s, Reachable true 1 true s ∧ s.pc = .susp 0 ∧ s.alive 0 = false ∧ s.calls = 1 ∧ s.q = 1 ∧
    ∃ s', exec true 1 s [.go, .go, .go, .go] = some s' ∧ s'.calls = 1 ∧ s'.q = 1 ∧ s'.pc = .idle := by
  refine ⟨_, go_of_exec (as := [.die 0, .send, .send, .go, .go]) .init rfl, rfl, rfl, rfl, rfl, _, rfl, rfl, rfl, rfl⟩

/-- If the result can be copied, the process goes on without a receiver. -/
example : (exec false 1 {} [.die 0, .send, .send, .go, .go, .go, .go, .go, .go, .go, .go]).map (·.calls) = some 2 := rfl

end Verif.Fanout
