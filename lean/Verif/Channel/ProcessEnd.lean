import Verif.Channel.ProcessProps
import Mathlib.Data.Nat.Find

/-!
# Processes with `await` and `yield` come to rest: the measure
-/

namespace Verif.Process

open Verif.Channel (Msg sumTo upd)

variable {σ : Type} {P : Proc σ} {n : Nat} {s s' : St σ}

/-- The process object after `k` calls of `yield`. -/
def after (P : Proc σ) : Nat → σ → σ
  | 0, x => x
  | k + 1, x => after P k (P.yield x).1

/-- The process object yields only finitely often in a row, whatever it was given before. -/
def StopsYielding (P : Proc σ) : Prop := ∀ x, ∃ k, (P.state (after P k x)).isYield = false

/-- How often it yields in a row. -/
noncomputable def rank (hE : StopsYielding P) (x : σ) : Nat := Nat.find (hE x)

theorem rank_yield (hE : StopsYielding P) {x : σ} (h : (P.state x).isYield = true) : rank hE (P.yield x).1 < rank hE x := by
  have h1 := Nat.find_spec (hE x)
  cases h2 : rank hE x with
  | zero => rw [show Nat.find (hE x) = 0 from h2] at h1; simp only [after] at h1; rw [h] at h1; cases h1
  | succ k =>
    rw [show Nat.find (hE x) = k + 1 from h2] at h1
    have : rank hE (P.yield x).1 ≤ k := Nat.find_min' _ h1
    omega

/-- The sum of `f` over all threads. -/
def total (f : Pc → Nat) (s : St σ) : Nat := sumTo s.next fun j => f (s.pc j)

theorem total_same (f : Pc → Nat) {s s' : St σ} (h1 : s'.next = s.next) (h2 : s'.pc = s.pc) : total f s' = total f s := by
  simp only [total, h1, h2]

theorem total_goto (f : Pc → Nat) {j : Nat} (hj : j < s.next) (p : Pc) : total f (goto j p s) + f (s.pc j) = total f s + f p := by
  have := Verif.Channel.sumTo_change (f := fun i => f ((goto j p s).pc i)) (g := fun i => f (s.pc i)) hj
    (fun i hi => by simp [goto, upd, hi])
  simp only [total]
  have h1 : (goto j p s).next = s.next := rfl
  have h2 : (goto j p s).pc j = p := by simp [goto, upd]
  rw [h1]
  rw [h2] at this
  omega

theorem total_spawn (f : Pc → Nat) (p : Pc) : total f (spawn p s) = total f s + f p := by
  simp only [total, spawn, sumTo]
  have h2 : sumTo s.next (fun j => f (upd s.pc s.next p j)) = sumTo s.next fun j => f (s.pc j) :=
    Verif.Channel.sumTo_congr fun i hi => by rw [upd_apply, if_neg (by omega)]
  rw [h2]; simp [upd]

theorem total_run (f : Pc → Nat) : total f (run s) = total f s + f .start := total_spawn f .start

/-- The messages and the request to close that the process has not seen. -/
def pending (s : St σ) : Nat := s.q.length + if s.closeQ then 1 else 0

def yields (P : Proc σ) (s : St σ) : Bool := match s.proc with
  | some x => (P.state x).isYield
  | none => false

noncomputable def rankOf (hE : StopsYielding P) (s : St σ) : Nat := match s.proc with
  | some x => rank hE x
  | none => 0

/-- How far the main thread is from taking the next message or the end. -/
def phase (q y : Bool) : Pc → Nat
  | .start | .loop | .pop => if q || y then 0 else 4
  | .handle _ | .inErr | .inAwait _ | .inClose true => 5
  | .inClose false => 3
  | .decide | .inYield _ => if y then 0 else 1
  | _ => 0

theorem phase_loop (q y : Bool) : phase q y .loop ≤ 4 := by simp only [phase]; split <;> omega

theorem phase_decide (q y : Bool) : phase q y .decide ≤ 2 := by simp only [phase]; split <;> omega

def oA : Pc → Nat
  | .close2 => 12
  | .ready2 => 1
  | _ => 0

def oB : Pc → Nat
  | .unlock => 1
  | .clear => 2
  | _ => 0

/-- How far the main thread is from the next `yield` or the end. -/
def mB (n : Nat) : Pc → Nat
  | .start => 6
  | .loop => 5
  | .pop | .decide => 4
  | .handle _ => 3
  | .inErr | .inAwait _ | .inClose _ => 2
  | .later => 2
  | .inYield _ => 1
  | .bcast _ _ => 15 + n * 4
  | .send _ _ k => 14 + (n - k) * 4
  | .own1 _ => 12
  | .own2 _ => 11
  | .taskDone => 10
  | _ => 0

def Cts.left : Cts → Nat
  | .none => 0
  | .first => 2
  | .second => 1

def mA (P : Proc σ) (s : St σ) : Nat := 10 * pending s + phase (0 < pending s) (yields P s) (pcm s) + total oA s

def toTake (n : Nat) (s : St σ) : Nat := sumTo n fun k => 3 * (s.dq k).length + (s.cts k).left

def ownB (n : Nat) (s : St σ) : Nat := if s.main = none then (if s.running then 7 else 0) else mB n (pcm s)

def muB (n : Nat) (s : St σ) : Nat := ownB n s + total oB s + toTake n s

/-- The measure is less in `s'`. -/
def Less (hE : StopsYielding P) (n : Nat) (s' s : St σ) : Prop :=
  mA P s' < mA P s ∨ (mA P s' ≤ mA P s ∧ (rankOf hE s' < rankOf hE s ∨ (rankOf hE s' ≤ rankOf hE s ∧ muB n s' < muB n s)))

theorem less_main (hE : StopsYielding P) {j : Nat} {p p' : Pc} {s1 : St σ} (h : Inv P n s) (hp : s.pc j = p) (hm : p.isMain = true) (hm' : p'.isMain = true)
    (h1 : s1.pc = s.pc) (h2 : s1.next = s.next) (h3 : s1.main = s.main)
    (hl : 10 * pending s1 + phase (0 < pending s1) (yields P s1) p' < 10 * pending s + phase (0 < pending s) (yields P s) p ∨
      (10 * pending s1 + phase (0 < pending s1) (yields P s1) p' ≤ 10 * pending s + phase (0 < pending s) (yields P s) p ∧
        (rankOf hE s1 < rankOf hE s ∨ (rankOf hE s1 ≤ rankOf hE s ∧ mB n p' + toTake n s1 < mB n p + toTake n s)))) :
    Less hE n (goto j p' s1) s := by
  obtain ⟨hmn, hq, hr, hj, ⟨x, hx⟩, hdn⟩ := h.main hp hm
  have hA := total_goto oA (s := s1) (h2 ▸ hj) p'
  have hB := total_goto oB (s := s1) (h2 ▸ hj) p'
  rw [total_same oA h2 h1, h1, hp] at hA
  rw [total_same oB h2 h1, h1, hp] at hB
  have hz : ∀ p : Pc, p.isMain = true → oA p = 0 ∧ oB p = 0 := by intro p; cases p <;> simp [Pc.isMain, oA, oB]
  have ha := hz p hm
  have hb := hz p' hm'
  have hq' : pcm (goto j p' s1) = p' := by simp [pcm, goto, h3, hmn, upd]
  have e1 : pending (goto j p' s1) = pending s1 := rfl
  have e2 : yields P (goto j p' s1) = yields P s1 := rfl
  have e3 : rankOf hE (goto j p' s1) = rankOf hE s1 := rfl
  have e4 : toTake n (goto j p' s1) = toTake n s1 := rfl
  have e5 : (goto j p' s1).main ≠ none := by simp [goto, h3, hmn]
  simp only [Less, mA, muB, ownB, hq', hq, e1, e2, e3, e4, if_neg e5, hmn, reduceCtorEq, if_false]
  omega

/-- The main thread `j` is through; there is a new main thread at its start, or none. -/
theorem less_end (hE : StopsYielding P) {j : Nat} {p p' : Pc} {s1 : St σ} {b : Bool} (h : Inv P n s) (hp : s.pc j = p) (hm : p.isMain = true)
    (h1 : s1.pc = s.pc) (h2 : s1.next = s.next) (h3 : s1.main = none) (h4 : s1.dq = s.dq) (h5 : s1.cts = s.cts)
    (h6 : pending s1 = pending s) (h7 : s1.proc = s.proc) (hb : b = true → 0 < pending s ∨ yields P s = true)
    (hph : phase (0 < pending s) (yields P s) p = 0) (hA : oA p' = 0) (hl : 7 + oB p' < mB n p) :
    Less hE n (goto j p' (if b then run s1 else s1)) s := by
  obtain ⟨hmn, hq, hr, hj, ⟨x, hx⟩, hdn⟩ := h.main hp hm
  have hz : oA p = 0 ∧ oB p = 0 := by cases p <;> simp_all [Pc.isMain, oA, oB]
  have hpr : ∀ t : St σ, t.proc = s.proc → yields P t = yields P s ∧ rankOf hE t = rankOf hE s := by
    intro t ht; simp only [yields, rankOf, ht, and_self]
  cases b with
  | false =>
    have hA' := total_goto oA (s := s1) (h2 ▸ hj) p'
    have hB' := total_goto oB (s := s1) (h2 ▸ hj) p'
    rw [total_same oA h2 h1, h1, hp] at hA'
    rw [total_same oB h2 h1, h1, hp] at hB'
    have e0 : pcm (goto j p' s1) = .none := by simp [pcm, goto, h3]
    have e1 : pending (goto j p' s1) = pending s := h6
    have e2 := hpr (goto j p' s1) h7
    have e4 : toTake n (goto j p' s1) = toTake n s := by simp only [toTake, goto, h4, h5]
    have e5 : (goto j p' s1).main = none := h3
    have e6 : ownB n (goto j p' s1) ≤ 7 := by simp only [ownB, e5, if_true]; split <;> omega
    have e7 : ownB n s = mB n p := by simp [ownB, hmn, hq]
    have e8 : ∀ q y, phase q y .none = 0 := fun _ _ => rfl
    right
    simp only [Bool.false_eq_true, if_false, mA, muB, e0, e1, e2, e4, e7, e8, hq, hph]
    omega
  | true =>
    have hj' : j < (run s1).next := by simp only [run, spawn, h2]; omega
    have hA' := total_goto oA hj' p'
    have hB' := total_goto oB hj' p'
    have hpj : (run s1).pc j = p := by simp only [run, spawn, h1, h2, upd_apply]; rw [if_neg (by omega), hp]
    rw [total_run, total_same oA h2 h1, hpj] at hA'
    rw [total_run, total_same oB h2 h1, hpj] at hB'
    have e0 : pcm (goto j p' (run s1)) = .start := by
      simp only [pcm, goto, run, spawn, h1, h2, upd_apply]; rw [if_neg (by omega)]; simp
    have e1 : pending (goto j p' (run s1)) = pending s := h6
    have e2 := hpr (goto j p' (run s1)) h7
    have e4 : toTake n (goto j p' (run s1)) = toTake n s := by simp only [toTake, goto, run, spawn, h4, h5]
    have e6 : ownB n (goto j p' (run s1)) = 6 := by simp only [ownB, e0, mB]; simp [goto, run, spawn]
    have e7 : ownB n s = mB n p := by simp [ownB, hmn, hq]
    have e8 : phase (decide (0 < pending s)) (yields P s) .start = 0 := by
      have := hb rfl
      simp only [phase]; rw [if_pos]; simpa using this
    right
    simp only [if_true, mA, muB, e0, e1, e2, e4, e6, e7, e8, hq, hph]
    have e9 : oA .start = 0 ∧ oB .start = 0 := ⟨rfl, rfl⟩
    omega

/-- Another thread `j` goes from `p` to `p'`. -/
theorem less_other (hE : StopsYielding P) {j : Nat} {p p' : Pc} {t : St σ} (h : Inv P n s) (hp : s.pc j = p) (hm : p.isMain = false) (h0 : p ≠ .none)
    (h1 : t.pc = s.pc) (h2 : t.next = s.next) (h3 : t.main = s.main) (h4 : t.dq = s.dq) (h5 : t.cts = s.cts) (h6 : t.running = s.running)
    (hr : rankOf hE t ≤ rankOf hE s)
    (hl : 10 * pending t + phase (0 < pending t) (yields P t) (pcm s) + oA p' < 10 * pending s + phase (0 < pending s) (yields P s) (pcm s) + oA p ∨
      (10 * pending t + phase (0 < pending t) (yields P t) (pcm s) + oA p' ≤ 10 * pending s + phase (0 < pending s) (yields P s) (pcm s) + oA p ∧
        oB p' < oB p)) : Less hE n (goto j p' t) s := by
  have hj : j < s.next := Nat.lt_of_not_le fun hl => h0 (hp.symm.trans (h.fr j hl))
  have hmn : s.main ≠ some j := fun hm' => by have := (h.mn j).2 hm'; rw [hp, hm] at this; cases this
  have hA := total_goto oA (s := t) (h2 ▸ hj) p'
  have hB := total_goto oB (s := t) (h2 ▸ hj) p'
  rw [total_same oA h2 h1, h1, hp] at hA
  rw [total_same oB h2 h1, h1, hp] at hB
  have e0 : pcm (goto j p' t) = pcm s := pcm_goto hmn h1 h3
  have e1 : pending (goto j p' t) = pending t := rfl
  have e2 : yields P (goto j p' t) = yields P t := rfl
  have e3 : rankOf hE (goto j p' t) = rankOf hE t := rfl
  have e4 : toTake n (goto j p' t) = toTake n s := by simp only [toTake, goto, h4, h5]
  have e5 : ownB n (goto j p' t) = ownB n s := by simp only [ownB, e0]; simp only [goto, h3, h6]
  simp only [Less, mA, muB, e0, e1, e2, e3, e4, e5]
  omega

/-- Another thread `j` ends and starts the process. -/
theorem less_wake (hE : StopsYielding P) {j : Nat} {p : Pc} {t : St σ} (h : Inv P n s) (hp : s.pc j = p) (h0 : p ≠ .none)
    (hrn : s.running = false) (h1 : t.pc = s.pc) (h2 : t.next = s.next)
    (hl : 10 * pending t < 10 * pending s + oA p) (hq : 0 < pending t) : Less hE n (run (goto j .none t)) s := by
  have hj : j < s.next := Nat.lt_of_not_le fun hl => h0 (hp.symm.trans (h.fr j hl))
  have hmn : s.main = none := by
    rcases hm' : s.main with _ | i
    · rfl
    · have := h.rn (by simp [hm']); simp [hrn] at this
  have hA := total_goto oA (s := t) (h2 ▸ hj) .none
  rw [total_same oA h2 h1, h1, hp] at hA
  have hA' := total_run oA (s := goto j .none t)
  have e0 : pcm (run (goto j .none t)) = .start := by simp [pcm, run, spawn, upd]
  have e1 : pending (run (goto j .none t)) = pending t := rfl
  have e2 : pcm s = .none := by simp [pcm, hmn]
  left
  simp only [mA, e0, e1, e2, phase, hq, oA] at *
  simp only [decide_true, Bool.true_or, if_true]
  omega

theorem phase_mono (y : Bool) (p : Pc) (q q' : Bool) (h : q = true → q' = true) : phase q' y p ≤ phase q y p := by
  cases p with
  | inClose m => cases m <;> simp [phase]
  | _ => cases q <;> cases q' <;> cases y <;> simp_all [phase]

theorem Inv.less_job (hP : Untimed P) (hE : StopsYielding P) (h : Inv P n s) {j : Nat} (hs : stepJob P n j s = .ok s') : Less hE n s' s := by
  unfold stepJob at hs
  split at hs
  case h_1 => cases hs
  case h_2 hp =>
    split at hs <;> cases hs
    exact less_main hE h hp rfl rfl rfl rfl rfl (.inr ⟨Nat.le_refl _, .inr ⟨Nat.le_refl _, by simp only [toTake, mB]; omega⟩⟩)
  case h_3 hp =>
    split at hs <;> cases hs
    rename_i x hx
    split
    · rename_i hy
      refine less_main hE h hp rfl rfl rfl rfl rfl (.inr ⟨?_, .inr ⟨Nat.le_refl _, by simp only [toTake, mB]; omega⟩⟩)
      simp [phase, yields, hx, hy]
    · exact less_main hE h hp rfl rfl rfl rfl rfl (.inr ⟨Nat.le_refl _, .inr ⟨Nat.le_refl _, by simp only [toTake, mB]; omega⟩⟩)
  case h_4 hp =>
    have hay := h.ay
    rw [(h.main hp rfl).2.1] at hay
    obtain ⟨x, hx⟩ := (h.main hp rfl).2.2.2.2.1
    have hy : yields P s = false := by simp only [yields, hx]; exact hay rfl x hx
    split at hs <;> cases hs <;> rename_i hq
    · refine less_main hE h hp rfl rfl rfl rfl rfl (.inl ?_)
      simp only [pending, phase, hq, hy, List.length_nil]
      cases s.closeQ <;> simp
    · refine less_main hE h hp rfl rfl rfl rfl rfl (.inl ?_)
      simp only [pending, phase, hq, List.length_cons]
      omega
  case h_5 m hp =>
    split at hs
    · cases hs
    · split at hs <;> cases hs
      all_goals
        exact less_main hE h hp rfl rfl rfl rfl rfl (.inr ⟨Nat.le_refl _, .inr ⟨Nat.le_refl _, by simp only [toTake, mB]; omega⟩⟩)
  case h_6 hp =>
    split at hs
    · split at hs <;> cases hs
      · exact less_main hE h hp rfl rfl rfl rfl rfl (.inl (Nat.add_lt_add_left (Nat.lt_of_le_of_lt (phase_loop _ _) (Nat.lt_succ_self 4)) _))
      · exact less_main hE h hp rfl rfl rfl rfl rfl (.inl (Nat.add_lt_add_left (Nat.succ_pos 4) _))
    · cases hs
  case h_7 hp =>
    split at hs
    · split at hs <;> cases hs
      · exact less_main hE h hp rfl rfl rfl rfl rfl (.inl (Nat.add_lt_add_left (Nat.lt_of_le_of_lt (phase_loop _ _) (Nat.lt_succ_self 4)) _))
      · exact less_main hE h hp rfl rfl rfl rfl rfl (.inl (Nat.add_lt_add_left (Nat.succ_pos 4) _))
    · cases hs
  case h_8 m hp =>
    obtain ⟨x, hx⟩ := (h.main hp rfl).2.2.2.2.1
    split at hs
    · simp_all
    · split at hs <;> cases hs
      · cases m
        · exact less_main hE h hp rfl rfl rfl rfl rfl (.inl (Nat.add_lt_add_left (Nat.lt_of_le_of_lt (phase_decide _ _) (Nat.lt_succ_self 2)) _))
        · exact less_main hE h hp rfl rfl rfl rfl rfl (.inl (Nat.add_lt_add_left (Nat.lt_of_le_of_lt (phase_loop _ _) (Nat.lt_succ_self 4)) _))
      · cases m
        · exact less_main hE h hp rfl rfl rfl rfl rfl (.inl (Nat.add_lt_add_left (Nat.succ_pos 2) _))
        · exact less_main hE h hp rfl rfl rfl rfl rfl (.inl (Nat.add_lt_add_left (Nat.succ_pos 4) _))
  case h_9 hp =>
    split at hs
    · cases hs
    · rename_i x hx
      split at hs <;> cases hs
      · exact less_main hE h hp rfl rfl rfl rfl rfl (.inr ⟨Nat.le_refl _, .inr ⟨Nat.le_refl _, by simp only [toTake, mB]; omega⟩⟩)
      · exact less_main hE h hp rfl rfl rfl rfl rfl (.inr ⟨Nat.le_refl _, .inr ⟨Nat.le_refl _, by simp only [toTake, mB]; omega⟩⟩)
      · obtain ⟨hmn, hq, hr, hj, -, hdn⟩ := h.main hp rfl
        have key : ∀ t : St σ, t.pc = upd s.pc s.next .later → t.next = s.next + 1 → t.main = some s.next → t.q = s.q → t.closeQ = s.closeQ →
            t.proc = s.proc → t.dq = s.dq → t.cts = s.cts → Less hE n (goto j .unlock t) s := by
          intro t t1 t2 t3 t4 t5 t6 t7 t8
          have hpj : t.pc j = .decide := by rw [t1, upd_apply, if_neg (by omega), hp]
          have hA := total_goto oA (s := t) (j := j) (by omega) .unlock
          have hB := total_goto oB (s := t) (j := j) (by omega) .unlock
          rw [hpj, total_same oA (s := spawn .later s) t2 t1, total_spawn] at hA
          rw [hpj, total_same oB (s := spawn .later s) t2 t1, total_spawn] at hB
          have e0 : pcm (goto j .unlock t) = .later := by
            simp only [pcm, goto, t3, t1, upd_apply]; rw [if_neg (by omega)]; simp
          have e3 : ownB n (goto j .unlock t) = 2 := by simp only [ownB, e0, mB]; simp [goto, t3]
          have e4 : ownB n s = 4 := by simp [ownB, hmn, hq, mB]
          have e5 : pending (goto j .unlock t) = pending s := by simp only [pending, goto, t4, t5]
          have e6 : toTake n (goto j .unlock t) = toTake n s := by simp only [toTake, goto, t7, t8]
          have e7 : rankOf hE (goto j .unlock t) = rankOf hE s := by simp only [rankOf, goto, t6]
          simp only [oA, oB] at hA hB
          right
          simp only [mA, muB, e0, e3, e4, e5, e6, e7, hq, phase]
          omega
        exact key _ rfl rfl rfl rfl rfl rfl rfl rfl
      · rename_i hf
        refine less_main hE h hp rfl rfl rfl rfl rfl (.inl ?_)
        simp [phase, yields, hx, hf, PState.isYield]
      · exact absurd ‹_› (hP _)
  case h_10 b hp =>
    split at hs <;> cases hs
    rename_i x hx
    have hyi := h.yi
    rw [(h.main hp rfl).2.1] at hyi
    obtain ⟨y, hy, hc⟩ := hyi b rfl
    cases hx.symm.trans hy
    rcases hc with hc | hc
    · refine less_main hE h hp rfl rfl rfl rfl rfl (.inr ⟨?_, .inl ?_⟩)
      · simp only [pending, phase]; omega
      · simp only [rankOf, hx]; exact rank_yield hE hc
    · refine less_main hE h hp rfl rfl rfl rfl rfl (.inl ?_)
      simp [phase, yields, hx, hc, PState.isYield, pending]
  case h_11 b r hp =>
    cases hs
    exact less_main hE h hp rfl rfl rfl rfl rfl (.inr ⟨Nat.le_refl _, .inr ⟨Nat.le_refl _, by simp only [toTake, mB]; omega⟩⟩)
  case h_12 b r k hp =>
    split at hs <;> cases hs
    · rename_i hk
      refine less_main hE h hp rfl rfl rfl rfl rfl (.inr ⟨Nat.le_refl _, .inr ⟨Nat.le_refl _, ?_⟩⟩)
      have := Verif.Channel.sumTo_change (n := n) (k := k) (f := fun i => 3 * (upd s.dq k (s.dq k ++ [r]) i).length + (s.cts i).left)
        (g := fun i => 3 * (s.dq i).length + (s.cts i).left) hk.1 (fun i hi => by simp [upd, hi])
      simp only [upd_apply, if_true, List.length_append, List.length_cons, List.length_nil] at this
      simp only [toTake, mB, upd_apply]
      have : n - k = (n - (k + 1)) + 1 := by omega
      omega
    · exact less_main hE h hp rfl rfl rfl rfl rfl (.inr ⟨Nat.le_refl _, .inr ⟨Nat.le_refl _, by simp only [toTake, mB]; omega⟩⟩)
  case h_13 b hp =>
    split at hs <;> cases hs
    · cases b
      · exact less_end hE (b := false) h hp rfl (p' := .unlock) rfl rfl rfl rfl rfl rfl rfl (by simp) rfl rfl (by simp [mB, oB])
      · exact less_end hE (b := false) h hp rfl (p' := .none) rfl rfl rfl rfl rfl rfl rfl (by simp) rfl rfl (by simp [mB, oB])
      · exact (h.noTimeout hp rfl).elim
    · exact less_main hE h hp rfl rfl rfl rfl rfl (.inr ⟨Nat.le_refl _, .inr ⟨Nat.le_refl _, by simp only [toTake, mB]; omega⟩⟩)
  case h_14 b hp =>
    split at hs <;> cases hs
    rename_i x hx
    have key : ∀ p' : Pc, oA p' = 0 → 7 + oB p' < 11 → Less hE n (goto j p' (ctsCrit P x { s with main := none })) s := by
      intro p' h2 h3
      simp only [ctsCrit]
      by_cases h0 : s.susp - 1 = 0
      · rw [if_pos h0]
        by_cases hc : (P.state x).isYield ∨ s.q ≠ [] ∨ s.closeQ = true
        · rw [if_pos hc]
          refine less_end hE (b := true) h hp rfl rfl rfl rfl rfl rfl rfl rfl (fun _ => ?_) rfl h2 h3
          rcases hc with hc | hc | hc
          · exact .inr (by simpa [yields, hx] using hc)
          · have := List.length_pos_iff.2 hc
            exact .inl (by simp only [pending]; omega)
          · exact .inl (by simp [pending, hc])
        · rw [if_neg hc]
          exact less_end hE (b := false) h hp rfl rfl rfl rfl rfl rfl rfl rfl (by simp) rfl h2 h3
      · rw [if_neg h0]
        exact less_end hE (b := false) h hp rfl rfl rfl rfl rfl rfl rfl rfl (by simp) rfl h2 h3
    cases b
    · exact key .unlock rfl (by simp [oB])
    · exact key .none rfl (by simp [oB])
    · exact (h.noTimeout hp rfl).elim
  case h_15 hp => exact (h.noTimeout hp rfl).elim
  case h_16 hp =>
    cases hs
    by_cases hc : s.q ≠ [] ∨ s.closeQ = true
    · have hf : s.final = false := by
        rcases hf : s.final with _ | _
        · rfl
        · have := h.fi hf; simp_all
      have : Less hE n (goto j .unlock (if true then run { s with running := true, main := none } else { s with running := true, main := none })) s := by
        refine less_end hE h hp rfl rfl rfl rfl rfl rfl rfl rfl (fun _ => .inl ?_) rfl rfl (by simp [oB, mB])
        rcases hc with hc | hc
        · have := List.length_pos_iff.2 hc
          simp only [pending]; omega
        · simp [pending, hc]
      simpa [hc, hf, run, spawn] using this
    · have hc1 : s.q = [] := by simpa using fun h => hc (.inl h)
      have hc2 : s.closeQ = false := by simpa using fun h => hc (.inr h)
      have key : ∀ p' : Pc, oA p' = 0 → 7 + oB p' < 10 →
          Less hE n (goto j p' (if false then run { s with running := false, main := none } else { s with running := false, main := none })) s :=
        fun p' h2 h3 => less_end hE h hp rfl rfl rfl rfl rfl rfl rfl rfl (by simp) rfl h2 h3
      cases hf : s.final
      · simpa [hc1, hc2, hf] using key .unlock rfl (by simp [oB])
      · simpa [hc1, hc2, hf] using key .clear rfl (by simp [oB])
  case h_17 hp =>
    cases hs
    have e0 : pcm s = .none := by simp [pcm, (h.cl j hp).2]
    refine less_other hE h hp rfl (by simp) rfl rfl rfl rfl rfl rfl (Nat.zero_le _) (.inr ⟨?_, by simp [oB]⟩)
    rw [e0]
    simp [phase, oA, pending]
  case h_18 hp =>
    cases hs
    exact less_other hE h hp rfl (by simp) rfl rfl rfl rfl rfl rfl (Nat.le_refl _) (.inr ⟨Nat.le_refl _, by simp [oB]⟩)
  case h_19 hp =>
    obtain ⟨x, hx⟩ := (h.main hp rfl).2.2.2.2.1
    have hla := h.la
    rw [(h.main hp rfl).2.1] at hla
    obtain ⟨y, hy, hl⟩ := hla rfl
    split at hs
    · simp_all
    · cases hs
      refine less_main hE h hp rfl rfl rfl rfl rfl (.inr ⟨?_, .inr ⟨Nat.le_refl _, by simp only [toTake, mB]; omega⟩⟩)
      simp [phase, yields, hy, hl, PState.isYield]
  case h_20 hp => exact (h.noTimeout hp rfl).elim
  case h_21 hp => exact (h.noTimeout hp rfl).elim
  case h_22 hp =>
    cases hs
    have hc := (h.c1 j hp).1
    by_cases hr : s.ready = true ∧ s.running = false
    · have : Less hE n (run (goto j .none { s with closeQ := true, running := true })) s :=
        less_wake hE h hp (by simp) hr.2 rfl rfl (by simp [pending, hc, oA]; omega) (by simp [pending])
      simpa [hr] using this
    · have : Less hE n (goto j .none { s with closeQ := true }) s := by
        refine less_other hE h hp rfl (by simp) rfl rfl rfl rfl rfl rfl (Nat.le_refl _) (.inl ?_)
        have h1 := phase_mono (yields P s) (pcm s) (decide (0 < pending s)) (decide (0 < pending { s with closeQ := true })) (by simp [pending])
        have h2 : pending { s with closeQ := true } = pending s + 1 := by simp [pending, hc]
        have h3 : yields P { s with closeQ := true } = yields P s := rfl
        rw [h3]
        simp only [oA]
        omega
      simpa [hr] using this
  case h_23 hp =>
    cases hs
    by_cases hr : (s.q ≠ [] ∨ s.closeQ = true) ∧ s.running = false
    · have : Less hE n (run (goto j .none { s with running := true })) s := by
        refine less_wake hE h hp (by simp) hr.2 rfl rfl (by simp [pending, oA]) ?_
        rcases hr.1 with hc | hc
        · have := List.length_pos_iff.2 hc
          simp only [pending]; omega
        · simp [pending, hc]
      simpa [hr] using this
    · have : Less hE n (goto j .none s) s :=
        less_other hE h hp rfl (by simp) rfl rfl rfl rfl rfl rfl (Nat.le_refl _) (.inl (by simp only [oA]; omega))
      simpa [hr] using this

/-- The steps with which the system goes on by itself, except for failing to lock: users do nothing. -/
def Act.internal : Act → Bool
  | .job _ | .pop _ | .cts _ => true
  | _ => false

theorem less_take (hE : StopsYielding P) {t : St σ} {k : Nat} (hk : k < n) (h1 : t.pc = s.pc) (h2 : t.next = s.next) (h3 : t.main = s.main)
    (h6 : t.running = s.running) (h7 : t.proc = s.proc) (h8 : pending t = pending s)
    (hd : ∀ i, i ≠ k → t.dq i = s.dq i ∧ t.cts i = s.cts i)
    (hl : 3 * (t.dq k).length + (t.cts k).left < 3 * (s.dq k).length + (s.cts k).left) : Less hE n t s := by
  have h := Verif.Channel.sumTo_change (n := n) (k := k) (f := fun i => 3 * (t.dq i).length + (t.cts i).left)
    (g := fun i => 3 * (s.dq i).length + (s.cts i).left) hk (fun i hi => by simp only [hd i hi])
  have e0 : pcm t = pcm s := by simp only [pcm, h1, h3]
  have e1 : yields P t = yields P s := by simp only [yields, h7]
  have e2 : rankOf hE t = rankOf hE s := by simp only [rankOf, h7]
  have e3 : ownB n t = ownB n s := by simp only [ownB, e0, h3, h6]
  right
  simp only [mA, muB, e0, e1, e2, e3, h8, total_same oA h2 h1, total_same oB h2 h1, toTake]
  omega

theorem le_sumTo (f : Nat → Nat) {k : Nat} : ∀ {n : Nat}, k < n → f k ≤ sumTo n f
  | 0, h => by omega
  | n + 1, h => by
    simp only [sumTo]
    by_cases hkn : k = n
    · subst hkn; omega
    · have := le_sumTo f (n := n) (k := k) (by omega); omega

theorem Inv.less (hP : Untimed P) (hE : StopsYielding P) (h : Inv P n s) {a : Act} (ha : a.internal = true) (hs : Process.step P n s a = .ok s') : Less hE n s' s := by
  cases a <;> cases ha
  case job j => exact h.less_job hP hE hs
  case pop k =>
    simp only [Process.step] at hs
    split at hs
    · split at hs <;> cases hs
      rename_i m q hd hc
      have hk : k < n := Nat.lt_of_not_le fun hl => by have := (h.dn k hl).1; rw [hd] at this; cases this
      refine less_take hE hk rfl rfl rfl rfl rfl rfl (fun i hi => by simp [upd, hi]) ?_
      simp only [upd_apply, if_true, hd, hc, List.length_cons, Cts.left]
      by_cases hq : q = []
      · simp [hq]
      · simp [hq]
    · cases hs
  case cts k =>
    simp only [Process.step] at hs
    split at hs
    · cases hs
    · cases hs
      rename_i hc
      have hk : k < n := Nat.lt_of_not_le fun hl => by have := (h.dn k hl).2; rw [hc] at this; cases this
      refine less_take hE hk rfl rfl rfl rfl rfl rfl (fun i hi => by simp [upd, hi]) ?_
      simp only [upd_apply, if_true, hc]
      cases s.final <;> simp [Cts.left]
    · rename_i hc
      split at hs <;> cases hs
      rename_i x hx
      obtain ⟨hk, hf, hr, hs, hdk, h1, h2, -⟩ := h.cts2 hc
      have hpos : 0 < s.susp := by
        have := le_sumTo (due s) hk
        omega
      simp only [ctsCrit]
      by_cases h0 : s.susp = 1
      · obtain ⟨hmn, hq, -⟩ := h.cts2Z hc h0
        rw [if_pos (by simp [h0])]
        have e : toTake n { s with cts := upd s.cts k .none } + 1 = toTake n s := by
          have := Verif.Channel.sumTo_change (n := n) (k := k) (f := fun i => 3 * (s.dq i).length + (upd s.cts k Cts.none i).left)
            (g := fun i => 3 * (s.dq i).length + (s.cts i).left) hk (fun i hi => by simp [upd, hi])
          simp only [upd_apply, if_true, hc] at this
          have e1 : Cts.none.left = 0 ∧ Cts.second.left = 1 := ⟨rfl, rfl⟩
          simp only [toTake, upd_apply]
          omega
        by_cases hn : (P.state x).isYield ∨ s.q ≠ [] ∨ s.closeQ = true
        · rw [if_pos hn]
          have e0 : pcm (run { s with cts := upd s.cts k .none, susp := s.susp - 1 }) = .start := by simp [pcm, run, spawn, upd]
          have e1 : phase (decide (0 < pending s)) (yields P s) .start = 0 := by
            have : 0 < pending s ∨ yields P s = true := by
              rcases hn with hn | hn | hn
              · exact .inr (by simpa [yields, hx] using hn)
              · have := List.length_pos_iff.2 hn
                exact .inl (by simp only [pending]; omega)
              · exact .inl (by simp [pending, hn])
            simp only [phase]; rw [if_pos]; simpa using this
          have e2 : pending (run { s with cts := upd s.cts k .none, susp := s.susp - 1 }) = pending s := rfl
          have e3 : yields P (run { s with cts := upd s.cts k .none, susp := s.susp - 1 }) = yields P s := rfl
          have e4 : total oA (run { s with cts := upd s.cts k .none, susp := s.susp - 1 }) = total oA s := total_run oA
          have e5 : total oB (run { s with cts := upd s.cts k .none, susp := s.susp - 1 }) = total oB s := total_run oB
          have e6 : ownB n (run { s with cts := upd s.cts k .none, susp := s.susp - 1 }) = 6 := by
            simp only [ownB, e0, mB]; simp [run, spawn]
          have e7 : ownB n s = 7 := by simp [ownB, hmn, hr]
          have e8 : toTake n (run { s with cts := upd s.cts k .none, susp := s.susp - 1 }) = toTake n { s with cts := upd s.cts k .none } := rfl
          right
          simp only [mA, muB, e0, e1, e2, e3, e4, e5, e6, e7, e8]
          exact ⟨by omega, .inr ⟨Nat.le_refl _, by omega⟩⟩
        · rw [if_neg hn]
          right
          refine ⟨Nat.le_refl _, .inr ⟨Nat.le_refl _, ?_⟩⟩
          simp only [muB]
          have e7 : ownB n s = 7 := by simp [ownB, hmn, hr]
          have e6 : ownB n { s with cts := upd s.cts k .none, susp := s.susp - 1, running := false } = 0 := by simp [ownB, hmn]
          have e5 : total oB { s with cts := upd s.cts k .none, susp := s.susp - 1, running := false } = total oB s := rfl
          have e8 : toTake n { s with cts := upd s.cts k .none, susp := s.susp - 1, running := false } = toTake n { s with cts := upd s.cts k .none } := rfl
          omega
      · rw [if_neg (show ¬s.susp - 1 = 0 by omega)]
        refine less_take hE hk rfl rfl rfl rfl rfl rfl (fun i hi => by simp [upd, hi]) ?_
        simp only [upd_apply, if_true, hc, Cts.left]
        omega

/-- Failing to lock changes nothing. -/
theorem Inv.fail_same (hE : StopsYielding P) (h : Inv P n s) {j : Nat} (hs : Process.step P n s (.fail j) = .ok s') :
    mA P s' = mA P s ∧ rankOf hE s' = rankOf hE s ∧ muB n s' = muB n s := by
  simp only [Process.step] at hs
  split at hs <;> cases hs
  rename_i hp
  obtain ⟨hmn, hq, hr, hj, -, hdn⟩ := h.main hp rfl
  have hA := total_goto oA (s := s) hj .none
  have hB := total_goto oB (s := s) hj .none
  have hA' := total_run oA (s := goto j .none s)
  have hB' := total_run oB (s := goto j .none s)
  simp only [hp, oA, oB] at hA hB hA' hB'
  have e0 : pcm (run (goto j .none s)) = .start := by simp [pcm, run, spawn, upd]
  refine ⟨?_, rfl, ?_⟩
  · have e2 : pending (run (goto j .none s)) = pending s := rfl
    have e3 : yields P (run (goto j .none s)) = yields P s := rfl
    simp only [mA, e0, hq, e2, e3]
    omega
  · have e6 : ownB n (run (goto j .none s)) = 6 := by simp only [ownB, e0, mB]; simp [run, spawn]
    have e7 : ownB n s = 6 := by simp [ownB, hmn, hq, mB]
    have e8 : toTake n (run (goto j .none s)) = toTake n s := rfl
    simp only [muB]
    omega

end Verif.Process
