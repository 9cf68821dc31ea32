import Verif.Sync.Process

/-!
# Who does what in a step of a process with `await` and `yield`
-/

namespace Verif.Sync.Process

open Verif.Process (Proc Pc Inv pcm due Untimed)
open Verif.Channel (sumTo)

variable {σ : Type} {P : Proc σ} {n : Nat} {s s' : Verif.Process.St σ}

/-- The job that takes the step. -/
def actor : Verif.Process.Act → Option Nat
  | .job j => some j
  | .fail j => some j
  | _ => none

/-- How the thread the process runs in changes. -/
inductive Moves (n : Nat) (s s' : Verif.Process.St σ) (a : Verif.Process.Act) : Prop
  | stay : s'.main = s.main → (s.main ≠ none → (pcm s').own = 0 → (pcm s).own = 0) → Moves n s s' a
  | next (j j' : Nat) : actor a = some j → s.main = some j → s'.main = some j' → s.next ≤ j' → j' < s'.next → ((pcm s).own = 0 ∨ locks n s a = some .own) →
    Moves n s s' a
  | wake (j' : Nat) : s.main = none → s'.main = some j' → s.next ≤ j' → j' < s'.next → locks n s a = some .own → Moves n s s' a
  | done (j : Nat) : actor a = some j → s.main = some j → s'.main = none → locks n s a = some .own → Moves n s s' a

/-- Who uses the process. -/
inductive Using (n : Nat) (s s' : Verif.Process.St σ) (a : Verif.Process.Act) : Prop
  | main (j : Nat) : actor a = some j → s.main = some j → (writes s a = true → (pcm s).own = 0) → Using n s s' a
  | clear (j : Nat) : actor a = some j → s.pc j = .clear → s'.pc j ≠ .clear → s'.proc = none → s'.main = none → s'.final = true → Using n s s' a
  | recv (k : Nat) : a = .cts k → s.cts k ≠ .none → writes s a = false → locks n s a = some .own → s.final = false → (s.main = none ∨ (pcm s).own = 1) → Using n s s' a

structure Frame (n : Nat) (s s' : Verif.Process.St σ) (a : Verif.Process.Act) : Prop where
  mv : Moves n s s' a
  use : writes s a = true ∨ reads s a = true → Using n s s' a
  wr : writes s a = true → s'.final = true ∨ ∀ k, s'.dq k = [] ∧ s'.cts k = .none
  yl : s'.outs.length ≠ s.outs.length → writes s a = true ∧ ∀ k, s'.dq k = [] ∧ s'.cts k = .none
  dq : ∀ k, s'.dq k ≠ [] → s.dq k ≠ [] ∨ ((∃ j, actor a = some j ∧ s.main = some j) ∧ locks n s a = some (.recv k))
  ct : ∀ k, s'.cts k ≠ .none → (s.cts k ≠ .none ∧ a ≠ .pop k) ∨ (a = .pop k ∧ s.dq k ≠ [])
  fi : s'.final = false → s.final = false
  pr : s.proc = none → s'.proc = none
  clr : ∀ j, s'.pc j = .clear → s.pc j = .clear ∨ (actor a = some j ∧ s.main = some j ∧ (pcm s).own = 0)
  tk : s'.took.length + (pcm s').pend.length = s.took.length + (pcm s).pend.length ∨
    (locks n s a = some .own ∧ (∃ j, actor a = some j ∧ s.main = some j) ∧ s'.main = s.main)
  inp : s'.inp.length = s.inp.length + if sends a = true then 1 else 0
  snd : sends a = true → locks n s a = some .own

open Verif.Process in
theorem zero (I : Inv P n s) {j : Nat} (hm : s.main = some j) (ho : (pcm s).own = 0) (k : Nat) : s.dq k = [] ∧ s.cts k = .none := by
  have := I.ze (by simp [hm]) ho k
  simp only [due] at this
  refine ⟨?_, ?_⟩
  · exact List.length_eq_zero_iff.1 (by omega)
  · cases hc : s.cts k <;> simp [hc, Cts.busy] at this ⊢

set_option hygiene false in
/-- All parts of `Frame` for a given move and use. -/
macro "parts" mv:term ", " us:term : tactic => `(tactic| (
  refine ⟨$mv, $us, ?_, ?_, ?_, ?_, ?_, ?_, ?_, ?_, ?_, ?_⟩ <;>
    (try simp only [goto, spawn, run, back, pcm, hm, hp, Verif.Process.upd_apply, writes, reads, locks, sends, actor]) <;> grind [Pc.own, Pc.pend]))

set_option hygiene false in
/-- A step of a job that stays the main one. -/
macro "stays" : tactic => `(tactic| (
  obtain ⟨hm, hq, hr, hj, ⟨x, hx⟩, hdn⟩ := I.main hp rfl
  have hz := zero I hm
  simp only [hq, Pc.own, true_implies] at hz
  refine ⟨.stay ?_ ?_, fun _ => .main j rfl hm (by simp [writes, hp, hq, Pc.own]), ?_, ?_, ?_, ?_, ?_, ?_, ?_, ?_, ?_, ?_⟩ <;>
    (try simp only [goto, pcm, hm, hp, Verif.Process.upd_apply, writes, reads, locks, sends, actor]) <;> grind [Pc.own, Pc.pend]))

open Verif.Process in
theorem frame_job (hP : Untimed P) (I : Inv P n s) {j : Nat} (h : stepJob P n j s = .ok s') : Frame n s s' (.job j) := by
  have hnt := I.nt j
  cases hp : s.pc j
  case none => simp only [stepJob, hp] at h; cases h
  case timeout | timeout2 | inactive => rw [hp] at hnt; cases hnt
  case start =>
    simp only [stepJob, hp] at h
    split at h <;> cases h
    stays
  case loop =>
    simp only [stepJob, hp] at h
    split at h <;> cases h
    stays
  case pop =>
    have hfin : s.final = false := by
      rcases hf : s.final with _ | _
      · rfl
      · have := (I.fi hf).2.2.2.1
        rw [(I.main hp rfl).2.1] at this
        cases this
    simp only [stepJob, hp] at h
    split at h <;> cases h <;> stays
  case handle m =>
    simp only [stepJob, hp] at h
    (repeat' split at h) <;> cases h <;> stays
  case inErr =>
    simp only [stepJob, hp] at h
    (repeat' split at h) <;> cases h <;> stays
  case inAwait v =>
    simp only [stepJob, hp] at h
    (repeat' split at h) <;> cases h <;> stays
  case inClose m =>
    simp only [stepJob, hp] at h
    (repeat' split at h) <;> cases h <;> stays
  case inYield b =>
    simp only [stepJob, hp] at h
    (repeat' split at h) <;> cases h <;> stays
  case bcast b r =>
    simp only [stepJob, hp] at h
    cases h
    stays
  case send b r k =>
    simp only [stepJob, hp] at h
    split at h <;> cases h
    · obtain ⟨hm, hq, hr, hj, ⟨x, hx⟩, hdn⟩ := I.main hp rfl
      parts (.stay rfl (by simp [goto, pcm, hm, hp, Verif.Process.upd_apply, Pc.own])), (fun _ => .main j rfl hm (by simp [writes, hp, hq, Pc.own]))
    · obtain ⟨hm, hq, hr, hj, ⟨x, hx⟩, hdn⟩ := I.main hp rfl
      parts (.stay rfl (by simp [goto, pcm, hm, hp, Verif.Process.upd_apply, Pc.own])), (fun _ => .main j rfl hm (by simp [writes, hp, hq, Pc.own]))
  case later =>
    simp only [stepJob, hp] at h
    split at h
    · next hx' => obtain ⟨hm, hq, hr, hj, ⟨x, hx⟩, hdn⟩ := I.main hp rfl; rw [hx] at hx'; cases hx'
    · cases h; stays
  case own1 b =>
    simp only [stepJob, hp] at h
    split at h <;> cases h
    · obtain ⟨hm, hq, hr, hj, ⟨x, hx⟩, hdn⟩ := I.main hp rfl
      have hb : ∀ p : Pc, (back j b { s with main := none } : Verif.Process.St σ).main = none := by intro p; cases b <;> rfl
      have hl : locks n s (.job j) = some .own := by simp [locks, hp]
      rcases b with _ | _ | _ <;> parts (.done j rfl hm (hb .none) hl), (fun _ => .main j rfl hm (by simp [writes, hp, hq, Pc.own]))
    · obtain ⟨hm, hq, hr, hj, ⟨x, hx⟩, hdn⟩ := I.main hp rfl
      parts (.stay rfl (by simp [goto, pcm, hm, hp, Verif.Process.upd_apply, Pc.own])), (fun _ => .main j rfl hm (by simp [writes, hp, hq, Pc.own]))
  case own2 b =>
    obtain ⟨hm, hq, hr, hj, ⟨x, hx⟩, hdn⟩ := I.main hp rfl
    simp only [stepJob, hp, hx] at h
    cases h
    have hl : locks n s (.job j) = some .own := by simp [locks, hp]
    have ht : b ≠ .timeout := by rintro rfl; rw [hp] at hnt; cases hnt
    simp only [ctsCrit]
    split
    · split
      · rcases b with _ | _ | _
        · parts (.next j s.next rfl hm rfl (Nat.le_refl _) (Nat.lt_succ_self _) (.inr hl)), (fun _ => .main j rfl hm (by simp [writes, hp, hq, Pc.own]))
        · parts (.next j s.next rfl hm rfl (Nat.le_refl _) (Nat.lt_succ_self _) (.inr hl)), (fun _ => .main j rfl hm (by simp [writes, hp, hq, Pc.own]))
        · exact absurd rfl ht
      · rcases b with _ | _ | _
        · parts (.done j rfl hm rfl hl), (fun _ => .main j rfl hm (by simp [writes, hp, hq, Pc.own]))
        · parts (.done j rfl hm rfl hl), (fun _ => .main j rfl hm (by simp [writes, hp, hq, Pc.own]))
        · exact absurd rfl ht
    · rcases b with _ | _ | _
      · parts (.done j rfl hm rfl hl), (fun _ => .main j rfl hm (by simp [writes, hp, hq, Pc.own]))
      · parts (.done j rfl hm rfl hl), (fun _ => .main j rfl hm (by simp [writes, hp, hq, Pc.own]))
      · exact absurd rfl ht
  case decide =>
    simp only [stepJob, hp] at h
    split at h
    · cases h
    · split at h
      · cases h; stays
      · cases h; stays
      · cases h
        obtain ⟨hm, hq, hr, hj, ⟨x, hx⟩, hdn⟩ := I.main hp rfl
        parts (.next j s.next rfl hm rfl (Nat.le_refl _) (Nat.lt_succ_self _) (.inl (by rw [hq]; rfl))), (fun _ => .main j rfl hm (by simp [writes, hp, hq, Pc.own]))
      · cases h; stays
      · next hx => exact absurd hx (hP _)
  case taskDone =>
    obtain ⟨hm, hq, hr, hj, ⟨x, hx⟩, hdn⟩ := I.main hp rfl
    simp only [stepJob, hp] at h
    cases h
    have hl : locks n s (.job j) = some .own := by simp [locks, hp]
    by_cases hr : s.q ≠ [] ∨ s.closeQ = true
    · simp only [hr, decide_true, if_true]
      parts (.next j s.next rfl hm rfl (Nat.le_refl _) (Nat.lt_succ_self _) (.inr hl)), (fun _ => .main j rfl hm (by simp [writes, hp, hq, Pc.own]))
    · simp only [hr, decide_false, Bool.false_eq_true, if_false]
      parts (.done j rfl hm rfl hl), (fun _ => .main j rfl hm (by simp [writes, hp, hq, Pc.own]))
  case clear =>
    simp only [stepJob, hp] at h
    cases h
    obtain ⟨hf, hm⟩ := I.cl j hp
    parts (.stay rfl (fun h => absurd hm h)), (fun _ => .clear j rfl hp (by simp [goto, Verif.Process.upd_apply]) rfl hm hf)
  case unlock =>
    simp only [stepJob, hp] at h
    cases h
    have hm : s.main ≠ some j := fun hm => by have := (I.mn j).2 hm; rw [hp] at this; cases this
    have hq' : pcm (goto j .none { s with lock := none }) = pcm s := pcm_goto hm rfl rfl
    refine ⟨.stay rfl (fun _ h => by rwa [hq'] at h), fun h => by simp [writes, reads, hp] at h, ?_, ?_, ?_, ?_, ?_, ?_, ?_, .inl (by rw [hq']; rfl), ?_, ?_⟩ <;>
      (try simp only [goto, hp, Verif.Process.upd_apply, writes, reads, locks, sends, actor]) <;> grind
  case close2 =>
    simp only [stepJob, hp] at h
    cases h
    have hl : locks n s (.job j) = some .own := by simp [locks, hp]
    have hm : s.main ≠ some j := fun hm => by have := (I.mn j).2 hm; rw [hp] at this; cases this
    by_cases hr : s.ready = true ∧ s.running = false
    · simp only [hr, and_self, decide_true, if_true]
      have hm0 : s.main = none := by
        rcases hm : s.main with _ | i
        · rfl
        · have := I.rn (by simp [hm]); rw [hr.2] at this; cases this
      have hm := hm0
      parts (.wake s.next hm0 rfl (Nat.le_refl _) (Nat.lt_succ_self _) hl), (fun h => by simp [writes, reads, hp] at h)
    · simp only [hr, decide_false, Bool.false_eq_true, if_false]
      generalize hr' : (s.running || false) = rn
      have hq' : pcm (goto j .none { s with closeQ := true, running := rn }) = pcm s := pcm_goto hm rfl rfl
      refine ⟨.stay rfl (fun _ h => by rwa [hq'] at h), fun h => by simp [writes, reads, hp] at h, ?_, ?_, ?_, ?_, ?_, ?_, ?_, .inl (by rw [hq']; rfl), ?_, ?_⟩ <;>
        (try simp only [goto, hp, Verif.Process.upd_apply, writes, reads, locks, sends, actor]) <;> grind
  case ready2 =>
    simp only [stepJob, hp] at h
    cases h
    have hl : locks n s (.job j) = some .own := by simp [locks, hp]
    have hm : s.main ≠ some j := fun hm => by have := (I.mn j).2 hm; rw [hp] at this; cases this
    by_cases hr : (s.q ≠ [] ∨ s.closeQ = true) ∧ s.running = false
    · simp only [hr, and_self, decide_true, if_true]
      have hm0 : s.main = none := by
        rcases hm : s.main with _ | i
        · rfl
        · have := I.rn (by simp [hm]); rw [hr.2] at this; cases this
      have hm := hm0
      parts (.wake s.next hm0 rfl (Nat.le_refl _) (Nat.lt_succ_self _) hl), (fun h => by simp [writes, reads, hp] at h)
    · simp only [hr, decide_false, Bool.false_eq_true, if_false]
      generalize hr' : (s.running || false) = rn
      have hq' : pcm (goto j .none { s with running := rn }) = pcm s := pcm_goto hm rfl rfl
      refine ⟨.stay rfl (fun _ h => by rwa [hq'] at h), fun h => by simp [writes, reads, hp] at h, ?_, ?_, ?_, ?_, ?_, ?_, ?_, .inl (by rw [hq']; rfl), ?_, ?_⟩ <;>
        (try simp only [goto, hp, Verif.Process.upd_apply, writes, reads, locks, sends, actor]) <;> grind

set_option hygiene false in
/-- A step that is not one of a job and starts none. -/
macro "aside" : tactic => `(tactic| (
  refine ⟨.stay rfl (fun _ h => by rwa [hq'] at h), fun h => by simp [writes, reads] at h, ?_, ?_, ?_, ?_, ?_, ?_, ?_, .inl (by rw [hq'] <;> rfl), ?_, ?_⟩ <;>
    (try simp only [spawn, Verif.Process.upd_apply, writes, reads, locks, sends, actor]) <;> grind))

open Verif.Process in
theorem pcm_spawn (I : Inv P n s) {p : Pc} {s1 : Verif.Process.St σ} (h1 : s1.pc = s.pc) (h2 : s1.main = s.main) (h3 : s1.next = s.next) :
    pcm (spawn p s1) = pcm s := by
  simp only [pcm, spawn, h1, h2, h3]
  rcases hm : s.main with _ | i
  · rfl
  · simp only [Verif.Process.upd_apply]
    rw [if_neg]
    rintro rfl
    have := (I.mn _).2 hm
    rw [I.fr _ (Nat.le_refl _)] at this; cases this

open Verif.Process in
theorem frame (hP : Untimed P) (I : Inv P n s) {a : Verif.Process.Act} (h : Verif.Process.step P n s a = .ok s') : Frame n s s' a := by
  cases a with
  | job j => exact frame_job hP I h
  | fail j =>
    simp only [Verif.Process.step] at h
    split at h <;> cases h
    next hp =>
    obtain ⟨hm, hq, hr, hj, ⟨x, hx⟩, hdn⟩ := I.main hp rfl
    parts (.next j s.next rfl hm rfl (Nat.le_refl _) (Nat.lt_succ_self _) (.inl (by rw [hq]; rfl))), (fun _ => .main j rfl hm (by simp [writes, hp, hq, Pc.own]))
  | send m =>
    simp only [Verif.Process.step] at h
    split at h <;> cases h
    simp only [enqueue, I.ac, Bool.false_eq_true, or_false]
    split
    · next hr =>
      have hm : s.main = none := by
        rcases hm : s.main with _ | i
        · rfl
        · have := I.rn (by simp [hm]); rw [hr.2] at this; cases this
      have hp := True.intro
      parts (.wake s.next hm rfl (Nat.le_refl _) (Nat.lt_succ_self _) rfl), (fun h => by simp [writes, reads] at h)
    · have hq' : pcm { s with q := s.q ++ [m], inp := s.inp ++ [m], active := false } = pcm s := rfl
      aside
  | copySender =>
    simp only [Verif.Process.step] at h
    split at h <;> cases h
    have hq' : pcm { s with snd := s.snd + 1 } = pcm s := rfl
    aside
  | dropSender =>
    simp only [Verif.Process.step] at h
    split at h
    · cases h
    · split at h <;> cases h
      · have hq' : pcm (spawn .close2 { s with snd := 0 }) = pcm s := pcm_spawn I rfl rfl rfl
        have hfr := I.fr
        aside
      · have hq' : pcm { s with snd := s.snd - 1 } = pcm s := rfl
        aside
  | ready =>
    simp only [Verif.Process.step] at h
    split at h <;> cases h
    have hq' : pcm (spawn .ready2 { s with ready := true }) = pcm s := pcm_spawn I rfl rfl rfl
    aside
  | pop k =>
    simp only [Verif.Process.step] at h
    split at h
    · next q hq =>
      split at h <;> cases h
      have hq' : pcm { s with dq := Verif.Channel.upd s.dq k q, cts := Verif.Channel.upd s.cts k (if q = [] then Cts.first else Cts.none) } = pcm s := rfl
      aside
    · cases h
  | cts k =>
    simp only [Verif.Process.step] at h
    split at h
    · cases h
    · cases h
      have hq' : pcm { s with cts := Verif.Channel.upd s.cts k (if s.final then Cts.none else Cts.second) } = pcm s := rfl
      next hk =>
      refine ⟨.stay rfl (fun _ h => by rwa [hq'] at h), fun h => by simp [writes, reads, hk] at h, ?_, ?_, ?_, ?_, ?_, ?_, ?_, .inl (by rw [hq'] <;> rfl), ?_, ?_⟩ <;>
        (try simp only [Verif.Process.upd_apply, writes, reads, locks, sends, actor]) <;> grind
    · next hk =>
      split at h <;> cases h
      next x hx =>
      have hf : s.final = false := by
        rcases hf : s.final with _ | _
        · rfl
        · exact absurd hk ((I.fi hf).2.2.1 k)
      have hkn : k < n := by
        rcases Nat.lt_or_ge k n with h | h
        · exact h
        · have := (I.dn k h).2; rw [hk] at this; cases this
      have hdk : 1 ≤ due s k := by simp only [due, hk, Cts.busy]; omega
      have hsum : 1 ≤ sumTo n (due s) := by
        rcases Nat.eq_zero_or_pos (sumTo n (due s)) with h | h
        · have := sumTo_eq_zero h k hkn; omega
        · exact h
      have hu : s.main = none ∨ (pcm s).own = 1 := by
        rcases hm : s.main with _ | j
        · exact .inl rfl
        · right
          have h1 : (pcm s).own ≠ 0 := fun h => by have := I.ze (by simp [hm]) h k; omega
          have h2 : (pcm s).own ≤ 1 := by cases pcm s <;> simp [Pc.own]
          omega
      have hsp := I.sp hf
      have hp := True.intro
      simp only [ctsCrit]
      split
      · next h0 =>
        have hm : s.main = none := by
          rcases hu with h | h
          · exact h
          · omega
        split
        · parts (.wake s.next hm rfl (Nat.le_refl _) (Nat.lt_succ_self _) rfl), (fun _ => .recv k rfl (by simp [hk]) rfl rfl hf hu)
        · parts (.stay rfl (fun h => absurd hm h)), (fun _ => .recv k rfl (by simp [hk]) rfl rfl hf hu)
      · have hq' : pcm { s with cts := Verif.Channel.upd s.cts k Cts.none, susp := s.susp - 1 } = pcm s := rfl
        refine ⟨.stay rfl (fun _ h => by rwa [hq'] at h), fun _ => .recv k rfl (by simp [hk]) rfl rfl hf hu, ?_, ?_, ?_, ?_, ?_, ?_, ?_, .inl (by rw [hq'] <;> rfl), ?_, ?_⟩ <;>
          (try simp only [Verif.Process.upd_apply, writes, reads, locks, sends, actor]) <;> grind

end Verif.Sync.Process
