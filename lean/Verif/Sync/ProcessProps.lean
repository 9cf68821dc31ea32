import Verif.Sync.ProcessFrame
import Verif.Channel.ProcessTimedProps

/-!
# Happens-before in a process with `await` and `yield`
-/

namespace Verif.Sync.Process

open Verif.Process (Proc Pc Inv pcm due Untimed)

variable {σ : Type} {P : Proc σ} {n : Nat} {s s' : Verif.Process.St σ} {τ τ' : St σ}

structure HB (P : Proc σ) (n : Nat) (τ : St σ) : Prop where
  reach : Verif.Process.Reachable P n τ.s
  main : ∀ j, τ.s.main = some j → ∀ u ∈ τ.uses, (u.1 = true ∨ (pcm τ.s).own = 0) → leq u.2 (τ.vc (job j))
  both : ∀ j, τ.s.main = some j → ∀ u ∈ τ.uses, leq u.2 (τ.vc (job j)) ∨ leq u.2 (τ.mx .own)
  idle : τ.s.main = none → τ.s.proc ≠ none → ∀ u ∈ τ.uses, leq u.2 (τ.mx .own)
  clr : ∀ j, τ.s.pc j = .clear → ∀ u ∈ τ.uses, leq u.2 (τ.vc (job j))
  ord : τ.uses.Pairwise fun u v => u.1 = true ∨ v.1 = true → leq u.2 v.2
  dqW : ∀ k, τ.s.dq k ≠ [] → τ.s.final = false → ∀ u ∈ τ.uses, u.1 = true → leq u.2 (τ.mx (.recv k))
  dqY : ∀ k, τ.s.dq k ≠ [] → ∀ c ∈ τ.ylds, leq c (τ.mx (.recv k))
  ctW : ∀ k, τ.s.cts k ≠ .none → τ.s.final = false → ∀ u ∈ τ.uses, u.1 = true → leq u.2 (τ.vc (τ.thr k))
  ctY : ∀ k, τ.s.cts k ≠ .none → ∀ c ∈ τ.ylds, leq c (τ.vc (τ.thr k))
  even : ∀ k, τ.thr k % 2 = 0
  ylw : ∀ c ∈ τ.ylds, (true, c) ∈ τ.uses
  sent : ∀ c ∈ τ.sent, leq c (τ.mx .own)
  got : ∀ j, τ.s.main = some j → ∀ c ∈ τ.sent.take (τ.s.took.length + (pcm τ.s).pend.length), leq c (τ.vc (job j))
  len : τ.sent.length = τ.s.inp.length

theorem HB.init (P : Proc σ) (n : Nat) : HB P n (init P) where
  reach := .init
  main _ h := by cases h
  both _ h := by cases h
  idle _ _ _ h := by cases h
  clr _ h := by cases h
  ord := .nil
  dqW _ h := absurd rfl h
  dqY _ h := absurd rfl h
  ctW _ h := absurd rfl h
  ctY _ h := absurd rfl h
  even _ := rfl
  ylw _ h := by cases h
  sent _ h := by cases h
  got _ h := by cases h
  len := rfl

theorem clock_vc (τ : St σ) (w : Nat) (l : Option Mtx) : leq (τ.vc w) (clock τ w l) := by
  intro i
  simp only [clock, upd]
  split
  · next h => subst h; cases l <;> simp only [join] <;> omega
  · cases l <;> simp only [join] <;> omega

theorem clock_mx (τ : St σ) (w : Nat) (l : Mtx) : leq (τ.mx l) (clock τ w (some l)) := by
  intro i
  simp only [clock, upd, join]
  split
  · next h => subst h; omega
  · omega

theorem who_actor {a : Verif.Process.Act} {u x : Nat} {thr : Nat → Nat} (he : ∀ k, thr k % 2 = 0) : who thr a u = job x ↔ actor a = some x := by
  cases a <;> simp only [who, actor, job, other, Option.some.injEq, reduceCtorEq, iff_false] <;> try omega
  next k => have := he k; omega

/-- A step, with the clocks given by what is known about them. -/
theorem HB.proc (hP : Untimed P) (H : HB P n τ) {a : Verif.Process.Act} {c0 : Clock} {vc' : Nat → Clock} {mx' : Mtx → Clock} {thr' : Nat → Nat}
    (hs : Verif.Process.step P n τ.s a = .ok s')
    (hvc : ∀ x, x % 2 = 0 ∨ x / 2 < τ.s.next → leq (τ.vc x) (vc' x))
    (hact : ∀ j, actor a = some j → leq (τ.vc (job j)) c0 ∧ vc' (job j) = c0)
    (hnew : ∀ j, τ.s.next ≤ j → j < s'.next → vc' (job j) = c0)
    (hmx : ∀ m, leq (τ.mx m) (mx' m))
    (hlk : ∀ m, locks n τ.s a = some m → leq (τ.mx m) c0 ∧ mx' m = c0)
    (hthr : ∀ k, a ≠ .pop k → thr' k = τ.thr k)
    (hpop : ∀ k, a = .pop k → vc' (thr' k) = c0)
    (heven : ∀ k, thr' k % 2 = 0)
    (hcts : ∀ k, a = .cts k → leq (τ.vc (τ.thr k)) c0) :
    HB P n { s := s', vc := vc', mx := mx', thr := thr',
             uses := if writes τ.s a = true ∨ reads τ.s a = true then τ.uses ++ [(writes τ.s a, c0)] else τ.uses,
             sent := if sends a = true then τ.sent ++ [c0] else τ.sent,
             ylds := if s'.outs.length = τ.s.outs.length then τ.ylds else τ.ylds ++ [c0] } := by
  have I := Verif.Process.inv hP H.reach
  have R' := H.reach.step hs
  have I' := Verif.Process.inv hP R'
  have F := frame hP I hs
  have hlt : ∀ j, τ.s.pc j ≠ .none → j < τ.s.next := fun j h => by
    rcases Nat.lt_or_ge j τ.s.next with h1 | h1
    · exact h1
    · exact absurd (I.fr j h1) h
  have hmlt : ∀ j, τ.s.main = some j → j < τ.s.next := fun j h => hlt j (fun h' => by have := (I.mn j).2 h; rw [h'] at this; cases this)
  have hvj : ∀ j, j < τ.s.next → leq (τ.vc (job j)) (vc' (job j)) := fun j h => hvc _ (.inr (by simp only [job]; omega))
  -- a new use
  have huse : ∀ u ∈ (if writes τ.s a = true ∨ reads τ.s a = true then τ.uses ++ [(writes τ.s a, c0)] else τ.uses),
      u ∈ τ.uses ∨ (u = (writes τ.s a, c0) ∧ Using n τ.s s' a ∧ (writes τ.s a = true ∨ reads τ.s a = true)) := by
    intro u hu
    split at hu
    · next h =>
      rcases List.mem_append.1 hu with hu | hu
      · exact .inl hu
      · exact .inr ⟨List.mem_singleton.1 hu, F.use h, h⟩
    · exact .inl hu
  -- all that was known to the main thread and the mutex
  have hall : ∀ j, τ.s.main = some j → actor a = some j → ((pcm τ.s).own = 0 ∨ locks n τ.s a = some .own) → ∀ u ∈ τ.uses, leq u.2 c0 := by
    intro j hm ha ho u hu
    rcases ho with ho | ho
    · exact (H.main j hm u hu (.inr ho)).trans (hact j ha).1
    · rcases H.both j hm u hu with h | h
      · exact h.trans (hact j ha).1
      · exact h.trans (hlk _ ho).1
  have hyl : ∀ c ∈ (if s'.outs.length = τ.s.outs.length then τ.ylds else τ.ylds ++ [c0]),
      c ∈ τ.ylds ∨ (c = c0 ∧ s'.outs.length ≠ τ.s.outs.length) := by
    intro c hc
    split at hc
    · exact .inl hc
    · next h =>
      rcases List.mem_append.1 hc with hc | hc
      · exact .inl hc
      · exact .inr ⟨List.mem_singleton.1 hc, h⟩
  have hwr : ∀ u ∈ (if writes τ.s a = true ∨ reads τ.s a = true then τ.uses ++ [(writes τ.s a, c0)] else τ.uses), u.1 = true → s'.final = false →
      u ∈ τ.uses ∨ ∀ k, s'.dq k = [] ∧ s'.cts k = .none := by
    intro u hu hw hf
    rcases huse u hu with h | ⟨rfl, -, -⟩
    · exact .inl h
    · rcases F.wr hw with h | h
      · rw [hf] at h; cases h
      · exact .inr h
  -- what the new main thread knows
  have hmain' : ∀ j, s'.main = some j → τ.s.main ≠ some j →
      ∀ u ∈ (if writes τ.s a = true ∨ reads τ.s a = true then τ.uses ++ [(writes τ.s a, c0)] else τ.uses), leq u.2 (vc' (job j)) := by
    intro j hj hne u hu
    cases F.mv with
    | stay e _ => rw [e] at hj; exact absurd hj hne
    | next j0 j' ha hm hm' h1 h2 ho =>
      rw [hm'] at hj; cases hj
      rw [hnew _ h1 h2]
      rcases huse u hu with h | ⟨rfl, -, -⟩
      · exact hall j0 hm ha ho u h
      · exact leq.refl _
    | wake j' hm hm' h1 h2 ho =>
      rw [hm'] at hj; cases hj
      rw [hnew _ h1 h2]
      rcases huse u hu with h | ⟨rfl, -, -⟩
      · refine (H.idle hm (fun hp => ?_) u h).trans (hlk _ ho).1
        have := (I'.pr (F.pr hp)).2.1
        rw [hm'] at this; cases this
      · exact leq.refl _
    | done j0 _ _ hm' _ => rw [hm'] at hj; cases hj
  have hstay : ∀ j, s'.main = some j → τ.s.main = some j → (pcm s').own = 0 → (pcm τ.s).own = 0 := by
    intro j hj hm ho
    cases F.mv with
    | stay e h => exact h (by simp [hm]) ho
    | next j0 j' ha hm0 hm' h1 h2 _ =>
      have := hmlt _ hm
      rw [hm'] at hj; cases hj; omega
    | wake j' hm0 _ _ _ _ => rw [hm] at hm0; cases hm0
    | done j0 _ _ hm' _ => rw [hm'] at hj; cases hj
  refine ⟨R', fun j hj u hu hw => ?_, fun j hj u hu => ?_, fun hm' hpr u hu => ?_, fun j hj u hu => ?_, ?_, fun k hk hf u hu hw => ?_, fun k hk c hc => ?_,
    fun k hk hf u hu hw => ?_, fun k hk c hc => ?_, heven, fun c hc => ?_, fun c hc => ?_, fun j hj c hc => ?_, ?_⟩
  · -- main
    by_cases hm : τ.s.main = some j
    · rcases huse u hu with h | ⟨rfl, hU, -⟩
      · refine (H.main j hm u h ?_).trans (hvj j (hmlt j hm))
        rcases hw with hw | hw
        · exact .inl hw
        · exact .inr (hstay j hj hm hw)
      · cases hU with
        | main j0 ha hm0 _ =>
          rw [hm] at hm0; cases hm0
          show leq c0 (vc' (job j))
          rw [(hact j ha).2]; exact leq.refl _
        | clear j0 _ _ _ _ h _ => simp only at hj; rw [h] at hj; cases hj
        | recv k _ _ h1 _ _ h2 =>
          rcases hw with hw | hw
          · simp only at hw; rw [h1] at hw; cases hw
          · have := hstay j hj hm hw
            rcases h2 with h2 | h2
            · rw [hm] at h2; cases h2
            · omega
    · exact hmain' j hj hm u hu
  · -- both
    by_cases hm : τ.s.main = some j
    · rcases huse u hu with h | ⟨rfl, hU, -⟩
      · rcases H.both j hm u h with h | h
        · exact .inl (h.trans (hvj j (hmlt j hm)))
        · exact .inr (h.trans (hmx _))
      · cases hU with
        | main j0 ha hm0 _ =>
          rw [hm] at hm0; cases hm0
          left
          show leq c0 (vc' (job j))
          rw [(hact j ha).2]; exact leq.refl _
        | clear j0 _ _ _ _ h _ => simp only at hj; rw [h] at hj; cases hj
        | recv k _ _ _ hl _ _ =>
          right
          show leq c0 (mx' .own)
          rw [(hlk _ hl).2]; exact leq.refl _
    · exact .inl (hmain' j hj hm u hu)
  · -- idle
    simp only at hm' hpr hu ⊢
    have hp : τ.s.proc ≠ none := fun h => hpr (F.pr h)
    cases F.mv with
    | stay e _ =>
      have hm : τ.s.main = none := by rw [← e]; exact hm'
      rcases huse u hu with h | ⟨rfl, hU, -⟩
      · exact (H.idle hm hp u h).trans (hmx _)
      · cases hU with
        | main j0 ha hm0 _ => rw [hm] at hm0; cases hm0
        | clear j0 _ _ _ h _ _ => exact absurd h hpr
        | recv k _ _ _ hl _ _ => rw [(hlk _ hl).2]; exact leq.refl _
    | next j0 j' ha hm0 h _ _ _ => rw [h] at hm'; cases hm'
    | wake j' _ h _ _ _ => rw [h] at hm'; cases hm'
    | done j0 ha hm _ hl =>
      rw [(hlk _ hl).2]
      rcases huse u hu with h | ⟨rfl, -, -⟩
      · exact hall j0 hm ha (.inr hl) u h
      · exact leq.refl _
  · -- clear
    simp only at hj hu ⊢
    rcases F.clr j hj with h0 | ⟨ha, hm, ho⟩
    · obtain ⟨hf, hm⟩ := I.cl j h0
      rcases huse u hu with h | ⟨rfl, hU, -⟩
      · exact (H.clr j h0 u h).trans (hvj j (hlt j (by rw [h0]; simp)))
      · cases hU with
        | main j0 ha hm0 _ => rw [hm] at hm0; cases hm0
        | clear j0 ha h1 h2 _ _ _ =>
          have h3 := (I.lk j).1 (by rw [h0]; rfl)
          have h4 := (I.lk j0).1 (by rw [h1]; rfl)
          rw [h3] at h4; cases h4
          exact absurd hj h2
        | recv k _ _ _ _ h _ => rw [hf] at h; cases h
    · rw [(hact j ha).2]
      rcases huse u hu with h | ⟨rfl, -, -⟩
      · exact hall j hm ha (.inl ho) u h
      · exact leq.refl _
  · -- order
    simp only
    split
    · next hU =>
      refine List.pairwise_append.2 ⟨H.ord, by simp, fun u hu v hv hw => ?_⟩
      rw [List.mem_singleton] at hv
      subst hv
      simp only at hw ⊢
      cases F.use hU with
      | main j ha hm ho =>
        refine (H.main j hm u hu ?_).trans (hact j ha).1
        rcases hw with hw | hw
        · exact .inl hw
        · exact .inr (ho hw)
      | clear j ha h1 _ _ _ _ => exact (H.clr j h1 u hu).trans (hact j ha).1
      | recv k ha hk h1 _ hf _ =>
        have hw : u.1 = true := by
          rcases hw with hw | hw
          · exact hw
          · rw [h1] at hw; cases hw
        exact (H.ctW k hk hf u hu hw).trans (hcts k ha)
    · exact H.ord
  · -- the queues downstream
    simp only at hk hf hu ⊢
    rcases hwr u hu hw hf with h | h
    · rcases F.dq k hk with h1 | ⟨⟨j, ha, hm⟩, hl⟩
      · exact (H.dqW k h1 (F.fi hf) u h hw).trans (hmx _)
      · rw [(hlk _ hl).2]; exact (H.main j hm u h (.inl hw)).trans (hact j ha).1
    · exact absurd (h k).1 hk
  · simp only at hk hc ⊢
    rcases hyl c hc with h | ⟨rfl, h⟩
    · rcases F.dq k hk with h1 | ⟨⟨j, ha, hm⟩, hl⟩
      · exact (H.dqY k h1 c h).trans (hmx _)
      · rw [(hlk _ hl).2]; exact (H.main j hm _ (H.ylw c h) (.inl rfl)).trans (hact j ha).1
    · exact absurd ((F.yl h).2 k).1 hk
  · -- the threads downstream
    simp only at hk hf hu ⊢
    rcases hwr u hu hw hf with h | h
    · rcases F.ct k hk with ⟨h1, h2⟩ | ⟨rfl, h1⟩
      · rw [hthr k h2]; exact (H.ctW k h1 (F.fi hf) u h hw).trans (hvc _ (.inl (H.even k)))
      · rw [hpop k rfl]; exact (H.dqW k h1 (F.fi hf) u h hw).trans (hlk (.recv k) rfl).1
    · exact absurd (h k).2 hk
  · simp only at hk hc ⊢
    rcases hyl c hc with h | ⟨rfl, h⟩
    · rcases F.ct k hk with ⟨h1, h2⟩ | ⟨rfl, h1⟩
      · rw [hthr k h2]; exact (H.ctY k h1 c h).trans (hvc _ (.inl (H.even k)))
      · rw [hpop k rfl]; exact (H.dqY k h1 c h).trans (hlk (.recv k) rfl).1
    · exact absurd ((F.yl h).2 k).2 hk
  · -- results
    simp only at hc ⊢
    rcases hyl c hc with h | ⟨rfl, h⟩
    · split
      · exact List.mem_append_left _ (H.ylw c h)
      · exact H.ylw c h
    · have := (F.yl h).1
      rw [if_pos (.inl this), this]
      simp
  · -- messages
    simp only at hc ⊢
    split at hc
    · next h =>
      rcases List.mem_append.1 hc with hc | hc
      · exact (H.sent c hc).trans (hmx _)
      · rw [List.mem_singleton.1 hc, (hlk _ (F.snd h)).2]; exact leq.refl _
    · exact (H.sent c hc).trans (hmx _)
  · simp only at hj hc ⊢
    have hle : τ.s.took.length + (pcm τ.s).pend.length ≤ τ.sent.length := by
      have := congrArg List.length I.hi
      simp only [List.length_append] at this
      rw [H.len]; omega
    rcases F.tk with h | ⟨hl, ⟨j0, ha, hm⟩, hm'⟩
    · rw [h] at hc
      have hc : c ∈ τ.sent.take (τ.s.took.length + (pcm τ.s).pend.length) := by
        split at hc
        · rwa [List.take_append_of_le_length hle] at hc
        · exact hc
      cases F.mv with
      | stay e _ => rw [e] at hj; exact (H.got j hj c hc).trans (hvj j (hmlt j hj))
      | next j0 j' ha hm0 h h1 h2 _ =>
        rw [h] at hj; cases hj
        rw [hnew _ h1 h2]; exact (H.got j0 hm0 c hc).trans (hact j0 ha).1
      | wake j' _ h h1 h2 hl =>
        rw [h] at hj; cases hj
        rw [hnew _ h1 h2]; exact (H.sent c (List.mem_of_mem_take hc)).trans (hlk _ hl).1
      | done j0 _ _ h _ => rw [h] at hj; cases hj
    · rw [hm', hm] at hj; cases hj
      have hns : sends a = false := by cases a <;> first | rfl | cases ha
      rw [hns] at hc
      simp only [Bool.false_eq_true, if_false] at hc
      rw [(hact j ha).2]
      exact (H.sent c (List.mem_of_mem_take hc)).trans (hlk _ hl).1
  · simp only
    rw [F.inp]
    split
    · next h => rw [List.length_append, H.len]; rfl
    · rw [H.len]; rfl

theorem HB.step (hP : Untimed P) (H : HB P n τ) {a : Act} (h : step P n τ a = some τ') : HB P n τ' := by
  cases a with
  | sync t t' =>
    cases h
    have hv : ∀ x, leq (τ.vc x) (upd τ.vc t' (join (τ.vc t') (τ.vc t)) x) := fun x => leq_acquire τ.vc t' x (τ.vc t)
    exact ⟨H.reach, fun j h u hu hw => (H.main j h u hu hw).trans (hv _), fun j h u hu => (H.both j h u hu).imp (·.trans (hv _)) id, H.idle,
      fun j h u hu => (H.clr j h u hu).trans (hv _), H.ord, H.dqW, H.dqY, fun k h hf u hu hw => (H.ctW k h hf u hu hw).trans (hv _),
      fun k h c hc => (H.ctY k h c hc).trans (hv _), H.even, H.ylw, H.sent, fun j h c hc => (H.got j h c hc).trans (hv _), H.len⟩
  | proc a u =>
    simp only [Process.step] at h
    split at h
    · next s' hs =>
      cases h
      refine HB.proc hP H hs ?_ ?_ ?_ ?_ ?_ ?_ ?_ ?_ ?_
      · intro x hx
        split
        · next h =>
          rcases h with rfl | ⟨h1, h2, _⟩
          · exact clock_vc _ _ _
          · omega
        · exact leq.refl _
      · intro j ha
        have := (who_actor (u := u) H.even).2 ha
        refine ⟨by rw [← this]; exact clock_vc _ _ _, ?_⟩
        rw [if_pos (.inl this.symm)]
      · intro j h1 h2
        rw [if_pos (.inr (by simp only [job]; omega))]
      · intro m
        split
        · next h => rw [h]; exact clock_mx _ _ _
        · exact leq.refl _
      · intro m hm
        rw [if_pos hm, hm]
        exact ⟨clock_mx _ _ _, rfl⟩
      · intro k hk
        cases a with
        | pop k' =>
          show upd τ.thr k' _ k = _
          rw [upd_ne]
          rintro rfl; exact hk rfl
        | _ => rfl
      · rintro k rfl
        simp only [upd_same]
        simp
      · intro k
        cases a with
        | pop k' =>
          show upd τ.thr k' _ k % 2 = 0
          by_cases hk : k = k'
          · subst hk; rw [upd_same]; simp only [who, other]; omega
          · rw [upd_ne _ _ hk]; exact H.even k
        | _ => exact H.even k
      · rintro k rfl
        exact clock_vc _ _ _
    · cases h

theorem Reachable.hb (hP : Untimed P) (r : Reachable P n τ) : HB P n τ := by
  induction r with
  | init => exact HB.init P n
  | step a _ h ih => exact ih.step hP h

/-- **C114**: of any two uses of the process object and the list of receivers of which one may change them, the earlier one happens before the later one. The
uses are the calls of `await`, `yield`, `close`, `set_error` and `state`, also those of `state` by the receivers, sending the results and the destruction. -/
theorem c114_uses_ordered (hP : Untimed P) (r : Reachable P n τ) : τ.uses.Pairwise fun u v => u.1 = true ∨ v.1 = true → leq u.2 v.2 := (r.hb hP).ord

/-- **C114**: when a job is about to use the process object or the receivers, all former changes happened before, and if it may change them, all former uses. -/
theorem c114_access (hP : Untimed P) (r : Reachable P n τ) {j : Nat} {a : Verif.Process.Access} (h : Verif.Process.accesses τ.s (.thread j) a) :
    ∀ u ∈ τ.uses, u.1 = true ∨ a.write = true → leq u.2 (τ.vc (job j)) := by
  have H := r.hb hP
  intro u hu hw
  rcases Verif.Process.accesses_thread (Verif.Process.inv hP H.reach) h with ⟨h1, h2⟩ | h1
  · exact H.main j h1 u hu (hw.imp id h2)
  · exact H.clr j h1 u hu

/-- **C114**: when a receiver is about to ask for the state of the process in `clear_to_send`, which is done without a lock (line 837), all changes of the
process object happened before. -/
theorem c114_receiver (hP : Untimed P) (r : Reachable P n τ) {k : Nat} {a : Verif.Process.Access} (h : Verif.Process.accesses τ.s (.receiver k) a) :
    a.write = false ∧ ∀ u ∈ τ.uses, u.1 = true → leq u.2 (τ.vc (τ.thr k)) := by
  have H := r.hb hP
  have I := Verif.Process.inv hP H.reach
  obtain ⟨h1, rfl⟩ := h
  refine ⟨rfl, H.ctW k (by rw [h1]; simp) ?_⟩
  rcases hf : τ.s.final with _ | _
  · rfl
  · exact absurd h1 ((I.fi hf).2.2.1 k)

/-- **C114**: when a message is about to be given to the process object, the sending of it happened before. -/
theorem c114_message (hP : Untimed P) (r : Reachable P n τ) {j : Nat} {m : Verif.Channel.Msg} (h : τ.s.pc j = .handle m) :
    ∃ c, τ.s.inp[τ.s.took.length]? = some m ∧ τ.sent[τ.s.took.length]? = some c ∧ leq c (τ.vc (job j)) := by
  have H := r.hb hP
  have I := Verif.Process.inv hP H.reach
  obtain ⟨hm, hq, -⟩ := I.main h rfl
  have hi := I.hi
  rw [hq] at hi
  simp only [Pc.pend, List.append_assoc, List.singleton_append] at hi
  have hl : τ.s.took.length < τ.sent.length := by rw [H.len, hi]; simp
  refine ⟨τ.sent[τ.s.took.length], by rw [hi]; simp, List.getElem?_eq_getElem hl, ?_⟩
  refine H.got j hm _ (List.mem_take_iff_getElem.2 ⟨τ.s.took.length, ?_, rfl⟩)
  rw [hq]
  simp only [Pc.pend, List.length_singleton]
  omega

/-- **C114**: when a receiver has taken a result, all calls that gave results up to this one happened before. -/
theorem c114_result (hP : Untimed P) (r : Reachable P n τ) {k : Nat} (h : τ.s.cts k ≠ .none) : ∀ c ∈ τ.ylds, leq c (τ.vc (τ.thr k)) := (r.hb hP).ctY k h

/-- **C114**: every execution of the process is one with clocks, whatever threads take the steps around it. -/
theorem c114_all_executions {as : List Verif.Process.Act} (h : Verif.Process.exec P n (Verif.Process.init P) as = some s) (u : Nat → Nat) :
    ∃ τ, Reachable P n τ ∧ τ.s = s := by
  suffices ∀ (as : List Verif.Process.Act) (τ : St σ) (i : Nat), Reachable P n τ → Verif.Process.exec P n τ.s as = some s → ∃ τ', Reachable P n τ' ∧ τ'.s = s from
    this as (init P) 0 .init h
  intro as
  induction as with
  | nil => intro τ i r e; cases e; exact ⟨τ, r, rfl⟩
  | cons a as ih =>
    intro τ i r e
    simp only [Verif.Process.exec] at e
    split at e
    · next s1 h1 =>
      have : ∃ τ1, Process.step P n τ (.proc a (u i)) = some τ1 ∧ τ1.s = s1 := by
        simp only [Process.step, h1]
        exact ⟨_, rfl, rfl⟩
      obtain ⟨τ1, g1, g2⟩ := this
      exact ih τ1 (i + 1) (.step _ r g1) (by rw [g2]; exact e)
    · cases e

theorem exec_reach {as : List Act} {τ'' : St σ} (r : Reachable P n τ) (h : exec P n τ as = some τ'') : Reachable P n τ'' := by
  induction as generalizing τ with
  | nil => cases h; exact r
  | cons a as ih =>
    obtain ⟨τ1, h1, h2⟩ := Option.bind_eq_some_iff.mp h
    exact ih (.step _ r h1) h2

theorem witness {as : List Act} (Q : St σ → Bool) (he : (exec P n (init P) as).any Q = true) : ∃ τ, Reachable P n τ ∧ Q τ = true := by
  cases h : exec P n (init P) as with
  | none => rw [h] at he; cases he
  | some s => rw [h] at he; exact ⟨s, exec_reach .init h, he⟩

open Verif.Process (pairs jobs)

/-- The second message is about to be given to the process object, which has been used four times by job 1; thread 0 sent both. -/
example : Untimed pairs ∧ ∃ τ, Reachable pairs 2 τ ∧ τ.s.pc 1 = .handle (.val 4) ∧ τ.uses.map Prod.fst = [false, false, true, false] ∧
    τ.sent.map (fun c => c (other 0)) = [2, 3] ∧ τ.vc (job 1) (other 0) = 3 := by
  refine ⟨Verif.Process.pairs_untimed, ?_⟩
  obtain ⟨τ, h, hp⟩ := witness (P := pairs) (n := 2)
    (as := ([.ready, .job 0, .send (.val 3), .send (.val 4)] ++ jobs 1 7 : List Verif.Process.Act).map (.proc · 0))
    (fun τ => τ.s.pc 1 = .handle (.val 4) ∧ τ.uses.map Prod.fst = [false, false, true, false] ∧
      τ.sent.map (fun c => c (other 0)) = [2, 3] ∧ τ.vc (job 1) (other 0) = 3) (by decide)
  exact ⟨τ, h, of_decide_eq_true hp⟩

/-- Thread 5 took the result out of the queue of receiver 0 and is about to ask for the state of the process, while job 1 sends the result to receiver 1. -/
example : ∃ τ, Reachable pairs 2 τ ∧ Verif.Process.accesses τ.s (.receiver 0) ⟨.process, false, false⟩ ∧ τ.s.pc 1 = .send .step (.val 7) 1 ∧
    τ.thr 0 = other 5 ∧ τ.ylds.map (fun c => c (job 1)) = [12] ∧ 12 ≤ τ.vc (other 5) (job 1) := by
  obtain ⟨τ, h, hp⟩ := witness (P := pairs) (n := 2)
    (as := (([.ready, .job 0, .send (.val 3), .send (.val 4)] ++ jobs 1 14 ++ [.pop 0, .cts 0] : List Verif.Process.Act)).map (.proc · 5))
    (fun τ => τ.s.cts 0 = .second ∧ τ.s.pc 1 = .send .step (.val 7) 1 ∧ τ.thr 0 = other 5 ∧ τ.ylds.map (fun c => c (job 1)) = [12] ∧
      12 ≤ τ.vc (other 5) (job 1)) (by decide)
  have hp := of_decide_eq_true hp
  exact ⟨τ, h, ⟨hp.1, rfl⟩, hp.2⟩

open Verif.Process (timed waiting) in
/-- With a time-out the order is lost: a receiver asks for the state of the process while it is in `await`, and neither happens before the other (reported as
C67 and C74). -/
example : ∃ τ, Reachable timed 1 τ ∧ ∃ u v, u ∈ τ.uses ∧ v ∈ τ.uses ∧ u.1 = true ∧ ¬ leq u.2 v.2 ∧ ¬ leq v.2 u.2 := by
  obtain ⟨τ, h, hp⟩ := witness (P := timed) (n := 1)
    (as := (waiting ++ [.send (.val 2), .send (.val 2)] ++ jobs 3 14 ++ jobs 4 4 ++ [.pop 0, .cts 0, .job 4, .cts 0] : List Verif.Process.Act).map (.proc · 5))
    (fun τ => τ.uses.any fun u => τ.uses.any fun v => u.1 && decide (v.2 (job 4) < u.2 (job 4)) && decide (u.2 (other 5) < v.2 (other 5))) (by decide)
  simp only [List.any_eq_true, Bool.and_eq_true, decide_eq_true_eq] at hp
  obtain ⟨u, hu, v, hv, ⟨h0, h1⟩, h2⟩ := hp
  exact ⟨τ, h, u, v, hu, hv, h0, fun hl => by have := hl (job 4); omega, fun hl => by have := hl (other 5); omega⟩

end Verif.Sync.Process
