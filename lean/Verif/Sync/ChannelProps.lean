import Verif.Sync.Channel
import Verif.Channel.Term
import Verif.Channel.Counter

/-!
# Happens-before in networks of channels: properties (C113)
-/

namespace Verif.Sync.Channel

open Verif.Channel (Net Pc Inv fromSlot)

variable {G : Net} {s s' : Verif.Channel.St} {σ σ' : St}

/-- The job that takes the step. -/
def actor : Verif.Channel.Act → Option Nat
  | .job j => some j
  | .ret j _ => some j
  | _ => none

/-- What a step does to the jobs. -/
structure Frame (G : Net) (s s' : Verif.Channel.St) (a : Verif.Channel.Act) : Prop where
  other : ∀ x, actor a ≠ some x → x < s.next → s'.pc x = s.pc x
  same : ∀ x i, actor a = some x → (s'.pc x).of = some i → (s.pc x).of = some i
  fresh : ∀ x i, s.next ≤ x → (s'.pc x).of = some i → locks G s a = some i ∧ x < s'.next ∧ s'.pc x = .pop i
  leave : ∀ x i, actor a = some x → (s.pc x).of = some i → (s'.pc x).of ≠ some i → locks G s a = some i
  clr : ∀ i y, s'.clr i = some y → s.clr i = some y ∨ (actor a = some y ∧ (s.pc y).of = some i)
  clr' : ∀ i y, s.clr i = some y → s'.clr i = some y
  le : s.next ≤ s'.next
  lt : ∀ x, actor a = some x → x < s.next
  pops : ∀ i, s'.pops i ≠ s.pops i → ∃ x, actor a = some x ∧ s.pc x = .pop i
  pop : ∀ x i, actor a = some x → s'.pc x ≠ .pop i
  popped : ∀ x i, actor a = some x → (s'.pc x).of = some i → s.pc x = .pop i → locks G s a = some i

/-- At most a job of process `l` is added. -/
structure Sub (s s' : Verif.Channel.St) (l : Option Nat) : Prop where
  pc : (s'.pc = s.pc ∧ s'.next = s.next) ∨ ∃ i, l = some i ∧ s'.pc = Verif.Channel.upd s.pc s.next (.pop i) ∧ s'.next = s.next + 1
  clr : s'.clr = s.clr
  pops : s'.pops = s.pops

theorem Sub.refl (s : Verif.Channel.St) (l : Option Nat) : Sub s s l := ⟨.inl ⟨rfl, rfl⟩, rfl, rfl⟩

theorem Sub.run (i : Nat) (s : Verif.Channel.St) : Sub s (Verif.Channel.run i s) (some i) := ⟨.inr ⟨i, rfl, rfl, rfl⟩, rfl, rfl⟩

theorem Sub.enqueue (i k : Nat) (m : Verif.Channel.Msg) (s : Verif.Channel.St) : Sub s (Verif.Channel.enqueue i k m s) (some i) := by
  simp only [Verif.Channel.enqueue]
  split
  · exact ⟨.inr ⟨i, rfl, rfl, rfl⟩, rfl, rfl⟩
  · exact ⟨.inl ⟨rfl, rfl⟩, rfl, rfl⟩

theorem Sub.cts (i : Nat) (c : Verif.Channel.Credit) (s : Verif.Channel.St) : Sub s (Verif.Channel.ctsCrit G i c s) (some i) := by
  simp only [Verif.Channel.ctsCrit]
  split
  · split
    · exact ⟨.inr ⟨i, rfl, rfl, rfl⟩, rfl, rfl⟩
    · exact ⟨.inl ⟨rfl, rfl⟩, rfl, rfl⟩
  · exact ⟨.inl ⟨rfl, rfl⟩, rfl, rfl⟩

/-- A step of job `j`. -/
theorem frame_job (I : Inv G s) {j : Nat} {p : Pc} {s1 : Verif.Channel.St} (hj : s.pc j ≠ .none)
    (hpc : (s1.pc = s.pc ∧ s1.next = s.next) ∨
      ∃ i, locks G s (.job j) = some i ∧ s1.pc = Verif.Channel.upd s.pc s.next (.pop i) ∧ s1.next = s.next + 1)
    (hc : ∀ i, s1.clr i = s.clr i ∨ (s1.clr i = some j ∧ (s.pc j).of = some i))
    (hps : ∀ i, s1.pops i ≠ s.pops i → s.pc j = .pop i)
    (ho : p.of = (s.pc j).of ∨ (p.of = none ∧ ∀ i, (s.pc j).of = some i → locks G s (.job j) = some i))
    (hp : ∀ i, p ≠ .pop i) : Frame G s (Verif.Channel.goto j p s1) (.job j) := by
  have hlt : j < s.next := by
    rcases Nat.lt_or_ge j s.next with h | h
    · exact h
    · exact absurd (I.fr j h) hj
  refine ⟨fun x hx hn => ?_, fun x i hx h => ?_, fun x i hx h => ?_, fun x i hx h h' => ?_, fun i y h => ?_, fun i y h => ?_, ?_, fun x hx => ?_, fun i h => ?_,
    fun x i hx => ?_, fun x i hx h h' => ?_⟩
  · have hne : x ≠ j := fun h => hx (by rw [h]; rfl)
    simp only [Verif.Channel.goto, Verif.Channel.upd, hne, if_false]
    rcases hpc with h | ⟨i, -, h, -⟩
    · rw [h.1]
    · rw [h]; simp only [Verif.Channel.upd]; rw [if_neg (by omega)]
  · simp only [actor, Option.some.injEq] at hx
    subst hx
    simp only [Verif.Channel.goto, Verif.Channel.upd, if_true] at h
    rcases ho with ho | ho
    · rw [← ho]; exact h
    · rw [ho.1] at h; cases h
  · have hne : x ≠ j := by omega
    simp only [Verif.Channel.goto, Verif.Channel.upd, hne, if_false] at h ⊢
    rcases hpc with g | ⟨i', g0, g, g1⟩
    · rw [g.1, I.fr x hx] at h; cases h
    · rw [g] at h
      rw [g1, g]
      simp only [Verif.Channel.upd] at h ⊢
      split at h
      · next hxn =>
        simp only [Pc.of, Option.some.injEq] at h
        subst h
        exact ⟨g0, by omega, by rw [if_pos hxn]⟩
      · rw [I.fr x hx] at h; cases h
  · simp only [actor, Option.some.injEq] at hx
    subst hx
    simp only [Verif.Channel.goto, Verif.Channel.upd, if_true] at h'
    rcases ho with ho | ho
    · rw [ho] at h'; exact absurd h h'
    · exact ho.2 i h
  · have h : s1.clr i = some y := h
    rcases hc i with g | g
    · rw [g] at h; exact .inl h
    · rw [g.1, Option.some.injEq] at h; subst h; exact .inr ⟨rfl, g.2⟩
  · show s1.clr i = some y
    rcases hc i with g | g
    · rw [g]; exact h
    · have h1 := (I.mn i j).1 g.2
      rcases I.dn i with d | d
      · rw [d.2] at h; cases h
      · rw [d.2.2] at h1; cases h1
  · show s.next ≤ s1.next
    rcases hpc with g | ⟨_, _, _, g⟩ <;> omega
  · simp only [actor, Option.some.injEq] at hx
    omega
  · exact ⟨j, rfl, hps i h⟩
  · simp only [actor, Option.some.injEq] at hx
    subst hx
    simp only [Verif.Channel.goto, Verif.Channel.upd, if_true]
    exact hp i
  · simp only [actor, Option.some.injEq] at hx
    subst hx
    simp only [locks, h']

theorem frame_sub (I : Inv G s) {j : Nat} {p : Pc} {s1 : Verif.Channel.St} (hj : s.pc j ≠ .none) (h : Sub s s1 (locks G s (.job j)))
    (ho : p.of = (s.pc j).of ∨ (p.of = none ∧ ∀ i, (s.pc j).of = some i → locks G s (.job j) = some i))
    (hp : ∀ i, p ≠ .pop i) : Frame G s (Verif.Channel.goto j p s1) (.job j) :=
  frame_job I hj h.pc (fun i => .inl (by rw [h.clr])) (fun i h' => absurd (by rw [h.pops]) h') ho hp

/-- A step of no job. -/
theorem frame_user (I : Inv G s) {a : Verif.Channel.Act} (ha : actor a = none) (h : Sub s s' (locks G s a)) : Frame G s s' a := by
  refine ⟨fun x hx hn => ?_, fun x i hx h => ?_, fun x i hx h' => ?_, fun x i hx => ?_, fun i y h' => .inl (h.clr ▸ h'), fun i y h' => h.clr ▸ h', ?_, fun x hx => ?_,
    fun i h' => absurd (by rw [h.pops]) h', fun x i hx => ?_, fun x i hx => ?_⟩
  · rcases h.pc with g | ⟨i, -, g, -⟩
    · rw [g.1]
    · rw [g]; simp only [Verif.Channel.upd]; rw [if_neg (by omega)]
  · rw [ha] at hx; cases hx
  · rcases h.pc with g | ⟨i', g0, g, g1⟩
    · rw [g.1, I.fr x hx] at h'; cases h'
    · rw [g] at h'
      rw [g1, g]
      simp only [Verif.Channel.upd] at h' ⊢
      split at h'
      · next hxn =>
        simp only [Pc.of, Option.some.injEq] at h'
        subst h'
        exact ⟨g0, by omega, by rw [if_pos hxn]⟩
      · rw [I.fr x hx] at h'; cases h'
  · rw [ha] at hx; cases hx
  · rcases h.pc with g | ⟨_, _, _, g⟩ <;> omega
  · rw [ha] at hx; cases hx
  · rw [ha] at hx; cases hx
  · rw [ha] at hx; cases hx

/-- A job that continues the call of a user is added. -/
theorem frame_more (I : Inv G s) {a : Verif.Channel.Act} (ha : actor a = none) {p : Pc} (hp : p.of = none)
    (h1 : s'.pc = Verif.Channel.upd s.pc s.next p) (h2 : s'.next = s.next + 1) (h3 : s'.clr = s.clr) (h4 : s'.pops = s.pops) : Frame G s s' a := by
  refine ⟨fun x hx hn => ?_, fun x i hx h => ?_, fun x i hx h' => ?_, fun x i hx => ?_, fun i y h' => .inl (h3 ▸ h'), fun i y h' => h3 ▸ h', by omega, fun x hx => ?_,
    fun i h' => absurd (by rw [h4]) h', fun x i hx => ?_, fun x i hx => ?_⟩
  · rw [h1]; simp only [Verif.Channel.upd]; rw [if_neg (by omega)]
  · rw [ha] at hx; cases hx
  · rw [h1] at h'
    simp only [Verif.Channel.upd] at h'
    split at h'
    · rw [hp] at h'; cases h'
    · rw [I.fr x hx] at h'; cases h'
  all_goals (rw [ha] at hx; cases hx)

theorem frame (I : Inv G s) {a : Verif.Channel.Act} (h : Verif.Channel.step G s a = some s') : Frame G s s' a := by
  cases a with
  | job j =>
    simp only [Verif.Channel.step, Verif.Channel.stepJob] at h
    split at h
    all_goals try (cases h; done)
    · next i hj =>
      cases h
      simp only [Verif.Channel.popCrit]
      split
      · exact frame_job I (by simp [hj]) (.inl ⟨rfl, rfl⟩) (fun _ => .inl rfl) (fun _ h => absurd rfl h) (.inl (by simp [hj, Pc.of])) (by simp)
      · refine frame_job I (by simp [hj]) (.inl ⟨rfl, rfl⟩) (fun _ => .inl rfl) (fun i' h => ?_) (.inl (by simp [hj, Pc.of])) (by simp)
        simp only [Verif.Channel.upd] at h
        split at h
        · next e => rw [hj, e]
        · exact absurd rfl h
    · next i m hj =>
      cases h
      refine frame_sub I (by simp [hj]) (Sub.refl _ _) (.inl ?_) ?_
      · rw [hj]; split <;> rfl
      · split <;> simp
    · next i hj => cases h; exact frame_sub I (by simp [hj]) (Sub.refl _ _) (.inl (by simp [hj, Pc.of])) (by simp)
    · next i k ks m hj =>
      split at h <;> cases h
      · refine frame_sub I (by simp [hj]) (Sub.refl _ _) (.inl ?_) ?_
        · rw [hj]; split <;> rfl
        · split <;> simp
      · exact frame_sub I (by simp [hj]) (Sub.refl _ _) (.inl (by simp [hj, Pc.of])) (by simp)
    · next i k ks m hj =>
      split at h <;> cases h
      · next u hu =>
        refine frame_sub I (by simp [hj]) ?_ (.inl (by simp [hj, Pc.of])) (by simp)
        have : locks G s (.job j) = some u := by simp [locks, hj, hu]
        rw [this]
        exact Sub.cts u _ s
      · exact frame_sub I (by simp [hj]) (Sub.refl _ _) (.inl (by simp [hj, Pc.of])) (by simp)
    · next i m hj => cases h; exact frame_sub I (by simp [hj]) (Sub.refl _ _) (.inl (by simp [hj, Pc.of])) (by simp)
    · next i m hj =>
      cases h
      exact frame_job I (by simp [hj]) (.inl ⟨rfl, rfl⟩) (fun _ => .inl rfl) (fun _ h => absurd rfl h) (.inl (by simp [hj, Pc.of])) (by simp)
    · next i r hj =>
      cases h
      refine frame_sub I (by simp [hj]) (Sub.refl _ _) (.inl ?_) ?_
      · rw [hj]; split <;> rfl
      · split <;> simp
    · next i r acc hj => cases h; exact frame_sub I (by simp [hj]) (Sub.refl _ _) (.inl (by simp [hj, Pc.of])) (by simp)
    · next i r e es acc hj => cases h; exact frame_sub I (by simp [hj]) (Sub.refl _ _) (.inl (by simp [hj, Pc.of])) (by simp)
    · next i r b hj =>
      cases h
      exact frame_job I (by simp [hj]) (.inl ⟨rfl, rfl⟩) (fun _ => .inl rfl) (fun _ h => absurd rfl h) (.inl (by simp [hj, Pc.of])) (by simp)
    · next i r e es hj =>
      cases h
      refine frame_sub I (by simp [hj]) ?_ (.inl (by simp [hj, Pc.of])) (by simp)
      have : locks G s (.job j) = some e.1 := by simp [locks, hj]
      rw [this]
      exact Sub.enqueue _ _ _ s
    · next i r hj => cases h; exact frame_sub I (by simp [hj]) (Sub.refl _ _) (.inl (by simp [hj, Pc.of])) (by simp)
    · next i hj =>
      cases h
      refine frame_sub I (by simp [hj]) (Sub.refl _ _) ?_ ?_
      · split
        · exact .inr ⟨rfl, by simp [hj, Pc.of, locks]⟩
        · exact .inl (by simp [hj, Pc.of])
      · split <;> simp
    · next i hj =>
      cases h
      refine frame_job I (by simp [hj]) ?_ (fun _ => .inl ?_) (fun i' h => absurd ?_ h) (.inr ⟨rfl, by simp [hj, Pc.of, locks]⟩) (by simp)
      · have : locks G s (.job j) = some i := by simp [locks, hj]
        rw [this]
        exact (Sub.cts (G := G) i .own { s with main := Verif.Channel.upd s.main i none }).pc
      · rw [(Sub.cts (G := G) i .own { s with main := Verif.Channel.upd s.main i none }).clr]
      · rw [(Sub.cts (G := G) i .own { s with main := Verif.Channel.upd s.main i none }).pops]
    · next i hj =>
      cases h
      have hl : locks G s (.job j) = some i := by simp [locks, hj]
      have ho : (s.pc j).of = some i := by simp [hj, Pc.of]
      have hleave : (Pc.of .none) = none ∧ ∀ i', (s.pc j).of = some i' → locks G s (.job j) = some i' := ⟨rfl, by simp [hj, Pc.of, locks]⟩
      have hclr : ∀ i', Verif.Channel.upd s.clr i (some j) i' = s.clr i' ∨ (Verif.Channel.upd s.clr i (some j) i' = some j ∧ (s.pc j).of = some i') := by
        intro i'
        by_cases hi : i' = i
        · subst hi; exact .inr ⟨by simp [Verif.Channel.upd], ho⟩
        · left; simp only [Verif.Channel.upd, hi, if_false]
      by_cases hr : Verif.Channel.isEmpty G s i = false ∨ s.closeQ i = true
      · simp only [Verif.Channel.taskDone, hr, if_true]
        split
        · exact frame_job I (by simp [hj]) (.inr ⟨i, hl, rfl, rfl⟩) hclr (fun _ h => absurd rfl h) (.inr ⟨rfl, hleave.2⟩) (by simp)
        · exact frame_job I (by simp [hj]) (.inr ⟨i, hl, rfl, rfl⟩) (fun _ => .inl rfl) (fun _ h => absurd rfl h) (.inr hleave) (by simp)
      · simp only [Verif.Channel.taskDone, hr, if_false]
        split
        · exact frame_job I (by simp [hj]) (.inl ⟨rfl, rfl⟩) hclr (fun _ h => absurd rfl h) (.inr ⟨rfl, hleave.2⟩) (by simp)
        · exact frame_job I (by simp [hj]) (.inl ⟨rfl, rfl⟩) (fun _ => .inl rfl) (fun _ h => absurd rfl h) (.inr hleave) (by simp)
    · next hj => cases h; exact frame_sub I (by simp [hj]) (Sub.refl _ _) (.inl (by simp [hj, Pc.of])) (by simp)
    · next d o es hj =>
      split at h <;> cases h <;>
        exact frame_job I (by simp [hj]) (.inl ⟨rfl, rfl⟩) (fun _ => .inl rfl) (fun _ h => absurd rfl h) (.inl (by simp [hj, Pc.of])) (by simp)
    · next d es hj =>
      cases h
      have hl : locks G s (.job j) = some d := by simp [locks, hj]
      refine frame_job I (by simp [hj]) ?_ (fun i' => .inl ?_) (fun i' h => absurd ?_ h) (.inl (by simp [hj, Pc.of])) (by simp)
      · rw [hl]
        split
        · exact .inr ⟨d, rfl, rfl, rfl⟩
        · exact .inl ⟨rfl, rfl⟩
      · split <;> rfl
      · split <;> rfl
    · next i hj =>
      cases h
      have hl : locks G s (.job j) = some i := by simp [locks, hj]
      refine frame_job I (by simp [hj]) ?_ (fun i' => .inl ?_) (fun i' h => absurd ?_ h) (.inl (by simp [hj, Pc.of])) (by simp)
      · rw [hl]
        split
        · exact .inr ⟨i, rfl, rfl, rfl⟩
        · exact .inl ⟨rfl, rfl⟩
      · split <;> rfl
      · split <;> rfl
  | ret j r =>
    simp only [Verif.Channel.step] at h
    split at h <;> cases h
    next i hj =>
    have F := frame_job I (p := .bcast i r) (s1 := { s with outs := Verif.Channel.upd s.outs i (s.outs i ++ [r]) }) (j := j) (by simp [hj]) (.inl ⟨rfl, rfl⟩)
      (fun _ => .inl rfl) (fun _ h => absurd rfl h) (.inl (by simp [hj, Pc.of])) (by simp)
    refine ⟨F.other, F.same, fun x i' hx hh => ?_, fun x i' hx h1 h2 => absurd ?_ h2, F.clr, F.clr', F.le, F.lt, F.pops, F.pop, fun x i' hx h1 h2 => ?_⟩
    · have := F.fresh x i' hx hh
      simp [locks, hj] at this
    · cases hx
      rw [hj] at h1
      cases h1
      simp [Verif.Channel.goto, Verif.Channel.upd, Pc.of]
    · cases hx
      rw [hj] at h2; cases h2
  | send i n m =>
    simp only [Verif.Channel.step] at h
    split at h <;> cases h
    exact frame_user I rfl (Sub.enqueue i 0 m s)
  | copySender i n n' =>
    simp only [Verif.Channel.step] at h
    split at h <;> cases h
    exact frame_user I rfl ⟨.inl ⟨rfl, rfl⟩, rfl, rfl⟩
  | dropSender i n =>
    simp only [Verif.Channel.step] at h
    split at h
    · split at h <;> cases h
      · exact frame_more I rfl (p := .close2 i []) rfl rfl rfl rfl rfl
      · exact frame_user I rfl ⟨.inl ⟨rfl, rfl⟩, rfl, rfl⟩
    · cases h
  | copyRecv i =>
    simp only [Verif.Channel.step] at h
    split at h <;> cases h
    exact frame_user I rfl ⟨.inl ⟨rfl, rfl⟩, rfl, rfl⟩
  | dropRecv i =>
    simp only [Verif.Channel.step] at h
    split at h
    · split at h <;> cases h
      · exact frame_more I rfl (p := .ready2 i) rfl rfl rfl rfl rfl
      · exact frame_user I rfl ⟨.inl ⟨rfl, rfl⟩, rfl, rfl⟩
    · cases h

/-- Who uses the function or the receivers of a process. -/
theorem touches_of (I : Inv G s) {a : Verif.Channel.Act} {i : Nat} (h : touches s i a = true) :
    ∃ x, actor a = some x ∧ (s.main i = some x ∨ s.clr i = some x) := by
  cases a with
  | job j =>
    refine ⟨j, rfl, ?_⟩
    simp only [touches] at h
    split at h
    all_goals try (cases h; done)
    · next hj => simp only [decide_eq_true_eq] at h; subst h; exact .inl ((I.mn _ _).1 (by rw [hj]; rfl))
    · next hj => simp only [decide_eq_true_eq] at h; subst h; exact .inl ((I.mn _ _).1 (by rw [hj]; rfl))
    · next hj => simp only [decide_eq_true_eq] at h; subst h; exact .inl ((I.mn _ _).1 (by rw [hj]; rfl))
    · next hj => simp only [decide_eq_true_eq] at h; subst h; exact .inl ((I.mn _ _).1 (by rw [hj]; rfl))
    · next hj =>
      simp only [Bool.and_eq_true, decide_eq_true_eq] at h
      obtain ⟨h, -⟩ := h
      subst h
      exact .inl ((I.mn _ _).1 (by rw [hj]; rfl))
    · simp only [decide_eq_true_eq] at h; exact .inr h
    · simp only [decide_eq_true_eq] at h; exact .inr h
  | ret j r =>
    refine ⟨j, rfl, ?_⟩
    simp only [touches] at h
    split at h
    · next hj => simp only [decide_eq_true_eq] at h; subst h; exact .inl ((I.mn _ _).1 (by rw [hj]; rfl))
    · cases h
  | _ => cases h

theorem enqueue_inp (i k : Nat) (m : Verif.Channel.Msg) (s : Verif.Channel.St) (i' k' : Nat) :
    ((Verif.Channel.enqueue i k m s).inp i' k').length = (s.inp i' k').length + if (i, k) = (i', k') then 1 else 0 := by
  have h : (Verif.Channel.enqueue i k m s).inp = Verif.Channel.upd s.inp i (Verif.Channel.upd (s.inp i) k (s.inp i k ++ [m])) := by
    simp only [Verif.Channel.enqueue]
    split <;> rfl
  rw [h]
  by_cases hi : i' = i
  · subst hi
    by_cases hk : k' = k
    · subst hk; simp [Verif.Channel.upd]
    · simp [Verif.Channel.upd, hk, Ne.symm hk]
  · simp [Verif.Channel.upd, hi, Ne.symm hi]

theorem cts_inp (i : Nat) (c : Verif.Channel.Credit) (s : Verif.Channel.St) : (Verif.Channel.ctsCrit G i c s).inp = s.inp := by
  simp only [Verif.Channel.ctsCrit]
  split
  · split <;> rfl
  · rfl

theorem inp_step {a : Verif.Channel.Act} (h : Verif.Channel.step G s a = some s') (i k : Nat) :
    (s'.inp i k).length = (s.inp i k).length + if sends s i k a = true then 1 else 0 := by
  cases a with
  | job j =>
    simp only [Verif.Channel.step, Verif.Channel.stepJob] at h
    split at h
    all_goals try (cases h; done)
    case h_14 _ i r e es hj =>
      cases h
      have h1 : (Verif.Channel.goto j (.send i r es) (Verif.Channel.enqueue e.1 e.2 r s)).inp = (Verif.Channel.enqueue e.1 e.2 r s).inp := rfl
      rw [h1, enqueue_inp]
      obtain ⟨d, q⟩ := e
      simp [sends, hj]
    all_goals
      have h0 : s'.inp = s.inp := by
        first
        | (cases h; rfl)
        | (cases h; simp only [Verif.Channel.popCrit]; split <;> rfl)
        | (split at h <;> cases h <;> first | rfl | exact cts_inp _ _ _)
        | (cases h; exact cts_inp _ _ _)
        | (cases h; simp only [Verif.Channel.taskDone]; split <;> split <;> rfl)
        | (cases h; show Verif.Channel.St.inp (ite _ _ _) = _; split <;> rfl)
      rw [h0]
      simp [sends, *]
  | ret j r =>
    simp only [Verif.Channel.step] at h
    split at h <;> cases h
    simp [sends, Verif.Channel.goto]
  | send i' n m =>
    simp only [Verif.Channel.step] at h
    split at h <;> cases h
    rw [enqueue_inp]
    simp only [sends, Prod.mk.injEq, Bool.and_eq_true, decide_eq_true_eq]
    congr 1
    by_cases h : i' = i ∧ 0 = k
    · rw [if_pos h, if_pos ⟨h.1.symm, h.2.symm⟩]
    · rw [if_neg h, if_neg fun h' => h ⟨h'.1.symm, h'.2.symm⟩]
  | copySender i' n n' =>
    simp only [Verif.Channel.step] at h
    split at h <;> cases h
    simp [sends]
  | dropSender i' n =>
    simp only [Verif.Channel.step] at h
    split at h
    · split at h <;> cases h <;> simp [sends]
    · cases h
  | copyRecv i' =>
    simp only [Verif.Channel.step] at h
    split at h <;> cases h
    simp [sends]
  | dropRecv i' =>
    simp only [Verif.Channel.step] at h
    split at h
    · split at h <;> cases h <;> simp [sends]
    · cases h

theorem returns_touches {a : Verif.Channel.Act} {i : Nat} (h : returns s i a = true) : touches s i a = true := by
  cases a <;> simp only [returns, touches, Bool.false_eq_true] at h ⊢
  exact h

/-- Messages for a slot with an upstream process are sent by the job of that process. -/
theorem sends_of (W : G.Wf) (I : Inv G s) {a : Verif.Channel.Act} {i d k : Nat} (hu : G.up d k = some i) (h : sends s d k a = true)
    (hok : Verif.Channel.step G s a = some s') : ∃ x, actor a = some x ∧ s.main i = some x := by
  cases a with
  | job j =>
    simp only [sends] at h
    split at h
    · next i' r e es hj =>
      simp only [decide_eq_true_eq] at h
      subst h
      have hm := (I.mn i' j).1 (by rw [hj]; rfl)
      have h1 := (I.un i').2 (d, k) (by simp [Verif.Channel.pcm, hm, hj, Pc.unsent])
      have h2 : (d, k) ∈ G.down i' := by
        rcases I.dn i' with e | e
        · rw [← e.1]; exact h1
        · rw [e.1] at h1; cases h1
      have h3 := ((W.edges i' d k).1 h2).1
      rw [hu] at h3; cases h3
      exact ⟨j, rfl, hm⟩
    · cases h
  | send i' n m =>
    simp only [sends, Bool.and_eq_true, decide_eq_true_eq] at h
    obtain ⟨rfl, rfl⟩ := h
    simp only [Verif.Channel.step] at hok
    split at hok
    · next hn => rw [(I.xt d n hn).1] at hu; cases hu
    · cases hok
  | _ => cases h

theorem cts_outs (i : Nat) (c : Verif.Channel.Credit) (s : Verif.Channel.St) : (Verif.Channel.ctsCrit G i c s).outs = s.outs := by
  simp only [Verif.Channel.ctsCrit]
  split
  · split <;> rfl
  · rfl

theorem outs_step {a : Verif.Channel.Act} (h : Verif.Channel.step G s a = some s') (i : Nat) :
    (s'.outs i).length = (s.outs i).length + if returns s i a = true then 1 else 0 := by
  cases a with
  | job j =>
    simp only [Verif.Channel.step, Verif.Channel.stepJob] at h
    split at h
    all_goals try (cases h; done)
    all_goals
      have h0 : s'.outs = s.outs := by
        first
        | (cases h; rfl)
        | (cases h; simp only [Verif.Channel.popCrit]; split <;> rfl)
        | (split at h <;> cases h <;> first | rfl | exact cts_outs _ _ _)
        | (cases h; exact cts_outs _ _ _)
        | (cases h; simp only [Verif.Channel.taskDone]; split <;> split <;> rfl)
        | (cases h; simp only [Verif.Channel.goto, Verif.Channel.enqueue]; split <;> rfl)
        | (cases h; show Verif.Channel.St.outs (ite _ _ _) = _; split <;> rfl)
      rw [h0]
      simp [returns]
  | ret j r =>
    simp only [Verif.Channel.step] at h
    split at h <;> cases h
    next i' hj =>
    by_cases hi : i = i'
    · subst hi; simp [returns, hj, Verif.Channel.goto, Verif.Channel.upd]
    · simp [returns, hj, Verif.Channel.goto, Verif.Channel.upd, hi]
  | send i' n m =>
    simp only [Verif.Channel.step] at h
    split at h <;> cases h
    simp only [Verif.Channel.enqueue, returns]
    split <;> simp [Verif.Channel.run]
  | copySender i' n n' =>
    simp only [Verif.Channel.step] at h
    split at h <;> cases h
    simp [returns]
  | dropSender i' n =>
    simp only [Verif.Channel.step] at h
    split at h
    · split at h <;> cases h <;> simp [returns]
    · cases h
  | copyRecv i' =>
    simp only [Verif.Channel.step] at h
    split at h <;> cases h
    simp [returns]
  | dropRecv i' =>
    simp only [Verif.Channel.step] at h
    split at h
    · split at h <;> cases h <;> simp [returns]
    · cases h

/-- How many messages were taken out of a slot. -/
def taken (s : Verif.Channel.St) (i k : Nat) : Nat := (fromSlot k (s.pops i)).length

structure HB (G : Net) (σ : St) : Prop where
  reach : Verif.Channel.Reachable G σ.s
  main : ∀ i j, σ.s.main i = some j → ∀ c ∈ σ.uses i, leq c (σ.vc (job j))
  idle : ∀ i, σ.s.main i = none → σ.s.clr i = none → ∀ c ∈ σ.uses i, leq c (σ.mp i)
  clr : ∀ i j, σ.s.clr i = some j → ∀ c ∈ σ.uses i, leq c (σ.vc (job j))
  ord : ∀ i, (σ.uses i).Pairwise leq
  sent : ∀ i k, ∀ c ∈ σ.sent i k, leq c (σ.mp i)
  got : ∀ i j, (σ.s.pc j).of = some i → σ.s.pc j ≠ .pop i → ∀ k, ∀ c ∈ (σ.sent i k).take (taken σ.s i k), leq c (σ.vc (job j))
  len : ∀ i k, (σ.sent i k).length = (σ.s.inp i k).length
  rets : ∀ i, ∀ c ∈ σ.rets i, c ∈ σ.uses i
  rlen : ∀ i, (σ.rets i).length = (σ.s.outs i).length
  pass : ∀ i d k, G.up d k = some i → k < G.slots d → ∀ (p : Nat) (r c : Clock), (σ.rets i)[p]? = some r → (σ.sent d k)[p]? = some c → leq r c

theorem HB.init (G : Net) : HB G (init G) where
  reach := ⟨[], rfl⟩
  main _ _ _ _ h := by cases h
  idle _ _ _ _ h := by cases h
  clr _ _ _ _ h := by cases h
  ord _ := .nil
  sent _ _ _ h := by cases h
  got _ _ h := by cases h
  len _ _ := rfl
  rets _ _ h := by cases h
  rlen _ := rfl
  pass _ _ _ _ _ _ _ _ h := by cases h

theorem job_inj {a b : Nat} (h : job a = job b) : a = b := by simp only [job] at h; omega

theorem clock_vc (σ : St) (w : Nat) (l : Option Nat) : leq (σ.vc w) (clock σ w l) := by
  intro i
  cases l with
  | none =>
    simp only [clock, upd]
    split
    · next h => subst h; exact Nat.le_succ _
    · exact Nat.le_refl _
  | some l =>
    simp only [clock, upd]
    split
    · next h => subst h; exact Nat.le_trans (leq_joinl _ _ _) (Nat.le_succ _)
    · exact leq_joinl _ _ _

theorem clock_mp (σ : St) (w l : Nat) : leq (σ.mp l) (clock σ w (some l)) := by
  intro i
  simp only [clock, upd]
  split
  · next h => subst h; exact Nat.le_trans (leq_joinr _ _ _) (Nat.le_succ _)
  · exact leq_joinr _ _ _

theorem who_actor {a : Verif.Channel.Act} {u x : Nat} : who a u = job x ↔ actor a = some x := by
  cases a <;> simp only [who, actor, job, user, Option.some.injEq, reduceCtorEq, iff_false] <;> omega

theorem HB.step (W : G.Wf) (T : G.Tight) (H : HB G σ) {a : Act} (h : step G σ a = some σ') : HB G σ' := by
  cases a with
  | sync t t' =>
    cases h
    have hv : ∀ x, leq (σ.vc x) (upd σ.vc t' (join (σ.vc t') (σ.vc t)) x) := fun x => leq_acquire σ.vc t' x (σ.vc t)
    exact ⟨H.reach, fun i j h c hc => (H.main i j h c hc).trans (hv _), H.idle, fun i j h c hc => (H.clr i j h c hc).trans (hv _), H.ord, H.sent,
      fun i j h h' k c hc => (H.got i j h h' k c hc).trans (hv _), H.len, H.rets, H.rlen, H.pass⟩
  | net a u =>
    simp only [Channel.step] at h
    split at h
    · cases h
    · next s' hs =>
      cases h
      have I := H.reach.inv W T
      have R' := H.reach.step hs
      have I' := R'.inv W T
      have F := frame I hs
      generalize hc0 : clock σ (who a u) (locks G σ.s a) = c0
      have hvc : ∀ x, x < σ.s.next → leq (σ.vc (job x))
          (if job x = who a u ∨ (job x % 2 = 1 ∧ σ.s.next ≤ job x / 2 ∧ job x / 2 < s'.next) then c0 else σ.vc (job x)) := by
        intro x hx
        split
        · next h =>
          rcases h with h | ⟨_, h, _⟩
          · rw [← hc0, h]; exact clock_vc _ _ _
          · simp only [job] at h; omega
        · exact leq.refl _
      have hact : ∀ x, actor a = some x →
          (if job x = who a u ∨ (job x % 2 = 1 ∧ σ.s.next ≤ job x / 2 ∧ job x / 2 < s'.next) then c0 else σ.vc (job x)) = c0 := by
        intro x hx
        rw [if_pos (.inl (who_actor.2 hx).symm)]
      have hnew : ∀ x, σ.s.next ≤ x → x < s'.next →
          (if job x = who a u ∨ (job x % 2 = 1 ∧ σ.s.next ≤ job x / 2 ∧ job x / 2 < s'.next) then c0 else σ.vc (job x)) = c0 := by
        intro x h1 h2
        rw [if_pos (.inr (by simp only [job]; omega))]
      have hmp : ∀ i, leq (σ.mp i) (if locks G σ.s a = some i then c0 else σ.mp i) := by
        intro i
        split
        · next h => rw [← hc0, h]; exact clock_mp _ _ _
        · exact leq.refl _
      have hlk : ∀ i, locks G σ.s a = some i → leq (σ.mp i) c0 := by
        intro i h
        rw [← hc0, h]; exact clock_mp _ _ _
      have hac : ∀ x, actor a = some x → leq (σ.vc (job x)) c0 := by
        intro x hx
        rw [← hc0, who_actor.2 hx]; exact clock_vc _ _ _
      -- a use is by whoever has the process
      have huse : ∀ i, ∀ c ∈ (if touches σ.s i a = true then σ.uses i ++ [c0] else σ.uses i),
          c ∈ σ.uses i ∨ (c = c0 ∧ ∃ x, actor a = some x ∧ (σ.s.main i = some x ∨ σ.s.clr i = some x)) := by
        intro i c hc
        split at hc
        · next ht =>
          rcases List.mem_append.1 hc with hc | hc
          · exact .inl hc
          · exact .inr ⟨List.mem_singleton.1 hc, touches_of I ht⟩
        · exact .inl hc
      -- a job that is not the one that takes the step keeps its process
      have hkeep : ∀ i x, σ.s.main i = some x → actor a ≠ some x → s'.main i = some x := by
        intro i x hm hx
        have h1 := (I.mn i x).2 hm
        have h2 : x < σ.s.next := by
          rcases Nat.lt_or_ge x σ.s.next with h | h
          · exact h
          · rw [I.fr x h] at h1; cases h1
        exact (I'.mn i x).1 (by rw [F.other x hx h2]; exact h1)
      have hlt : ∀ i x, σ.s.main i = some x → x < σ.s.next := by
        intro i x hm
        have h1 := (I.mn i x).2 hm
        rcases Nat.lt_or_ge x σ.s.next with h | h
        · exact h
        · rw [I.fr x h] at h1; cases h1
      have hmain : ∀ i j, s'.main i = some j → ∀ c ∈ (if touches σ.s i a = true then σ.uses i ++ [c0] else σ.uses i),
          leq c (if job j = who a u ∨ (job j % 2 = 1 ∧ σ.s.next ≤ job j / 2 ∧ job j / 2 < s'.next) then c0 else σ.vc (job j)) := by
        intro i j hj c hc
        have hof := (I'.mn i j).2 hj
        have hclr : σ.s.clr i = none := by
          cases hy : σ.s.clr i with
          | none => rfl
          | some y =>
            have := F.clr' i y hy
            rcases I'.dn i with d | d
            · rw [d.2] at this; cases this
            · rw [d.2.2] at hj; cases hj
        by_cases hx : actor a = some j
        · rw [hact j hx]
          have hm := (I.mn i j).1 (F.same j i hx hof)
          rcases huse i c hc with h | ⟨rfl, -⟩
          · exact (H.main i j hm c h).trans (hac j hx)
          · exact leq.refl _
        · rcases Nat.lt_or_ge j σ.s.next with h | h
          · have hm := (I.mn i j).1 (by rw [← F.other j hx h]; exact hof)
            rcases huse i c hc with h' | ⟨rfl, x, h1, h2 | h2⟩
            · exact (H.main i j hm c h').trans (hvc j h)
            · rw [hm] at h2; cases h2; exact absurd h1 hx
            · rw [hclr] at h2; cases h2
          · obtain ⟨f1, f2, -⟩ := F.fresh j i h hof
            rw [hnew j h f2]
            rcases huse i c hc with h' | ⟨rfl, -⟩
            · cases hm : σ.s.main i with
              | none => exact (H.idle i hm hclr c h').trans (hlk i f1)
              | some x =>
                by_cases hxa : actor a = some x
                · exact (H.main i x hm c h').trans (hac x hxa)
                · have := hkeep i x hm hxa
                  rw [hj] at this
                  cases this
                  have := hlt i j hm
                  omega
            · exact leq.refl _
      refine ⟨R', hmain, fun i hm hc c hcu => ?_, fun i j hc c hcu => ?_, fun i => ?_, fun i k c hc => ?_, fun i j ho hp k c hc => ?_, fun i k => ?_, fun i c hc => ?_,
        fun i => ?_, fun i d k hu hk p r c hr hc => ?_⟩
      · -- nobody has the process
        have hc1 : σ.s.clr i = none := by
          cases hy : σ.s.clr i with
          | none => rfl
          | some y => have := F.clr' i y hy; simp only at hc; rw [hc] at this; cases this
        cases hm1 : σ.s.main i with
        | none =>
          rcases huse i c hcu with h' | ⟨rfl, x, h1, h2 | h2⟩
          · exact (H.idle i hm1 hc1 c h').trans (hmp i)
          · rw [hm1] at h2; cases h2
          · rw [hc1] at h2; cases h2
        | some x =>
          by_cases hxa : actor a = some x
          · have hof := (I.mn i x).2 hm1
            have hne : (s'.pc x).of ≠ some i := fun h => by have := (I'.mn i x).1 h; simp only at hm; rw [hm] at this; cases this
            have hl := F.leave x i hxa hof hne
            simp only [hl, if_true]
            rcases huse i c hcu with h' | ⟨rfl, -⟩
            · exact (H.main i x hm1 c h').trans (hac x hxa)
            · exact leq.refl _
          · have := hkeep i x hm1 hxa
            simp only at hm
            rw [hm] at this; cases this
      · -- the process is being cleared
        rcases F.clr i j hc with h1 | ⟨h1, h2⟩
        · have hm1 : σ.s.main i = none := by
            rcases I.dn i with d | d
            · rw [d.2] at h1; cases h1
            · exact d.2.2
          have hl := (I.cp i j h1).2.2
          rcases huse i c hcu with h' | ⟨rfl, x, g1, g2 | g2⟩
          · exact (H.clr i j h1 c h').trans (hvc j hl)
          · rw [hm1] at g2; cases g2
          · rw [h1] at g2; cases g2
            simp only [hact j g1]; exact leq.refl _
        · simp only [hact j h1]
          rcases huse i c hcu with h' | ⟨rfl, -⟩
          · exact (H.main i j ((I.mn i j).1 h2) c h').trans (hac j h1)
          · exact leq.refl _
      · -- uses are in order
        simp only
        split
        · next ht =>
          refine List.pairwise_append.2 ⟨H.ord i, List.pairwise_singleton _ _, fun c hc d hd => ?_⟩
          rw [List.mem_singleton.1 hd]
          obtain ⟨x, h1, h2 | h2⟩ := touches_of I ht
          · exact (H.main i x h2 c hc).trans (hac x h1)
          · exact (H.clr i x h2 c hc).trans (hac x h1)
        · exact H.ord i
      · -- messages are sent with the mutex locked
        simp only at hc
        split at hc
        · next hs =>
          rcases List.mem_append.1 hc with hc | hc
          · exact (H.sent i k c hc).trans (hmp i)
          · rw [List.mem_singleton.1 hc]
            have hl : locks G σ.s a = some i := by
              cases a with
              | job j =>
                simp only [sends] at hs
                split at hs
                · next hj => simp only [decide_eq_true_eq] at hs; simp [locks, hj, hs]
                · cases hs
              | send i' n m => simp only [sends, Bool.and_eq_true, decide_eq_true_eq] at hs; simp [locks, hs.1]
              | _ => cases hs
            simp only [hl, if_true]; exact leq.refl _
        · exact (H.sent i k c hc).trans (hmp i)
      · -- who took messages knows when they were sent
        simp only at ho hp hc
        have hj := (I'.mn i j).1 ho
        have hlen : (taken s' i k) ≤ (σ.sent i k).length ∨ s'.pops i ≠ σ.s.pops i := by
          by_cases hpo : s'.pops i = σ.s.pops i
          · left
            rw [H.len, (H.reach.hist W).inp i k]
            simp only [taken, hpo, List.length_append]
            omega
          · exact .inr hpo
        have hle : ∀ c ∈ (if sends σ.s i k a = true then σ.sent i k ++ [c0] else σ.sent i k), c ∈ σ.sent i k ∨ c = c0 := by
          intro c hc
          split at hc
          · rcases List.mem_append.1 hc with hc | hc
            · exact .inl hc
            · exact .inr (List.mem_singleton.1 hc)
          · exact .inl hc
        by_cases hx : actor a = some j
        · simp only [hact j hx]
          rcases hle c (List.mem_of_mem_take hc) with h1 | rfl
          · by_cases hpj : σ.s.pc j = .pop i
            · exact (H.sent i k c h1).trans (hlk i (F.popped j i hx ho hpj))
            · rcases hlen with h2 | h2
              · have hof := F.same j i hx ho
                have hpo : s'.pops i = σ.s.pops i := by
                  by_cases e : s'.pops i = σ.s.pops i
                  · exact e
                  · obtain ⟨y, g1, g2⟩ := F.pops i e
                    rw [hx] at g1; cases g1; exact absurd g2 hpj
                have hc' : c ∈ (σ.sent i k).take (taken σ.s i k) := by
                  have : taken s' i k = taken σ.s i k := by simp only [taken, hpo]
                  rw [this] at hc h2
                  split at hc
                  · rwa [List.take_append_of_le_length h2] at hc
                  · exact hc
                exact (H.got i j hof hpj k c hc').trans (hac j hx)
              · obtain ⟨y, g1, g2⟩ := F.pops i h2
                rw [hx] at g1; cases g1; exact absurd g2 hpj
          · exact leq.refl _
        · rcases Nat.lt_or_ge j σ.s.next with hn | hn
          · have hpc := F.other j hx hn
            have hof : (σ.s.pc j).of = some i := by rw [← hpc]; exact ho
            have hpj : σ.s.pc j ≠ .pop i := by rw [← hpc]; exact hp
            have hpo : s'.pops i = σ.s.pops i := by
              by_cases e : s'.pops i = σ.s.pops i
              · exact e
              · obtain ⟨y, g1, g2⟩ := F.pops i e
                have h1 := (I.mn i y).1 (by rw [g2]; rfl)
                have h2 := (I.mn i j).1 hof
                rw [h1] at h2; cases h2; exact absurd g1 hx
            have ht : taken s' i k = taken σ.s i k := by simp only [taken, hpo]
            rcases hlen with h2 | h2
            · have hc' : c ∈ (σ.sent i k).take (taken σ.s i k) := by
                rw [ht] at hc h2
                split at hc
                · rwa [List.take_append_of_le_length h2] at hc
                · exact hc
              exact (H.got i j hof hpj k c hc').trans (hvc j hn)
            · exact absurd hpo h2
          · exact absurd (F.fresh j i hn ho).2.2 hp
      · have := inp_step hs i k
        simp only
        rw [this]
        split
        · rw [List.length_append, H.len]; rfl
        · rw [H.len]; rfl
      · simp only at hc ⊢
        split at hc
        · next hr =>
          have ht := returns_touches hr
          rw [if_pos ht]
          rcases List.mem_append.1 hc with hc | hc
          · exact List.mem_append_left _ (H.rets i c hc)
          · exact List.mem_append_right _ hc
        · split
          · exact List.mem_append_left _ (H.rets i c hc)
          · exact H.rets i c hc
      · have := outs_step hs i
        simp only
        rw [this]
        split
        · rw [List.length_append, H.rlen]; rfl
        · rw [H.rlen]; rfl
      · -- a result is sent by the thread that got it
        simp only at hr hc
        have hfl := congrArg List.length (I.fl i d k hu hk)
        simp only [List.length_append] at hfl
        have hln : (σ.sent d k).length ≤ (σ.rets i).length := by rw [H.len, H.rlen]; omega
        split at hc
        · next hsd =>
          rcases Nat.lt_or_ge p (σ.sent d k).length with hp | hp
          · rw [List.getElem?_append_left hp] at hc
            have hr' : (σ.rets i)[p]? = some r := by
              split at hr
              · rwa [List.getElem?_append_left (by omega)] at hr
              · exact hr
            exact H.pass i d k hu hk p r c hr' hc
          · obtain ⟨x, hx, hm⟩ := sends_of W I hu hsd hs
            have hnr : returns σ.s i a = false := by
              cases a <;> simp only [sends, returns, Bool.false_eq_true] at hsd ⊢
            have hc : c = c0 := by
              rw [List.getElem?_append_right hp] at hc
              have := List.mem_of_getElem? hc
              exact List.mem_singleton.1 this
            rw [hnr] at hr
            simp only [Bool.false_eq_true, if_false] at hr
            rw [hc]
            exact (H.main i x hm r (H.rets i r (List.mem_of_getElem? hr))).trans (hac x hx)
        · have hp : p < (σ.sent d k).length := (List.getElem?_eq_some_iff.1 hc).1
          have hr' : (σ.rets i)[p]? = some r := by
            split at hr
            · rwa [List.getElem?_append_left (by omega)] at hr
            · exact hr
          exact H.pass i d k hu hk p r c hr' hc

theorem Reachable.hb (W : G.Wf) (T : G.Tight) (r : Reachable G σ) : HB G σ := by
  induction r with
  | init => exact .init G
  | step a _ h ih => exact ih.step W T h

/-- **C113**: all uses of the function of a process and of the list of its receivers, by whatever threads, are ordered by happens-before: the calls, their
ends, the sending of the results and the destruction at the end. In particular each call happens before the next one begins. -/
theorem c113_uses_ordered (W : G.Wf) (T : G.Tight) (r : Reachable G σ) (i : Nat) : (σ.uses i).Pairwise leq := (r.hb W T).ord i

/-- **C113**: whenever a thread is about to use the function or the receivers of a process, all former uses happened before. -/
theorem c113_access (W : G.Wf) (T : G.Tight) (r : Reachable G σ) {j : Nat} {a : Verif.Channel.Access} (h : Verif.Channel.accesses σ.s j a) :
    ∀ c ∈ σ.uses a.of, leq c (σ.vc (job j)) := by
  have H := r.hb W T
  rcases Verif.Channel.accesses_of (H.reach.inv W T) h with h1 | h1
  · exact H.main _ _ h1
  · exact H.clr _ _ h1

/-- **C113**: when the function is called with a message, the sending of the message happened before, and with it all that the sender did earlier. -/
theorem c113_message (W : G.Wf) (T : G.Tight) (r : Reachable G σ) {i j k : Nat} {m : Verif.Channel.Args} {x : Verif.Channel.Msg}
    (h : σ.s.pc j = .call i m) (hx : (k, x) ∈ m) :
    ∃ (p : Nat) (c : Clock), (σ.s.inp i k)[p]? = some x ∧ (σ.sent i k)[p]? = some c ∧ leq c (σ.vc (job j)) := by
  have H := r.hb W T
  have I := H.reach.inv W T
  have hm := (I.mn i j).1 (by rw [h]; rfl)
  have hca := I.ca i
  simp only [Verif.Channel.pcm, hm, h, Pc.tocall] at hca
  have hin := (H.reach.hist W).inp i k
  have hmem : x ∈ fromSlot k (σ.s.pops i) := by
    rw [hca]
    rw [Verif.Channel.fromSlot_append]
    refine List.mem_append_right _ ?_
    simp only [fromSlot, List.flatten_cons, List.flatten_nil, List.append_nil, List.mem_map, List.mem_filter, decide_eq_true_eq]
    exact ⟨(k, x), ⟨hx, rfl⟩, rfl⟩
  obtain ⟨p, hp, hpx⟩ := List.getElem_of_mem hmem
  have hps : p < (σ.sent i k).length := by rw [H.len, hin, List.length_append]; omega
  refine ⟨p, (σ.sent i k)[p], ?_, List.getElem?_eq_getElem hps, ?_⟩
  · rw [hin, List.getElem?_append_left hp, List.getElem?_eq_getElem hp, hpx]
  · refine H.got i j (by rw [h]; rfl) (by rw [h]; simp) k _ (List.mem_take_iff_getElem.2 ⟨p, ?_, rfl⟩)
    simp only [taken]
    omega

/-- **C113**: when the function of a process is called with a result of another process, the call that gave this result has ended before. -/
theorem c113_pipeline (W : G.Wf) (T : G.Tight) (r : Reachable G σ) {d i j k : Nat} {m : Verif.Channel.Args} {x : Verif.Channel.Msg}
    (h : σ.s.pc j = .call d m) (hx : (k, x) ∈ m) (hu : G.up d k = some i) (hk : k < G.slots d) :
    ∃ (p : Nat) (e : Clock), (σ.s.outs i)[p]? = some x ∧ (σ.rets i)[p]? = some e ∧ leq e (σ.vc (job j)) := by
  have H := r.hb W T
  have I := H.reach.inv W T
  obtain ⟨p, c, h1, h2, h3⟩ := c113_message W T r h hx
  have hfl := I.fl i d k hu hk
  have hp : p < (σ.s.inp d k).length := (List.getElem?_eq_some_iff.1 h1).1
  have ho : (σ.s.outs i)[p]? = some x := by rw [hfl, List.append_assoc, List.getElem?_append_left hp]; exact h1
  have hr : p < (σ.rets i).length := by rw [H.rlen]; exact (List.getElem?_eq_some_iff.1 ho).1
  exact ⟨p, (σ.rets i)[p], ho, List.getElem?_eq_getElem hr, (H.pass i d k hu hk p _ c (List.getElem?_eq_getElem hr) h2).trans h3⟩

/-- **C113**: nothing is lost by the clocks: every execution of the network is one with clocks, whatever threads of users take its steps. -/
theorem c113_all_executions {as : List Verif.Channel.Act} (h : Verif.Channel.exec G (Verif.Channel.init G) as = some s) (u : Nat → Nat) :
    ∃ σ, Reachable G σ ∧ σ.s = s := by
  suffices ∀ (as : List Verif.Channel.Act) (σ : St) (n : Nat), Reachable G σ → Verif.Channel.exec G σ.s as = some s → ∃ σ', Reachable G σ' ∧ σ'.s = s from
    this as (init G) 0 .init h
  intro as
  induction as with
  | nil => intro σ n r e; cases e; exact ⟨σ, r, rfl⟩
  | cons a as ih =>
    intro σ n r e
    obtain ⟨s1, h1, h2⟩ := Option.bind_eq_some_iff.mp e
    have : ∃ σ1, Channel.step G σ (.net a (u n)) = some σ1 ∧ σ1.s = s1 := by
      simp only [Channel.step, h1]
      exact ⟨_, rfl, rfl⟩
    obtain ⟨σ1, g1, g2⟩ := this
    exact ih σ1 (n + 1) (.step _ r g1) (by rw [g2]; exact h2)

open Verif.Channel (pipe ready2 go)

theorem exec_reach {as : List Act} {σ'' : St} (r : Reachable G σ) (h : exec G σ as = some σ'') : Reachable G σ'' := by
  induction as generalizing σ with
  | nil => cases h; exact r
  | cons a as ih =>
    obtain ⟨σ1, h1, h2⟩ := Option.bind_eq_some_iff.mp h
    exact ih (.step _ r h1) h2

theorem witness {as : List Act} (P : St → Bool) (he : (exec G (init G) as).any P = true) : ∃ σ, Reachable G σ ∧ P σ = true := by
  cases h : exec G (init G) as with
  | none => rw [h] at he; cases he
  | some s => rw [h] at he; exact ⟨s, exec_reach .init h, he⟩

/-- Process 0 handled a message, which thread 0 of the user sent, in job 2; job 3 is about to call the function of process 1 with the result. The clock of
job 3 shows what happened before: the third step of user 0, which was sending the message, and the end of the call, step 4 of job 2, and sending the result,
step 9 of it. -/
example : (pipe 1).Wf ∧ (pipe 1).Tight ∧ ∃ σ, Reachable (pipe 1) σ ∧ σ.s.pc 3 = .call 1 [(0, .val 20)] ∧ (pipe 1).up 1 0 = some 0 ∧
    (σ.uses 0).length = 6 ∧ (σ.sent 0 0).map (fun c => c (user 0)) = [3] ∧ (σ.rets 0).map (fun c => c (job 2)) = [4] ∧
    (σ.sent 1 0).map (fun c => c (job 2)) = [9] ∧ σ.vc (job 3) (job 2) = 9 ∧ σ.vc (job 3) (user 0) = 3 ∧
    Verif.Channel.accesses σ.s 3 ⟨1, .process, true, false⟩ := by
  refine ⟨Verif.Channel.pipe_wf 1, Verif.Channel.pipe_tight, ?_⟩
  obtain ⟨σ, h, hp⟩ := witness (G := pipe 1)
    (as := (ready2 ++ [.send 0 0 (.val 10)] ++ go 2 3 ++ [.ret 2 (.val 20)] ++ go 2 5 ++ go 3 4 : List Verif.Channel.Act).map (.net · 0))
    (fun σ => σ.s.pc 3 = .call 1 [(0, .val 20)] ∧ (σ.uses 0).length = 6 ∧ (σ.sent 0 0).map (fun c => c (user 0)) = [3] ∧
      (σ.rets 0).map (fun c => c (job 2)) = [4] ∧ (σ.sent 1 0).map (fun c => c (job 2)) = [9] ∧ σ.vc (job 3) (job 2) = 9 ∧
      σ.vc (job 3) (user 0) = 3) (by decide)
  have hp := of_decide_eq_true hp
  exact ⟨σ, h, hp.1, by decide, hp.2.1, hp.2.2.1, hp.2.2.2.1, hp.2.2.2.2.1, hp.2.2.2.2.2.1, hp.2.2.2.2.2.2, by simp [Verif.Channel.accesses, hp.1]⟩

/-- With an unlimited buffer, or one of size 2, this is lost: there are two uses of the function of process 0 of which neither happens before the other
(reported as C40 and C74). -/
example : ∀ b ∈ [0, 2], ∃ σ, Reachable (pipe b) σ ∧ ∃ c c', c ∈ σ.uses 0 ∧ c' ∈ σ.uses 0 ∧ ¬ leq c c' ∧ ¬ leq c' c := by
  intro b hb
  have : b = 0 ∨ b = 2 := by simpa using hb
  obtain ⟨σ, h, hp⟩ := witness (G := pipe b) (as := Verif.Channel.run40.map (.net · 0))
    (fun σ => (σ.uses 0).any fun c => (σ.uses 0).any fun c' => decide (c' (job 4) < c (job 4)) && decide (c (job 5) < c' (job 5)))
    (by rcases this with rfl | rfl <;> decide)
  simp only [List.any_eq_true, Bool.and_eq_true, decide_eq_true_eq] at hp
  obtain ⟨c, hc, c', hc', h1, h2⟩ := hp
  exact ⟨σ, h, c, c', hc, hc', fun hl => by have := hl (job 4); omega, fun hl => by have := hl (job 5); omega⟩

end Verif.Sync.Channel
