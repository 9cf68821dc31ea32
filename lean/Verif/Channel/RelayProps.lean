import Verif.Channel.RelayInv

/-!
# C97: relays
-/

namespace Verif.Relay

/-- Somebody may still send to channel `c`: the user has a sender of it, or of a channel from which relays lead to it. -/
inductive Fed (s : St) : Nat → Prop
  | user {c : Nat} : c ∈ s.user → Fed s c
  | relay {r : Rl} : r ∈ s.rels → r.pc = .on → Fed s r.src → Fed s r.dst

/-- The steps that no user takes part in. -/
def internal : Act → Bool
  | .run _ | .runRelay _ | .finish _ | .finishRelay _ => true
  | _ => false

/-- Nothing is going on. -/
def Rest (s : St) : Prop := ∀ a s', internal a = true → step s a ≠ .ok s'

/-- Relays do not form a cycle. -/
def Acyclic (s : St) : Prop := ∃ rank : Nat → Nat, ∀ r ∈ s.rels, r.pc = .on → rank r.src < rank r.dst

/-- The assertion on the number of senders holds. -/
theorem c97_no_underflow {s : St} (h : Reachable s) (a : Act) : step s a ≠ .ub := by
  have C := h.invC
  cases a with
  | make => simp [step]
  | copy c => simp only [step]; split <;> (try split) <;> simp
  | drop c =>
    simp only [step]; split
    · simp
    · rename_i hm
      have hm : c ∈ s.user := Classical.byContradiction hm
      refine InvC.remove_ub (s := { s with user := s.user.erase c })
        ⟨fun d h => C.um d (List.mem_of_mem_erase h), C.rm, fun d h => ?_, C.cls, C.new⟩
      have := C.cnt d h
      have hpos : 0 < s.user.count c := List.count_pos_iff.2 hm
      by_cases hdc : c = d
      · subst hdc; simp [List.count_erase_self] at this ⊢; omega
      · have h' : ¬ d = c := fun h' => hdc h'.symm
        simpa [hdc, List.count_erase_of_ne h'] using this
  | send c v => simp only [step]; split <;> simp
  | ready a => simp only [step]; split <;> simp
  | die a => simp only [step]; split <;> simp
  | relay a c => simp only [step]; split <;> simp
  | dropRelay r =>
    simp only [step]; split
    · rename_i x hx
      split
      · exact (C.off (y := { x with pc := .dropped, queue := [] }) hx (by assumption) (by simp) rfl rfl).remove_ub
      · simp
    · simp
  | run a => simp only [step]; split <;> (try split) <;> simp
  | runRelay r => simp only [step]; split <;> (try split) <;> simp
  | finish a => simp only [step]; split <;> simp
  | finishRelay r =>
    simp only [step]; split
    · rename_i x hx
      split
      · rename_i h1
        exact (C.off (y := { x with pc := .ended }) hx h1.1 (by simp) rfl rfl).remove_ub
      · simp
    · simp

/-- A channel is not closed while anybody may still send to it, be it through any number of relays. -/
theorem c97_open {s : St} (h : Reachable s) {c : Nat} (hf : Fed s c) (hd : (s.ch c).dead = false) :
    (s.ch c).closed = false ∧ (s.ch c).final = false := by
  have hc : (s.ch c).closed = false := by
    cases hf with
    | user hu => exact h.invC.open_ hd (.inl hu)
    | relay hr hp _ => exact h.invC.open_ hd (.inr ⟨_, hr, hp, rfl⟩)
  refine ⟨hc, ?_⟩
  cases hq : (s.ch c).final
  · rfl
  · rw [h.invM.fin c hq] at hc; cases hc

/-- When nothing is going on and relays form no cycle, exactly those channels are closed to which nobody can send any
more, directly or through relays; and all that was sent to any channel has been handled. -/
theorem c97_closed_iff {s : St} (h : Reachable s) (hr : Rest s) (ha : Acyclic s)
    (hy : ∀ c, c < s.made → (s.ch c).dead = false → (s.ch c).ready = true) {c : Nat} (hc : c < s.made)
    (hd : (s.ch c).dead = false) :
    ((s.ch c).final = true ↔ ¬ Fed s c) ∧ (s.ch c).handled = (s.ch c).arrived.map (·.2) ∧
    ∀ r ∈ s.rels, r.pc = .on → r.queue = [] := by
  have C := h.invC
  have M := h.invM
  have hq : ∀ a, a < s.made → (s.ch a).dead = false → (s.ch a).queue = [] := by
    intro a h1 h2
    cases hq : (s.ch a).queue with
    | nil => rfl
    | cons v q => exact absurd (by simp only [step, h1, h2, hy a h1 h2, hq]; rfl) (hr (.run a) _ rfl)
  have hrq : ∀ (i : Nat) (x : Rl), s.rels[i]? = some x → x.queue = [] := by
    intro i x hx
    cases hq : x.queue with
    | nil => rfl
    | cons v q => exact absurd (by simp only [step, hx, hq]; rfl) (hr (.runRelay i) _ rfl)
  obtain ⟨rank, hrank⟩ := ha
  refine ⟨⟨fun h1 h2 => ?_, ?_⟩, ?_, ?_⟩
  · rw [(c97_open h h2 hd).2] at h1; cases h1
  · suffices ∀ n c, rank c ≤ n → c < s.made → (s.ch c).dead = false → ¬ Fed s c → (s.ch c).final = true from
      this _ c (Nat.le_refl _) hc hd
    intro n
    induction n using Nat.strongRecOn with
    | ind n ih =>
      intro c hn hc hd hf
      cases hfin : (s.ch c).final with
      | true => rfl
      | false =>
        exfalso
        have hcl : (s.ch c).closed = false := by
          cases hcl : (s.ch c).closed with
          | false => rfl
          | true => exact absurd (by simp only [step, hc, hd, hy c hc hd, hcl, hfin, hq c hc hd]; rfl)
                      (hr (.finish c) _ rfl)
        have hcnt := C.cnt c hd
        have hz : (s.ch c).count ≠ 0 := fun h0 => by
          have := (C.cls c hc hd).2 h0; rw [hcl] at this; cases this
        have hu : s.user.count c = 0 := List.count_eq_zero.2 fun h => hf (.user h)
        have hp : 0 < s.rels.countP (into c) := by simp at hcnt; omega
        obtain ⟨x, hx, hin⟩ := List.countP_pos_iff.1 hp
        simp [into] at hin
        obtain ⟨h1, h2⟩ := hin
        obtain ⟨i, hi, hix⟩ := List.getElem_of_mem hx
        have hix : s.rels[i]? = some x := by rw [List.getElem?_eq_getElem hi, hix]
        have hsf : ¬ Fed s x.src := fun h => hf (h2 ▸ Fed.relay hx h1 h)
        have hlt := hrank x hx h1
        have hsrc := ih (rank x.src) (by rw [h2] at hlt; omega) x.src (Nat.le_refl _) (C.rm x hx).1 (M.alv x hx h1) hsf
        have hstep : step s (.finishRelay i) = removeSender { s with rels := s.rels.set i { x with pc := .ended } } x.dst := by
          simp only [step, hix, h1, hrq i x hix, hsrc, and_self, if_true]
        cases hres : step s (.finishRelay i) with
        | no =>
          rw [hstep] at hres; simp only [removeSender] at hres
          split at hres
          · cases hres
          · split at hres <;> cases hres
        | ub => exact c97_no_underflow h _ hres
        | ok s' => exact hr (.finishRelay i) s' rfl hres
  · have := M.arr c; rw [hq c hc hd, List.append_nil] at this; exact this.symm
  · intro r hr _
    obtain ⟨i, hi, hix⟩ := List.getElem_of_mem hr
    exact hrq i r (by rw [List.getElem?_eq_getElem hi, hix])

/-- A relay passes on what its source handled: all of it so far, in order and nothing else, which the target gets
from it in that order; and a relay that has been closed has passed on everything. -/
theorem c97_order {s : St} (h : Reachable s) {i : Nat} {r : Rl} (hi : s.rels[i]? = some r) :
    r.passed <+: (s.ch r.src).handled ∧
    ((s.ch r.dst).dead = false → ((s.ch r.dst).arrived.filter (·.1 == some i)).map (·.2) = r.passed) ∧
    (r.pc = .ended → r.passed = (s.ch r.src).handled) ∧
    (r.pc = .ended → (s.ch r.src).dead = false → r.passed = (s.ch r.src).arrived.map (·.2)) := by
  have M := h.invM
  have hm := mem_of_get hi
  refine ⟨M.drp r hm, fun hd => M.tag i r hi hd, fun he => (M.edd r hm he).2.symm, fun he hd => ?_⟩
  have h1 := M.edd r hm he
  have h2 := M.arr r.src
  rw [M.finq r.src h1.1 hd, List.append_nil] at h2
  rw [h2, h1.2]

/-- So all that was sent to a channel has been handled by the channel a relay leads to when both are closed. -/
theorem c97_end_to_end {s : St} (h : Reachable s) {r : Rl} (hr : r ∈ s.rels) (he : r.pc = .ended)
    (hs : (s.ch r.src).dead = false) (hf : (s.ch r.dst).final = true) (hd : (s.ch r.dst).dead = false) :
    ((s.ch r.src).arrived.map (·.2)).Sublist (s.ch r.dst).handled := by
  obtain ⟨i, hi, hix⟩ := List.getElem_of_mem hr
  obtain ⟨-, h2, -, h4⟩ := c97_order h (i := i) (r := r) (by rw [List.getElem?_eq_getElem hi, hix])
  rw [← h4 he hs, ← h2 hd]
  have h5 := h.invM.arr r.dst
  rw [h.invM.finq r.dst hf hd, List.append_nil] at h5
  rw [← h5]
  exact List.filter_sublist.map _

/-- Relays that form a cycle keep its channels open for ever, unless one of the relays is destroyed. -/
theorem c97_cycle_counterexample {s s' : St} (h : Reachable s) (P : Nat → Prop)
    (hin : ∀ c, P c → ∃ (i : Nat) (r : Rl), s.rels[i]? = some r ∧ r.pc = .on ∧ r.dst = c ∧ P r.src)
    (hout : ∀ c, P c → ∃ (i : Nat) (r : Rl), s.rels[i]? = some r ∧ r.pc = .on ∧ r.src = c ∧ P r.dst)
    {as : List Act} (hn : ∀ r, .dropRelay r ∉ as) (e : exec s as = some s') :
    ∀ c, P c → (s'.ch c).closed = false ∧ (s'.ch c).final = false := by
  have keep : ∀ {s s' : St} {a : Act}, Reachable s → (∀ r, a ≠ .dropRelay r) → step s a = .ok s' →
      (∀ c, P c → ∃ (i : Nat) (r : Rl), s.rels[i]? = some r ∧ r.pc = .on ∧ r.dst = c ∧ P r.src) →
      (∀ c, P c → (s.ch c).dead = false) →
      ∀ (i : Nat) (r : Rl), s.rels[i]? = some r → r.pc = .on → P r.src →
        ∃ r' : Rl, s'.rels[i]? = some r' ∧ r'.pc = .on ∧ r'.src = r.src ∧ r'.dst = r.dst := by
    intro s s' a h hn e hin hdd i r hi hp hP
    have hrm : ∀ {t t' : St} {c : Nat}, removeSender t c = .ok t' → t'.rels = t.rels := by
      intro t t' c e
      simp only [removeSender] at e
      split at e
      · cases e; rfl
      · split at e <;> cases e; rfl
    have hsm : ∀ (t : St) (f : Option Nat) (c v : Nat), (sendTo t f c v).rels = t.rels := by
      intro t f c v; simp only [sendTo]; split <;> rfl
    have same : s'.rels = s.rels → ∃ r' : Rl, s'.rels[i]? = some r' ∧ r'.pc = .on ∧ r'.src = r.src ∧ r'.dst = r.dst :=
      fun h => ⟨r, by rw [h]; exact hi, hp, rfl, rfl⟩
    cases a with
    | make => cases e; exact same rfl
    | copy c => simp only [step] at e; split at e <;> (try split at e) <;> cases e <;> exact same rfl
    | drop c => simp only [step] at e; split at e
                · cases e
                · exact same (hrm (t := { s with user := s.user.erase c }) e)
    | send c v => simp only [step] at e; split at e <;> cases e; exact same (hsm _ _ _ _)
    | ready a => simp only [step] at e; split at e <;> cases e; exact same rfl
    | die a => simp only [step] at e; split at e <;> cases e; exact same rfl
    | relay a c =>
      simp only [step] at e; split at e <;> cases e
      refine ⟨r, ?_, hp, rfl, rfl⟩
      simp only [List.getElem?_append]
      rw [if_pos (List.getElem?_eq_some_iff.1 hi).1]; exact hi
    | dropRelay r => exact absurd rfl (hn r)
    | run a =>
      simp only [step] at e
      split at e
      · split at e <;> cases e
        rename_i v q hq
        refine ⟨feed a v r, by simp [hi], ?_⟩
        obtain ⟨f1, f2, _, f4⟩ := feed_src a v r
        exact ⟨f4 ▸ hp, f1, f2⟩
      · cases e
    | runRelay j =>
      simp only [step] at e
      split at e
      · rename_i x hx
        split at e <;> cases e
        rename_i v q hq
        rw [hsm]
        by_cases hji : j = i
        · subst hji
          rw [hi] at hx; cases hx
          exact ⟨{ r with queue := q, passed := r.passed ++ [v] },
            by simp [List.getElem?_set, (List.getElem?_eq_some_iff.1 hi).1], hp, rfl, rfl⟩
        · exact ⟨r, by simp [List.getElem?_set, hji, hi], hp, rfl, rfl⟩
      · cases e
    | finish a => simp only [step] at e; split at e <;> cases e; exact same rfl
    | finishRelay j =>
      simp only [step] at e
      split at e
      · rename_i x hx
        split at e
        · rename_i hc
          rw [hrm e]
          by_cases hji : j = i
          · subst hji
            rw [hi] at hx; cases hx
            obtain ⟨k, y, hy, hyp, hyd, hyP⟩ := hin r.src hP
            have := h.invC.open_ (hdd _ hP) (.inr ⟨y, mem_of_get hy, hyp, hyd⟩)
            rw [h.invM.fin _ hc.2.2] at this; cases this
          · exact ⟨r, by simp [List.getElem?_set, hji, hi], hp, rfl, rfl⟩
        · cases e
      · cases e
  have alive : ∀ {s : St}, Reachable s →
      (∀ c, P c → ∃ (i : Nat) (r : Rl), s.rels[i]? = some r ∧ r.pc = .on ∧ r.src = c ∧ P r.dst) → ∀ c, P c → (s.ch c).dead = false := by
    intro s h ho c hc
    obtain ⟨i, r, h1, h2, h3, _⟩ := ho c hc
    exact h3 ▸ h.invM.alv r (mem_of_get h1) h2
  induction as generalizing s with
  | nil =>
    cases e
    intro c hc
    obtain ⟨i, r, h1, h2, h3, _⟩ := hin c hc
    have hcl := h.invC.open_ (alive h hout c hc) (.inr ⟨r, mem_of_get h1, h2, h3⟩)
    refine ⟨hcl, ?_⟩
    cases hf : (s'.ch c).final
    · rfl
    · rw [h.invM.fin c hf] at hcl; cases hcl
  | cons a as ih =>
    simp only [exec] at e
    split at e
    · rename_i s1 h1
      have hR : Reachable s1 := by
        obtain ⟨bs, hb⟩ := h
        refine ⟨bs ++ [a], ?_⟩
        have : ∀ (t : St) (bs : List Act), exec t bs = some s → exec t (bs ++ [a]) = some s1 := by
          intro t bs
          induction bs generalizing t with
          | nil => intro h; cases h; simp [exec, h1]
          | cons b bs ihb =>
            intro h; simp only [List.cons_append, exec] at h ⊢
            split at h
            · exact ihb _ h
            · cases h
        exact this _ _ hb
      have hna : ∀ r, a ≠ .dropRelay r := fun r h => hn r (by simp [h])
      have hal := alive h hout
      refine ih hR (fun c hc => ?_) (fun c hc => ?_) (fun r h => hn r (by simp [h])) e
      · obtain ⟨i, r, g1, g2, g3, g4⟩ := hin c hc
        obtain ⟨r', k1, k2, k3, k4⟩ := keep h hna h1 hin hal i r g1 g2 g4
        exact ⟨i, r', k1, k2, k4.trans g3, k3 ▸ g4⟩
      · obtain ⟨i, r, g1, g2, g3, g4⟩ := hout c hc
        obtain ⟨r', k1, k2, k3, k4⟩ := keep h hna h1 hin hal i r g1 g2 (g3 ▸ hc)
        exact ⟨i, r', k1, k2, k3.trans g3, k4 ▸ g4⟩
    · cases e

theorem not_fed {s : St} (h : s.user = []) {c : Nat} (hf : Fed s c) : False := by
  induction hf with
  | user hu => rw [h] at hu; cases hu
  | relay _ _ _ ih => exact ih

/-- A channel whose receiver is piped into its own sender: all senders of the user are gone, nothing is going on, and it
is not closed. -/
theorem c97_own_sender_counterexample :
    ∃ as s, exec {} as = some s ∧ s.user = [] ∧ Rest s ∧ ¬ Fed s 0 ∧ (s.ch 0).ready = true ∧ (s.ch 0).final = false := by
  refine ⟨[.make, .relay 0 0, .ready 0], _, rfl, rfl, ?_, ?_, rfl, rfl⟩
  · intro a s' ha
    cases a <;> simp [internal] at ha <;> rename_i a <;> cases a <;> simp [step, upd]
  · exact fun h => not_fed rfl h

/-- Two relays into one channel: messages of both arrive, and it is closed when both sources are. -/
def demo : List Act :=
  [.make, .make, .make, .copy 2, .relay 0 2, .relay 1 2, .ready 0, .ready 1, .ready 2, .send 0 10, .send 1 20, .send 0 11,
   .drop 0, .drop 1, .run 0, .run 1, .run 0, .runRelay 0, .runRelay 1, .runRelay 0, .run 2, .run 2, .run 2,
   .finish 0, .finish 1, .finishRelay 1, .finishRelay 0, .finish 2]

example : ∃ s, exec {} demo = some s ∧ (s.ch 2).handled = [10, 20, 11] ∧ (s.ch 2).final = true ∧
    s.rels.map (·.pc) = [.ended, .ended] ∧ (s.ch 0).arrived.map (·.2) = [10, 11] := ⟨_, rfl, rfl, rfl, rfl, rfl⟩

theorem rest_of {s : St} (h1 : ∀ a, a < s.made → (s.ch a).queue = [] ∧ ((s.ch a).closed = false ∨ (s.ch a).final = true))
    (h2 : ∀ r ∈ s.rels, r.queue = [] ∧ (r.pc ≠ .on ∨ (s.ch r.src).final = false)) : Rest s := by
  intro a s' ha
  cases a <;> simp [internal] at ha <;> rename_i a <;> simp only [step]
  · split
    · rename_i h; rw [(h1 a h.1).1]; simp
    · simp
  · split
    · rename_i x hx; rw [(h2 x (mem_of_get hx)).1]; simp
    · simp
  · split
    · rename_i h; have := (h1 a h.1).2; simp [h.2.2.2.1, h.2.2.2.2.1] at this
    · simp
  · split
    · rename_i x hx
      split
      · rename_i h; have := (h2 x (mem_of_get hx)).2; simp [h.1, h.2.2] at this
      · simp
    · simp

/-- The hypotheses of `c97_closed_iff` with a channel that is closed and one that is not. -/
example : ∃ s, exec {} (demo ++ [.make, .make, .relay 3 4, .ready 3, .ready 4]) = some s ∧ Rest s ∧ Acyclic s ∧
    (∀ c, c < s.made → (s.ch c).ready = true) ∧ (s.ch 2).final = true ∧ (s.ch 4).final = false ∧ 3 ∈ s.user := by
  exact ⟨_, rfl, rest_of (by decide) (by decide), ⟨fun c => c, by decide⟩, by decide, rfl, rfl, by decide⟩

/-- The hypotheses of `c97_cycle_counterexample`. -/
example : ∃ s, exec {} [.make, .make, .relay 0 1, .relay 1 0] = some s ∧
    (∀ c, c < 2 → ∃ (i : Nat) (r : Rl), s.rels[i]? = some r ∧ r.pc = .on ∧ r.dst = c ∧ r.src < 2) ∧
    ∀ c, c < 2 → ∃ (i : Nat) (r : Rl), s.rels[i]? = some r ∧ r.pc = .on ∧ r.src = c ∧ r.dst < 2 := by
  refine ⟨_, rfl, fun c hc => ?_, fun c hc => ?_⟩
  · match c, hc with
    | 0, _ => exact ⟨1, _, rfl, rfl, rfl, by simp⟩
    | 1, _ => exact ⟨0, _, rfl, rfl, rfl, by simp⟩
  · match c, hc with
    | 0, _ => exact ⟨0, _, rfl, rfl, rfl, by simp⟩
    | 1, _ => exact ⟨1, _, rfl, rfl, rfl, by simp⟩

end Verif.Relay
