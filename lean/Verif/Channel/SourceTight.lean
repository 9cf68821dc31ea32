import Verif.Channel.SourceRest

/-!
# Sources, delayed or not, when some receiver has buffer size 1
-/

namespace Verif.Source

open Verif.Channel (Msg sumTo sumTo_congr sumTo_le sumTo_change sumTo_change_le upd freeBuffer usub sizeMax)
open Verif.Process (sumTo_zero sumTo_one sumTo_eq_zero)

variable {σ : Type} {P : Src σ} {n : Nat} {buf : Nat → Nat} {s s' : St σ}

/-- Some receiver has buffer size 1, or there is none. -/
def Narrow (n : Nat) (buf : Nat → Nat) : Prop := n = 0 ∨ ∃ k, k < n ∧ buf k = 1

/-- What receiver `k` has, has taken, or is going to get. -/
def load (s : St σ) (p : Pc) (k : Nat) : Nat :=
  (s.dq k).length + (if p.due k = true then 1 else 0) + s.cr k + s.cy k + s.ca k

/-- Before the count is set. -/
def Pc.early : Pc → Bool
  | .ready2 | .start | .decide | .later | .inYield _ | .free .. => true
  | _ => false

/-- `p`: where the only thread that goes on with the source is. -/
structure One (P : Src σ) (n : Nat) (buf : Nat → Nat) (s : St σ) (p : Pc) : Prop where
  se : s.susp = p.own + sumTo n (load s p)
  l1 : ∀ k, k < n → load s p k ≤ 1
  l0 : ∀ k, n ≤ k → load s .none k = 0
  ea : p.early = true → s.susp = 0
  ac : ∀ t r k acc, p = .free t r k acc → acc ≤ 1 ∨ ∃ k0, k ≤ k0 ∧ k0 < n ∧ buf k0 = 1
  iy : ∀ t, p = .inYield t → (P.state s.x).isYield = true
  lt : p = .later → (P.state s.x).isYield = true
  o2 : ∀ t ps, p = .own2 t ps → ps = (P.state s.x).isYield
  cy : ∀ k, s.cy k ≠ 0 → (P.state s.x).isYield = true
  ca : ∀ k, s.ca k ≠ 0 → (P.state s.x).isYield = false
  bz : p = .none → s.ready = true → (P.state s.x).isYield = true → 0 < s.susp
  rs : ∀ k, k < n → s.sent k ++ p.pend k = s.outs

/-- The thread `o` goes on with the source, no other does. -/
def Tok (s : St σ) (o : Option Nat) : Prop := ∀ i, (s.pc i).tok = true ↔ o = some i

def tp (s : St σ) : Option Nat → Pc
  | none => .none
  | some j => s.pc j

attribute [local grind] Pc.tok Pc.early Pc.own Pc.due Pc.pend
attribute [local grind =] upd_apply

theorem One.zero {p : Pc} (h : One P n buf s p) (he : s.susp = 0) : ∀ k, load s .none k = 0 := by
  intro k
  by_cases hk : k < n
  · have := h.se
    have := sumTo_eq_zero (n := n) (f := load s p) (by omega) k hk
    simp only [load, Pc.due, Bool.false_eq_true, if_false] at this ⊢
    omega
  · exact h.l0 k (by omega)

/-- A step that leaves everything but the threads as it is. -/
theorem One.move {p p' : Pc} (h : One P n buf s p) (h1 : s'.susp = s.susp) (h2 : s'.dq = s.dq) (h3 : s'.cr = s.cr)
    (h4 : s'.cy = s.cy) (h5 : s'.ca = s.ca) (h6 : s'.x = s.x) (h7 : s'.sent = s.sent) (h8 : s'.outs = s.outs)
    (h9 : s'.ready = s.ready ∨ p' ≠ .none)
    (p1 : p'.own = p.own) (p2 : ∀ k, k < n → p'.due k = p.due k) (p3 : ∀ k, k < n → p'.pend k = p.pend k)
    (p4 : p'.early = true → s.susp = 0)
    (p5 : ∀ t r k acc, p' = .free t r k acc → acc ≤ 1 ∨ ∃ k0, k ≤ k0 ∧ k0 < n ∧ buf k0 = 1)
    (p6 : ∀ t, p' = .inYield t → (P.state s.x).isYield = true) (p7 : p' = .later → (P.state s.x).isYield = true)
    (p8 : ∀ t ps, p' = .own2 t ps → ps = (P.state s.x).isYield)
    (p9 : p' = .none → s.ready = true → (P.state s.x).isYield = true → 0 < s.susp) : One P n buf s' p' := by
  have hl : ∀ k, k < n → load s' p' k = load s p k := fun k hk => by simp only [load, h2, h3, h4, h5, p2 k hk]
  constructor
  · rw [h1, p1, sumTo_congr hl]; exact h.se
  · intro k hk; rw [hl k hk]; exact h.l1 k hk
  · intro k hk
    have := h.l0 k hk
    simpa only [load, h2, h3, h4, h5] using this
  · rw [h1]; exact p4
  · exact p5
  · rw [h6]; exact p6
  · rw [h6]; exact p7
  · rw [h6]; exact p8
  · rw [h4, h6]; exact h.cy
  · rw [h5, h6]; exact h.ca
  · intro e1 e2
    rw [h6, h1]
    rcases h9 with h9 | h9
    · exact p9 e1 (h9 ▸ e2)
    · exact absurd e1 h9
  · intro k hk; rw [h7, h8, p3 k hk]; exact h.rs k hk

theorem Tok.at {o : Option Nat} {j : Nat} (h : Tok s o) (hj : (s.pc j).tok = true) : o = some j := (h j).mp hj

/-- Thread `j` goes on. -/
theorem Tok.goto {j : Nat} {p : Pc} (h : Tok s (some j)) (hp : p.tok = true) (e : s'.pc = upd s.pc j p) : Tok s' (some j) := by
  intro i
  have := h i
  rw [e]
  grind

/-- Thread `j` ends. -/
theorem Tok.stop {j : Nat} {p : Pc} (h : Tok s (some j)) (hp : p.tok = false) (e : s'.pc = upd s.pc j p) : Tok s' none := by
  intro i
  have := h i
  rw [e]
  grind

/-- Thread `j` leaves it to a new one. -/
theorem Tok.pass {j i : Nat} {p q : Pc} (h : Tok s (some j)) (hp : p.tok = false) (hq : q.tok = true) (hi : i ≠ j)
    (e : s'.pc = upd (upd s.pc i q) j p ∨ s'.pc = upd (upd s.pc j p) i q) : Tok s' (some i) := by
  intro l
  have := h l
  rcases e with e | e <;> rw [e] <;> grind

/-- A new thread. -/
theorem Tok.new {i : Nat} {q : Pc} (h : Tok s none) (hq : q.tok = true)
    (e : s'.pc = upd s.pc i q) : Tok s' (some i) := by
  intro l
  have := h l
  rw [e]
  grind

theorem Tok.other {j : Nat} {p : Pc} {o : Option Nat} (h : Tok s o) (hj : (s.pc j).tok = false) (hp : p.tok = false)
    (e : s'.pc = upd s.pc j p) : Tok s' o := by
  intro l
  have := h l
  rw [e]
  grind

theorem One.job (hn : Narrow n buf) {o : Option Nat} (ht : Tok s o) (h : One P n buf s (tp s o)) (hb : Base s) {j : Nat}
    (hs : Source.step P n buf s (.job j) = some s') : ∃ o', Tok s' o' ∧ One P n buf s' (tp s' o') := by
  have hj : s.pc j ≠ .none → j < s.next := fun h1 => Nat.lt_of_not_le fun h2 => h1 (hb.fr j h2)
  simp only [Source.step] at hs
  by_cases hk : (s.pc j).tok = true
  · obtain rfl := ht.at hk
    simp only [tp] at h
    have hjn : j ≠ s.next := fun e => by rw [hb.fr j (by omega)] at hk; simp [Pc.tok] at hk
    unfold stepJob at hs
    split at hs
    case h_1 => cases hs
    case h_2 hp =>
      have hq := hb.q3 j hp
      have he := h.ea (by simp [hp, Pc.early])
      rw [hp] at h
      simp only [hq.rn, decide_true, if_true] at hs
      cases hs
      refine ⟨some s.next, ht.pass (p := .none) (q := .start) rfl rfl (Ne.symm hjn) (.inr rfl), ?_⟩
      simp only [tp, spawn, goto, upd, if_true]
      exact h.move rfl rfl rfl rfl rfl rfl rfl rfl (.inl rfl) rfl (fun _ _ => rfl) (fun _ _ => rfl) (fun _ => he)
        (by simp) (by simp) (by simp) (by simp) (by simp)
    case h_3 hp =>
      have he := h.ea (by simp [hp, Pc.early])
      rw [hp] at h
      split at hs <;> cases hs
      refine ⟨some j, ht.goto (p := .decide) rfl rfl, ?_⟩
      simp only [tp, goto, upd, if_true]
      exact h.move rfl rfl rfl rfl rfl rfl rfl rfl (.inl rfl) rfl (fun _ _ => rfl) (fun _ _ => rfl) (fun _ => he)
        (by simp) (by simp) (by simp) (by simp) (by simp)
    case h_4 hp =>
      have he := h.ea (by simp [hp, Pc.early])
      rw [hp] at h
      split at hs <;> cases hs
      · rename_i hx
        refine ⟨none, ht.stop (p := .unlock) rfl rfl, ?_⟩
        simp only [tp]
        exact h.move rfl rfl rfl rfl rfl rfl rfl rfl (.inl rfl) rfl (fun _ _ => rfl) (fun _ _ => rfl) (fun _ => he)
          (by simp) (by simp) (by simp) (by simp) (by simp [hx, SState.isYield])
      · rename_i hx
        refine ⟨some j, ht.goto (p := .inYield false) rfl rfl, ?_⟩
        simp only [tp, goto, upd, if_true]
        exact h.move rfl rfl rfl rfl rfl rfl rfl rfl (.inl rfl) rfl (fun _ _ => rfl) (fun _ _ => rfl) (fun _ => he)
          (by simp) (by simp [hx, SState.isYield]) (by simp) (by simp) (by simp)
      · rename_i hx
        refine ⟨some s.next, ht.pass (p := .unlock) (q := .later) rfl rfl (Ne.symm hjn) (.inl rfl), ?_⟩
        simp only [tp, spawn, goto, upd, if_true, Ne.symm hjn, if_false]
        exact h.move rfl rfl rfl rfl rfl rfl rfl rfl (.inl rfl) rfl (fun _ _ => rfl) (fun _ _ => rfl) (fun _ => he)
          (by simp) (by simp) (by simp [hx, SState.isYield]) (by simp) (by simp)
    case h_5 hp =>
      have he := h.ea (by simp [hp, Pc.early])
      rw [hp] at h
      cases hs
      refine ⟨some j, ht.goto (p := .inYield true) rfl rfl, ?_⟩
      simp only [tp, goto, upd, if_true]
      exact h.move rfl rfl rfl rfl rfl rfl rfl rfl (.inl rfl) rfl (fun _ _ => rfl) (fun _ _ => rfl) (fun _ => he)
        (by simp) (by simp [h.lt rfl]) (by simp) (by simp) (by simp)
    case h_6 t hp =>
      have he := h.ea (by simp [hp, Pc.early])
      rw [hp] at h
      have hz := h.zero he
      cases hs
      refine ⟨some j, ht.goto (p := .free t (P.yield s.x).2 0 (if n = 0 then 0 else sizeMax)) rfl rfl, ?_⟩
      simp only [tp, goto, upd, if_true]
      have hcy : ∀ k, s.cy k = 0 := fun k => by have := hz k; simp only [load] at this; omega
      have hca : ∀ k, s.ca k = 0 := fun k => by have := hz k; simp only [load] at this; omega
      refine ⟨h.se, h.l1, h.l0, fun _ => he, ?_, by simp, by simp, by simp, by simp [hcy], by simp [hca], by simp, ?_⟩
      · intro t' r k acc e
        cases e
        rcases hn with hn | ⟨k, hk1, hk2⟩
        · simp [hn]
        · exact .inr ⟨k, Nat.zero_le _, hk1, hk2⟩
      · intro k hk
        have := h.rs k hk
        simp only [Pc.pend, List.append_nil] at this ⊢
        rw [this]
    case h_7 t r k acc hp =>
      have he := h.ea (by simp [hp, Pc.early])
      rw [hp] at h
      have hz := h.zero he
      have hd : ∀ k, s.dq k = [] := fun k => by
        have := hz k; simp only [load] at this
        exact List.eq_nil_of_length_eq_zero (by omega)
      split at hs <;> cases hs
      · refine ⟨some j, ht.goto (p := .free t r (k + 1) (min acc (freeBuffer (buf k) (s.dq k).length))) rfl rfl, ?_⟩
        simp only [tp, goto, upd, if_true]
        refine h.move rfl rfl rfl rfl rfl rfl rfl rfl (.inl rfl) rfl (fun _ _ => rfl) (fun _ _ => rfl) (fun _ => he)
          ?_ (by simp) (by simp) (by simp) (by simp)
        intro t' r' k' acc' e
        cases e
        rcases h.ac t r k acc rfl with h1 | ⟨k0, h1, h2, h3⟩
        · left; omega
        · by_cases hk0 : k0 = k
          · subst hk0
            left
            have : freeBuffer (buf k0) (s.dq k0).length = 1 := by rw [h3, hd]; rfl
            omega
          · exact .inr ⟨k0, by omega, h2, h3⟩
      · rename_i hkn
        have hacc : acc ≤ 1 := by
          rcases h.ac t r k acc rfl with h1 | ⟨k0, h1, h2, h3⟩
          · exact h1
          · omega
        refine ⟨some j, ht.goto (p := .send t r 0) rfl rfl, ?_⟩
        simp only [tp, goto, upd, if_true, hacc]
        have hcy : ∀ k, s.cy k = 0 := fun k => by have := hz k; simp only [load] at this; omega
        have hca : ∀ k, s.ca k = 0 := fun k => by have := hz k; simp only [load] at this; omega
        have hcr : ∀ k, s.cr k = 0 := fun k => by have := hz k; simp only [load] at this; omega
        refine ⟨?_, ?_, h.l0, by simp [Pc.early], by simp, by simp, by simp, by simp, by simp [hcy], by simp [hca], by simp, ?_⟩
        · have : sumTo n (load { s with pc := upd s.pc j (.send t r 0), susp := n + 1 } (.send t r 0)) = n := by
            refine Eq.trans (sumTo_congr (g := fun _ => 1) fun i _ => ?_) (sumTo_one n)
            simp [load, Pc.due, hd, hcy, hca, hcr]
          simp only [Pc.own]
          rw [this]
          omega
        · intro k _
          simp [load, Pc.due, hd, hcy, hca, hcr]
        · intro k hk
          have := h.rs k hk
          simpa [Pc.pend] using this
    case h_8 t r k hp =>
      rw [hp] at h
      split at hs <;> cases hs
      · rename_i hkn
        refine ⟨some j, ht.goto (p := .send t r (k + 1)) rfl rfl, ?_⟩
        simp only [tp, goto]
        have hu : upd s.pc j (.send t r (k + 1)) j = .send t r (k + 1) := by simp [upd]
        rw [hu]
        have hl : ∀ i, load { s with pc := upd s.pc j (.send t r (k + 1)), dq := upd s.dq k (s.dq k ++ [r]), sent := upd s.sent k (s.sent k ++ [r]) }
            (.send t r (k + 1)) i = load s (.send t r k) i := by
          intro i
          simp only [load, Pc.due]
          by_cases hi : i = k
          · subst hi; simp [upd]
          · have : (k + 1 ≤ i) ↔ (k ≤ i) := by omega
            simp only [upd, hi, if_false, decide_eq_true_eq, this]
        refine ⟨?_, ?_, ?_, by simp [Pc.early], by simp, by simp, by simp, by simp, h.cy, h.ca, by simp, ?_⟩
        · rw [sumTo_congr fun i _ => hl i]; exact h.se
        · intro i hi; rw [hl i]; exact h.l1 i hi
        · intro i hi
          have := h.l0 i hi
          simp only [load, upd, show i ≠ k by omega, if_false] at this ⊢
          exact this
        · intro i hi
          have := h.rs i hi
          simp only [Pc.pend, upd] at this ⊢
          by_cases hik : i = k
          · subst hik; simp_all
          · have h2 : (k + 1 ≤ i) ↔ (k ≤ i) := by omega
            simp only [hik, if_false, h2]; exact this
      · rename_i hkn
        refine ⟨some j, ht.goto (p := .own1 t) rfl rfl, ?_⟩
        simp only [tp, goto, upd, if_true]
        refine h.move rfl rfl rfl rfl rfl rfl rfl rfl (.inl rfl) rfl ?_ ?_ (by simp [Pc.early])
          (by simp) (by simp) (by simp) (by simp) (by simp)
        · intro i hi; simp only [Pc.due]; symm; simp; omega
        · intro i hi; simp only [Pc.pend]; rw [if_neg (by omega)]
    case h_9 t hp =>
      rw [hp] at h
      cases hs
      refine ⟨some j, ht.goto (p := .own2 t (P.state s.x).isYield) rfl rfl, ?_⟩
      simp only [tp, goto, upd, if_true]
      exact h.move rfl rfl rfl rfl rfl rfl rfl rfl (.inl rfl) rfl (fun _ _ => rfl) (fun _ _ => rfl) (by simp [Pc.early])
        (by simp) (by simp) (by simp) (by simp) (by simp)
    case h_10 t ps hp =>
      rw [hp] at h
      cases hs
      have hps := h.o2 t ps rfl
      have hse := h.se
      simp only [Pc.own] at hse
      have hl : ∀ p : Pc, p.tok = false ∨ p = .start → ∀ i, load s p i = load s (.own2 t ps) i := by
        intro p hp i
        rcases hp with hp | rfl
        · cases p <;> simp_all [load, Pc.tok, Pc.due]
        · simp [load, Pc.due]
      simp only [crit]
      have hpt : (if t then Pc.none else .unlock).tok = false := by cases t <;> rfl
      split
      · rename_i h0
        split
        · rename_i hy
          refine ⟨some s.next, ht.pass (p := if t then .none else .unlock) (q := .start) hpt rfl (Ne.symm hjn) (.inl rfl), ?_⟩
          simp only [tp, spawn, goto, back, upd, if_true, Ne.symm hjn, if_false]
          refine ⟨?_, h.l1, h.l0, by simp [h0], by simp, by simp, by simp, by simp, h.cy, h.ca, by simp, h.rs⟩
          simp only [Pc.own]
          refine Eq.trans ?_ (congrArg _ (sumTo_congr fun i _ => (hl .start (.inr rfl) i).symm))
          omega
        · rename_i hy
          refine ⟨none, ht.stop (p := if t then .none else .unlock) hpt rfl, ?_⟩
          simp only [tp, goto, back]
          refine ⟨?_, h.l1, h.l0, by simp [h0], by simp, by simp, by simp, by simp, h.cy, h.ca, ?_, h.rs⟩
          · simp only [Pc.own]
            refine Eq.trans ?_ (congrArg _ (sumTo_congr fun i _ => (hl .none (.inl rfl) i).symm))
            omega
          · intro _ _ h2
            exact absurd (hps.trans h2) hy
      · rename_i h0
        refine ⟨none, ht.stop (p := if t then .none else .unlock) hpt rfl, ?_⟩
        simp only [tp, goto, back]
        refine ⟨?_, h.l1, h.l0, by simp [Pc.early], by simp, by simp, by simp, by simp, h.cy, h.ca, fun _ _ _ => Nat.pos_of_ne_zero h0, h.rs⟩
        simp only [Pc.own]
        refine Eq.trans ?_ (congrArg _ (sumTo_congr fun i _ => (hl .none (.inl rfl) i).symm))
        omega
    case h_11 hp => simp [hp, Pc.tok] at hk
  · unfold stepJob at hs
    split at hs <;> (try (rename_i hp; simp [hp, Pc.tok] at hk; done))
    · cases hs
    · rename_i hp
      cases hs
      refine ⟨o, ht.other (j := j) (p := .none) (by simp [hp, Pc.tok]) rfl rfl, ?_⟩
      cases o with
      | none => exact ⟨h.se, h.l1, h.l0, h.ea, h.ac, h.iy, h.lt, h.o2, h.cy, h.ca, h.bz, h.rs⟩
      | some i =>
        have hi : i ≠ j := by
          rintro rfl
          have := (ht i).mpr rfl
          simp [hp, Pc.tok] at this
        simp only [tp, goto, upd, hi, if_false]
        exact ⟨h.se, h.l1, h.l0, h.ea, h.ac, h.iy, h.lt, h.o2, h.cy, h.ca, h.bz, h.rs⟩

/-- Receiver `k` calls `clear_to_send`. -/
theorem One.clear {o : Option Nat} {ps : Bool} {k : Nat} {s1 : St σ} (h : One P n buf s (tp s o)) (ht : Tok s o)
    (hsp : 0 < s.susp) (hkn : k < n) (e1 : s1.susp = s.susp)
    (e2 : ∀ i, i ≠ k → s1.cy i + s1.ca i = s.cy i + s.ca i) (e3 : s1.cy k + s1.ca k + 1 = s.cy k + s.ca k)
    (e4 : s1.pc = s.pc) (e5 : s1.next = s.next) (e6 : s1.dq = s.dq) (e7 : s1.cr = s.cr) (e8 : s1.x = s.x)
    (e10 : s1.sent = s.sent) (e11 : s1.outs = s.outs)
    (c1 : ∀ i, s1.cy i ≠ 0 → (P.state s.x).isYield = true) (c2 : ∀ i, s1.ca i ≠ 0 → (P.state s.x).isYield = false)
    (c3 : ps = true → (P.state s.x).isYield = true) (c4 : ps = false → (P.state s.x).isYield = false) :
    ∃ o', Tok (crit ps s1) o' ∧ One P n buf (crit ps s1) (tp (crit ps s1) o') := by
  have hl : ∀ p i, load (crit ps s1) p i + (if i = k then 1 else 0) = load s p i := by
    intro p i
    simp only [load, crit_dq, crit_cr, crit_cy, crit_ca, e6, e7]
    by_cases hi : i = k
    · subst hi; simp only [if_true]; omega
    · have := e2 i hi
      simp only [hi, if_false]; omega
  have hsum : ∀ p, sumTo n (load (crit ps s1) p) + 1 = sumTo n (load s p) := fun p => Verif.Process.sumTo_dec hkn (hl p)
  have hl1 : ∀ p, (∀ i, i < n → load s p i ≤ 1) → ∀ i, i < n → load (crit ps s1) p i ≤ 1 := by
    intro p h1 i hi
    have := hl p i
    have := h1 i hi
    omega
  have hl0 : ∀ i, n ≤ i → load (crit ps s1) .none i = 0 := by
    intro i hi
    have := hl .none i
    have := h.l0 i hi
    omega
  have hse := h.se
  have hsu : (crit ps s1).susp = s.susp - 1 := by rw [crit_susp, e1]
  have hne : (tp s o).early = false := by
    cases he : (tp s o).early with
    | false => rfl
    | true => have := h.ea he; omega
  by_cases h0 : s.susp - 1 = 0
  · have := hsum (tp s o)
    have ho : o = none := by
      cases o with
      | none => rfl
      | some i =>
        exfalso
        have h2 := (ht i).mpr rfl
        simp only [tp] at hne hse this
        have h3 : (s.pc i).own = 0 := by omega
        cases hp : s.pc i <;> simp_all [Pc.own, Pc.tok, Pc.early]
    subst ho
    simp only [tp] at h
    cases ps with
    | true =>
      have hc : crit true s1 = spawn .start { s1 with susp := s1.susp - 1 } := by simp [crit, e1, h0]
      refine ⟨some s.next, ht.new (q := .start) rfl (by rw [hc]; simp [spawn, e4, e5]), ?_⟩
      have hp : tp (crit true s1) (some s.next) = .start := by rw [hc]; simp [tp, spawn, e5, upd]
      rw [hp]
      refine ⟨?_, ?_, hl0, fun _ => by omega, by simp, by simp, by simp, by simp, ?_, ?_, by simp, ?_⟩
      · have := hsum .start
        have h4 : sumTo n (load s .start) = sumTo n (load s .none) := sumTo_congr fun _ _ => rfl
        simp only [tp, Pc.own] at hse ⊢
        omega
      · exact hl1 .start h.l1
      · rw [crit_cy, crit_x, e8]; exact c1
      · rw [crit_ca, crit_x, e8]; exact c2
      · rw [crit_sent, crit_outs, e10, e11]; exact h.rs
    | false =>
      have hc : (crit false s1).pc = s.pc := by simp [crit, e1, h0, e4]
      refine ⟨none, by simpa only [Tok, hc] using ht, ?_⟩
      simp only [tp]
      refine ⟨?_, hl1 _ h.l1, hl0, fun _ => by omega, by simp, by simp, by simp, by simp, ?_, ?_, ?_, ?_⟩
      · have := hsum .none
        simp only [tp, Pc.own] at hse ⊢
        omega
      · rw [crit_cy, crit_x, e8]; exact c1
      · rw [crit_ca, crit_x, e8]; exact c2
      · rw [crit_x, e8, c4 rfl]; simp
      · rw [crit_sent, crit_outs, e10, e11]; exact h.rs
  · have hc : (crit ps s1).pc = s.pc := by simp [crit, e1, h0, e4]
    have hp : tp (crit ps s1) o = tp s o := by cases o <;> simp [tp, hc]
    refine ⟨o, by simpa only [Tok, hc] using ht, ?_⟩
    rw [hp]
    refine ⟨?_, hl1 _ h.l1, hl0, by simp [hne], h.ac, ?_, ?_, ?_, ?_, ?_, fun _ _ _ => by omega, ?_⟩
    · have := hsum (tp s o)
      omega
    · rw [crit_x, e8]; exact h.iy
    · rw [crit_x, e8]; exact h.lt
    · rw [crit_x, e8]; exact h.o2
    · rw [crit_cy, crit_x, e8]; exact c1
    · rw [crit_ca, crit_x, e8]; exact c2
    · rw [crit_sent, crit_outs, e10, e11]; exact h.rs

theorem Base.of_reachable (h : Reachable P n buf s) : Base s := by
  induction h with
  | init => exact init_base P
  | step _ hs ih => exact ih.step hs

theorem One.step (hn : Narrow n buf) {o : Option Nat} (ht : Tok s o) (h : One P n buf s (tp s o)) (hb : Base s) {a : Act}
    (hs : Source.step P n buf s a = some s') : ∃ o', Tok s' o' ∧ One P n buf s' (tp s' o') := by
  cases a with
  | job j => exact One.job hn ht h hb hs
  | fail j =>
    simp only [Source.step] at hs
    split at hs <;> cases hs
    rename_i hp
    have hk : (s.pc j).tok = true := by simp [hp, Pc.tok]
    obtain rfl := ht.at hk
    simp only [tp] at h
    have hjn : j ≠ s.next := fun e => by rw [hb.fr j (by omega)] at hk; simp [Pc.tok] at hk
    have he := h.ea (by simp [hp, Pc.early])
    rw [hp] at h
    refine ⟨some s.next, ht.pass (p := .none) (q := .start) rfl rfl (Ne.symm hjn) (.inr rfl), ?_⟩
    simp only [tp, spawn, goto, upd, if_true]
    exact h.move rfl rfl rfl rfl rfl rfl rfl rfl (.inl rfl) rfl (fun _ _ => rfl) (fun _ _ => rfl) (fun _ => he)
      (by simp) (by simp) (by simp) (by simp) (by simp)
  | ready =>
    simp only [Source.step] at hs
    split at hs <;> cases hs
    rename_i hr
    have hr : s.ready = false := by simpa using hr
    have hq := hb.q2 hr
    have ho : o = none := by
      cases o with
      | none => rfl
      | some i =>
        have := (ht i).mpr rfl
        simp [hb.q0 hr i, Pc.tok] at this
    subst ho
    refine ⟨some s.next, ht.new (q := .ready2) rfl rfl, ?_⟩
    simp only [tp, spawn, upd, if_true]
    exact One.move (p := .none) h rfl rfl rfl rfl rfl rfl rfl rfl (.inr (by simp)) rfl (fun _ _ => rfl) (fun _ _ => rfl) (fun _ => hq.su)
      (by simp) (by simp) (by simp) (by simp) (by simp)
  | pop k =>
    simp only [Source.step] at hs
    split at hs <;> cases hs
    rename_i m l hd
    have hkn : k < n := Nat.lt_of_not_le fun h1 => by
      have := h.l0 k h1
      simp [load, hd] at this
    have hl0 : l = [] := by
      have := h.l1 k hkn
      simp only [load, hd, List.length_cons] at this
      exact List.eq_nil_of_length_eq_zero (by omega)
    subst hl0
    have hl : ∀ p i, load { s with dq := upd s.dq k [], cr := upd s.cr k (s.cr k + if ([] : List Msg).length ≤ usub (buf k) 1 then 1 else 0) } p i
        = load s p i := by
      intro p i
      simp only [load]
      by_cases hi : i = k
      · subst hi; simp [upd, hd]; omega
      · simp only [upd, hi, if_false]
    refine ⟨o, ht, ?_⟩
    have htp : tp { s with dq := upd s.dq k [], cr := upd s.cr k (s.cr k + if ([] : List Msg).length ≤ usub (buf k) 1 then 1 else 0) } o = tp s o := by
      cases o <;> rfl
    rw [htp]
    refine ⟨?_, ?_, ?_, h.ea, h.ac, h.iy, h.lt, h.o2, h.cy, h.ca, h.bz, h.rs⟩
    · rw [sumTo_congr fun i _ => hl _ i]; exact h.se
    · intro i hi; rw [hl]; exact h.l1 i hi
    · intro i hi; rw [hl]; exact h.l0 i hi
  | ask k =>
    simp only [Source.step] at hs
    split at hs
    · cases hs
    rename_i hc
    split at hs <;> cases hs
    · rename_i hy
      have hl : ∀ p i, load { s with cr := upd s.cr k (s.cr k - 1), cy := upd s.cy k (s.cy k + 1) } p i = load s p i := by
        intro p i
        simp only [load]
        by_cases hi : i = k
        · subst hi; simp only [upd, if_true]; omega
        · simp only [upd, hi, if_false]
      refine ⟨o, ht, ?_⟩
      have htp : tp { s with cr := upd s.cr k (s.cr k - 1), cy := upd s.cy k (s.cy k + 1) } o = tp s o := by cases o <;> rfl
      rw [htp]
      refine ⟨?_, ?_, ?_, h.ea, h.ac, h.iy, h.lt, h.o2, fun _ _ => hy, h.ca, h.bz, h.rs⟩
      · rw [sumTo_congr fun i _ => hl _ i]; exact h.se
      · intro i hi; rw [hl]; exact h.l1 i hi
      · intro i hi; rw [hl]; exact h.l0 i hi
    · rename_i hy
      have hl : ∀ p i, load { s with cr := upd s.cr k (s.cr k - 1), ca := upd s.ca k (s.ca k + 1) } p i = load s p i := by
        intro p i
        simp only [load]
        by_cases hi : i = k
        · subst hi; simp only [upd, if_true]; omega
        · simp only [upd, hi, if_false]
      refine ⟨o, ht, ?_⟩
      have htp : tp { s with cr := upd s.cr k (s.cr k - 1), ca := upd s.ca k (s.ca k + 1) } o = tp s o := by cases o <;> rfl
      rw [htp]
      refine ⟨?_, ?_, ?_, h.ea, h.ac, h.iy, h.lt, h.o2, h.cy, fun _ _ => by simpa using hy, h.bz, h.rs⟩
      · rw [sumTo_congr fun i _ => hl _ i]; exact h.se
      · intro i hi; rw [hl]; exact h.l1 i hi
      · intro i hi; rw [hl]; exact h.l0 i hi
  | cts k ps =>
    simp only [Source.step] at hs
    have hpos : ∀ k, 0 < s.cy k + s.ca k → k < n ∧ 0 < s.susp := by
      intro k h1
      have hkn : k < n := Nat.lt_of_not_le fun h2 => by
        have := h.l0 k h2
        simp only [load] at this
        omega
      refine ⟨hkn, Nat.pos_of_ne_zero fun h2 => ?_⟩
      have := h.zero h2 k
      simp only [load] at this
      omega
    split at hs
    · split at hs <;> cases hs
      rename_i hc
      obtain ⟨hkn, hsp⟩ := hpos k (by omega)
      exact h.clear ht hsp hkn rfl (by
        intro i hi
        simp only [upd, hi, if_false]) (by simp only [upd, if_true]; omega) rfl rfl rfl rfl rfl rfl rfl
        (by intro i; simp only [upd]; split <;> (try subst i) <;> intro h1 <;> exact h.cy _ (by omega)) h.ca (fun _ => h.cy k hc) (by simp)
    · split at hs <;> cases hs
      rename_i hc
      obtain ⟨hkn, hsp⟩ := hpos k (by omega)
      exact h.clear ht hsp hkn rfl (by
        intro i hi
        simp only [upd, hi, if_false]) (by simp only [upd, if_true]; omega) rfl rfl rfl rfl rfl rfl rfl
        h.cy (by intro i; simp only [upd]; split <;> (try subst i) <;> intro h1 <;> exact h.ca _ (by omega)) (by simp) (fun _ => h.ca k hc)

theorem One.of_reachable (hn : Narrow n buf) (h : Reachable P n buf s) : ∃ o, Tok s o ∧ One P n buf s (tp s o) := by
  induction h with
  | init =>
    refine ⟨none, by simp [Tok, init, Pc.tok], ?_⟩
    simp only [tp]
    constructor <;> simp [init, Pc.own, load, Pc.due, Pc.early, Pc.pend]
    exact (sumTo_zero n).symm
  | step h hs ih =>
    obtain ⟨o, ht, h1⟩ := ih
    exact h1.step hn ht (Base.of_reachable h) hs

end Verif.Source
