import Verif.Channel.Process

/-!
# Invariant of processes that do not await with a time-out
-/

namespace Verif.Process

open Verif.Channel (Msg sumTo upd)

variable {σ : Type} {P : Proc σ} {n : Nat} {s s' : St σ}

/-- The process object never awaits with a time-out. -/
def Untimed (P : Proc σ) : Prop := ∀ x, P.state x ≠ .timed

/-- The thread is the one the process is `running` for. -/
def Pc.isMain : Pc → Bool
  | .none | .inactive | .clear | .unlock | .timeout | .timeout2 | .close2 | .ready2 => false
  | _ => true

/-- The thread has locked `_timeout_function_control`. -/
def Pc.holds : Pc → Bool
  | .loop | .pop | .handle _ | .inErr | .inAwait _ | .inClose _ | .decide | .taskDone | .clear | .unlock | .inactive | .timeout2 => true
  | .inYield b | .bcast b _ | .send b _ _ | .own1 b | .own2 b => b != .later
  | _ => false

/-- The thread has to do with a time-out. -/
def Pc.isTimeout : Pc → Bool
  | .timeout | .timeout2 | .inactive | .inYield .timeout | .bcast .timeout _ | .send .timeout _ _ | .own1 .timeout | .own2 .timeout => true
  | _ => false

/-- The receivers a result has still to be sent to. -/
def Pc.toSend : Pc → Nat → Nat
  | .send _ _ k0, k => if k0 ≤ k then 1 else 0
  | _, _ => 0

/-- Its own `clear_to_send` is still to come. -/
def Pc.own : Pc → Nat
  | .send _ _ _ | .own1 _ | .own2 _ => 1
  | _ => 0

/-- The message taken from the queue, but not given to the process object. -/
def Pc.pend : Pc → List Msg
  | .handle m => [m]
  | _ => []

/-- The result that has still to be sent to receiver `k`. -/
def Pc.unsent : Pc → Nat → List Msg
  | .bcast _ r, _ => [r]
  | .send _ r k0, k => if k0 ≤ k then [r] else []
  | _, _ => []

/-- The process object is about to be given a message or to be closed. -/
def Pc.waits : Pc → Bool
  | .pop | .handle _ | .inErr | .inAwait _ | .inClose _ => true
  | _ => false

/-- Where the main thread may be when the channel has been closed. -/
def Pc.closing : Pc → Bool
  | .start | .loop | .pop | .handle _ | .inErr | .inAwait _ | .inClose true | .own2 _ => false
  | _ => true

/-- Where the main thread is. -/
def pcm (s : St σ) : Pc := match s.main with
  | some j => s.pc j
  | none => .none

/-- A call of `clear_to_send` has begun. -/
def Cts.busy : Cts → Nat
  | .none => 0
  | _ => 1

/-- How many calls of `clear_to_send` will come from receiver `k`. -/
def due (s : St σ) (k : Nat) : Nat := (s.dq k).length + (s.cts k).busy + (pcm s).toSend k

/-- The invariant; `p` is where the main thread is, and `D` is `due`. -/
structure InvP (P : Proc σ) (n : Nat) (s : St σ) (p : Pc) (D : Nat → Nat) : Prop where
  fr : ∀ j, s.next ≤ j → s.pc j = .none
  mn : ∀ j, (s.pc j).isMain = true ↔ s.main = some j
  lk : ∀ j, (s.pc j).holds = true ↔ s.lock = some j
  nt : ∀ j, (s.pc j).isTimeout = false
  ac : s.active = false
  rn : s.main ≠ none → s.running = true
  sp : s.final = false → s.susp = p.own + sumTo n D
  d1 : ∀ k, D k ≤ 1
  dn : ∀ k, n ≤ k → s.dq k = [] ∧ s.cts k = .none
  wt : s.running = true → s.final = false → s.main = none → 0 < s.susp
  id : s.running = false → s.susp = 0 ∨ s.final = true
  nq : s.running = false → s.ready = true → (∃ j, s.pc j = .ready2) ∨ (s.q = [] ∧ s.closeQ = false)
  aw : s.running = false → ∀ x, s.proc = some x → (P.state x).isYield = false ∨ x = P.start
  so : s.snd = 0 ↔ s.closeQ = true ∨ s.final = true ∨ ∃ j, s.pc j = .close2
  c1 : ∀ j, s.pc j = .close2 → s.closeQ = false ∧ s.final = false
  c2 : ∀ j j', s.pc j = .close2 → s.pc j' = .close2 → j = j'
  fi : s.final = true → s.closeQ = false ∧ s.q = [] ∧ (∀ k, s.cts k ≠ .second) ∧ p.closing = true ∧ s.early < s.closes
  cl : ∀ j, s.pc j = .clear → s.final = true ∧ s.main = none
  pr : s.proc = none → s.final = true ∧ s.main = none ∧ s.down = false
  dw : s.down = false → s.proc = none
  yi : ∀ b, p = .inYield b → ∃ x, s.proc = some x ∧ ((P.state x).isYield = true ∨ P.state x = .expired)
  ay : p.waits = true → ∀ x, s.proc = some x → (P.state x).isYield = false
  la : p = .later → ∃ x, s.proc = some x ∧ P.state x = .later
  er : p = .inErr → P.setError ≠ none
  td : p = .taskDone → ∃ x, s.proc = some x ∧ P.state x = .forever
  ze : s.main ≠ none → p.own = 0 → ∀ k, D k = 0
  hi : s.inp = s.took ++ p.pend ++ s.q
  ou : ∀ k, k < n → s.outs = s.sent k ++ p.unsent k
  ec : s.early ≤ s.closes

def Inv (P : Proc σ) (n : Nat) (s : St σ) : Prop := InvP P n s (pcm s) (due s)

theorem sumTo_zero : ∀ n, sumTo n (fun _ => 0) = 0
  | 0 => rfl
  | n + 1 => by simp [sumTo, sumTo_zero n]

theorem sumTo_one : ∀ n, sumTo n (fun _ => 1) = n
  | 0 => rfl
  | n + 1 => by simp [sumTo, sumTo_one n]

theorem init_inv (P : Proc σ) (n : Nat) : Inv P n (init P) := by
  have hq : pcm (init P) = .none := rfl
  have hD : due (init P) = fun _ => 0 := by funext k; simp [due, init, pcm, Pc.toSend, Cts.busy]
  rw [Inv, hq, hD]
  constructor <;> simp [init, Pc.isMain, Pc.holds, Pc.isTimeout, Pc.own, sumTo_zero, Pc.unsent, Pc.pend, Pc.waits]

theorem upd_apply {α : Type} (f : Nat → α) (k : Nat) (x : α) (i : Nat) : upd f k x i = if i = k then x else f i := rfl

theorem Inv.main (h : Inv P n s) {j : Nat} {p : Pc} (hp : s.pc j = p) (hm : p.isMain = true) :
    s.main = some j ∧ pcm s = p ∧ s.running = true ∧ j < s.next ∧ (∃ x, s.proc = some x) ∧ s.down = true := by
  have h1 := (h.mn j).1 (by rw [hp]; exact hm)
  have h2 : s.proc ≠ none := by
    intro hx
    have := (h.pr hx).2.1; simp [h1] at this
  refine ⟨h1, by simp [pcm, h1, hp], h.rn (by simp [h1]), ?_, ?_, ?_⟩
  · refine Nat.lt_of_not_le fun hl => ?_
    rw [h.fr j hl] at hp; subst hp; cases hm
  · exact Option.ne_none_iff_exists'.1 h2
  · rcases hd : s.down with _ | _
    · exact absurd (h.dw hd) h2
    · rfl

set_option hygiene false in
/-- All fields of the invariant at once. -/
macro "fin" : tactic => `(tactic| (
  generalize due s = D at *
  obtain ⟨fr, mn, lk, nt, ac, rn, sp, d1, dn, wt, id, nq, aw, so, c1, c2, fi, cl, pr, dw, yi, ay, la, er, td, ze, hi, ou, ec⟩ := h
  clear hq' hD hq
  constructor
  all_goals try ((try simp only [goto, spawn, run, back, upd_apply]) <;> grind [PState.isYield, Pc.waits, Pc.isMain, Pc.holds, Pc.isTimeout, Pc.own, Pc.toSend, Pc.pend, Pc.unsent, Pc.closing])))

set_option hygiene false in
/-- A step of the main thread `j` to `p`, in which it remains the main thread. -/
macro "mainstep" s':term ", " p:term : tactic => `(tactic| (
  obtain ⟨hm, hq, hr, hj, ⟨x, hx⟩, hdn⟩ := h.main hp (by first | rfl | exact hp0)
  have hq' : pcm $s' = $p := by simp [pcm, goto, hm, upd]
  have hD : due $s' = due s := by
    funext k; simp only [due, hq', hq]; grind [goto, Pc.toSend]
  rw [Inv, hq] at h
  rw [Inv, hq', hD]))

theorem Inv.start (h : Inv P n s) {j : Nat} (hp : s.pc j = .start) (hl : s.lock = none) :
    Inv P n (goto j .loop { s with lock := some j, active := false }) := by
  mainstep (goto j .loop { s with lock := some j, active := false }), (.loop)
  fin

theorem Inv.loop (h : Inv P n s) {j : Nat} {p : Pc} {y : σ} (hp : s.pc j = .loop) (hy : s.proc = some y) (hp' : p = if (P.state y).isYield then .decide else .pop) :
    Inv P n (goto j p s) := by
  mainstep (goto j p s), (p)
  fin

theorem Inv.pop0 (h : Inv P n s) {j : Nat} (hp : s.pc j = .pop) (hl : s.q = []) :
    Inv P n (goto j (.inClose false) { s with closeQ := false, final := s.closeQ, closes := s.closes + 1, early := s.early + if s.snd = 0 then 0 else 1 }) := by
  mainstep (goto j (.inClose false) { s with closeQ := false, final := s.closeQ, closes := s.closes + 1, early := s.early + if s.snd = 0 then 0 else 1 }), (.inClose false)
  have hc : ∀ k, s.cts k = .none := by
    intro k
    have := h.ze (by simp [hm]) rfl k
    grind [due, Cts.busy]
  fin

theorem Inv.pop1 (h : Inv P n s) {j : Nat} {m : Msg} {q : List Msg} (hp : s.pc j = .pop) (hl : s.q = m :: q) :
    Inv P n (goto j (.handle m) { s with q := q }) := by
  mainstep (goto j (.handle m) { s with q := q }), (.handle m)
  fin

theorem Inv.handleE (h : Inv P n s) {j : Nat} {m : Msg} (hp : s.pc j = .handle m) (he : P.setError ≠ none) :
    Inv P n (goto j .inErr { s with took := s.took ++ [m] }) := by
  mainstep (goto j .inErr { s with took := s.took ++ [m] }), (.inErr)
  fin

theorem Inv.handleC (h : Inv P n s) {j : Nat} {m : Msg} (hp : s.pc j = .handle m) :
    Inv P n (goto j (.inClose true) { s with took := s.took ++ [m], closes := s.closes + 1, early := s.early + if s.snd = 0 then 0 else 1 }) := by
  mainstep (goto j (.inClose true) { s with took := s.took ++ [m], closes := s.closes + 1, early := s.early + if s.snd = 0 then 0 else 1 }), (.inClose true)
  fin

theorem Inv.handleV (h : Inv P n s) {j : Nat} {m : Msg} {v : Nat} (hp : s.pc j = .handle m) :
    Inv P n (goto j (.inAwait v) { s with took := s.took ++ [m] }) := by
  mainstep (goto j (.inAwait v) { s with took := s.took ++ [m] }), (.inAwait v)
  fin

theorem Inv.mem (h : Inv P n s) {j : Nat} {p p' : Pc} {y : σ} (hp : s.pc j = p) (hc : p = .inErr ∨ (∃ v, p = .inAwait v) ∨ p = .inClose true) (hp' : p' = .loop) :
    Inv P n (goto j p' { s with proc := some y }) := by
  have hp0 : p.isMain = true := by grind [Pc.isMain]
  mainstep (goto j p' { s with proc := some y }), (p')
  fin

theorem Inv.mem2 (h : Inv P n s) {j : Nat} {y : σ} (hp : s.pc j = .inClose false) :
    Inv P n (goto j .decide { s with proc := some y }) := by
  mainstep (goto j .decide { s with proc := some y }), (.decide)
  fin

theorem Inv.throw (h : Inv P n s) {j : Nat} {p : Pc} {y : σ} (hp : s.pc j = p) (hc : p = .inErr ∨ (∃ v, p = .inAwait v) ∨ (∃ v, p = .inClose v)) :
    Inv P n (goto j (.bcast .step .err) { s with proc := some y, outs := s.outs ++ [.err] }) := by
  have hp0 : p.isMain = true := by grind [Pc.isMain]
  mainstep (goto j (.bcast .step .err) { s with proc := some y, outs := s.outs ++ [.err] }), (.bcast .step .err)
  fin

theorem Inv.decideY (h : Inv P n s) {j : Nat} {y : σ} (hp : s.pc j = .decide) (hy : s.proc = some y) (hs : P.state y = .now ∨ P.state y = .expired) :
    Inv P n (goto j (.inYield .step) s) := by
  mainstep (goto j (.inYield .step) s), (.inYield .step)
  fin

theorem Inv.decideF (h : Inv P n s) {j : Nat} {y : σ} (hp : s.pc j = .decide) (hy : s.proc = some y) (hs : P.state y = .forever) :
    Inv P n (goto j .taskDone s) := by
  mainstep (goto j .taskDone s), (.taskDone)
  fin

theorem Inv.yield (h : Inv P n s) {j : Nat} {y : σ} {b : By} {r : Msg} (hp : s.pc j = .inYield b) :
    Inv P n (goto j (.bcast b r) { s with proc := some y, outs := s.outs ++ [r] }) := by
  mainstep (goto j (.bcast b r) { s with proc := some y, outs := s.outs ++ [r] }), (.bcast b r)
  cases b
  all_goals
    fin

theorem Inv.own12 (h : Inv P n s) {j : Nat} {b : By} (hp : s.pc j = .own1 b) (hf : s.final = false) :
    Inv P n (goto j (.own2 b) s) := by
  mainstep (goto j (.own2 b) s), (.own2 b)
  fin

theorem Inv.later (h : Inv P n s) {j : Nat} (hp : s.pc j = .later) :
    Inv P n (goto j (.inYield .later) s) := by
  mainstep (goto j (.inYield .later) s), (.inYield .later)
  fin

theorem sumTo_eq_zero {f : Nat → Nat} : ∀ {n : Nat}, sumTo n f = 0 → ∀ k, k < n → f k = 0
  | 0, _, k, hk => by omega
  | n + 1, h, k, hk => by
    simp only [sumTo] at h
    by_cases he : k = n
    · subst he; omega
    · exact sumTo_eq_zero (n := n) (by omega) k (by omega)

theorem Inv.due0 (h : Inv P n s) (hm : s.main ≠ none) (hq : (pcm s).own = 0) (k : Nat) : s.dq k = [] ∧ s.cts k = .none := by
  have := h.ze hm hq k
  rcases hc : s.cts k <;> simp [due, hc, Cts.busy] at this
  simp [this]

theorem Inv.decideL (h : Inv P n s) {j : Nat} {y : σ} (hp : s.pc j = .decide) (hy : s.proc = some y) (hs : P.state y = .later) :
    Inv P n (goto j .unlock { spawn .later s with main := some s.next }) := by
  obtain ⟨hm, hq, hr, hj, ⟨x, hx⟩, hdn⟩ := h.main hp rfl
  have hq' : pcm (goto j .unlock { spawn .later s with main := some s.next }) = .later := by
    simp [pcm, goto, spawn, upd]; omega
  have hD : due (goto j .unlock { spawn .later s with main := some s.next }) = due s := by
    funext k; simp only [due, hq', hq]; grind [goto, spawn, Pc.toSend]
  rw [Inv, hq] at h
  rw [Inv, hq', hD]
  fin

theorem Inv.bcast (h : Inv P n s) {j : Nat} {b : By} {r : Msg} (hp : s.pc j = .bcast b r) :
    Inv P n (goto j (.send b r 0) { s with susp := n + 1 }) := by
  obtain ⟨hm, hq, hr, hj, ⟨x, hx⟩, hdn⟩ := h.main hp rfl
  have hq' : pcm (goto j (.send b r 0) { s with susp := n + 1 }) = .send b r 0 := by simp [pcm, goto, hm, upd]
  have hz := h.due0 (by simp [hm]) (by simp [hq, Pc.own])
  have hD : due (goto j (.send b r 0) { s with susp := n + 1 }) = fun _ => 1 := by
    funext k; simp only [due, hq']; simp [goto, hz, Pc.toSend, Cts.busy]
  rw [Inv, hq] at h
  rw [Inv, hq', hD]
  have h1 := sumTo_one n
  cases b
  all_goals
    fin

theorem Inv.send (h : Inv P n s) {j : Nat} {b : By} {r : Msg} {k : Nat} (hp : s.pc j = .send b r k) (hk : k < n) :
    Inv P n (goto j (.send b r (k + 1)) { s with dq := upd s.dq k (s.dq k ++ [r]), sent := upd s.sent k (s.sent k ++ [r]) }) := by
  obtain ⟨hm, hq, hr, hj, ⟨x, hx⟩, hdn⟩ := h.main hp rfl
  have hq' : pcm (goto j (.send b r (k + 1)) { s with dq := upd s.dq k (s.dq k ++ [r]), sent := upd s.sent k (s.sent k ++ [r]) }) = .send b r (k + 1) := by
    simp [pcm, goto, hm, upd]
  have hD : due (goto j (.send b r (k + 1)) { s with dq := upd s.dq k (s.dq k ++ [r]), sent := upd s.sent k (s.sent k ++ [r]) }) = due s := by
    funext i; simp only [due, hq', hq]; simp only [goto, upd_apply, Pc.toSend]
    grind
  rw [Inv, hq] at h
  rw [Inv, hq', hD]
  cases b
  all_goals
    fin

theorem Inv.sent (h : Inv P n s) {j : Nat} {b : By} {r : Msg} {k : Nat} (hp : s.pc j = .send b r k) (hk : n ≤ k) :
    Inv P n (goto j (.own1 b) s) := by
  obtain ⟨hm, hq, hr, hj, ⟨x, hx⟩, hdn⟩ := h.main hp rfl
  have hq' : pcm (goto j (.own1 b) s) = .own1 b := by simp [pcm, goto, hm, upd]
  have hD1 : ∀ i, i < n → due (goto j (.own1 b) s) i = due s i := by
    intro i hi; simp only [due, hq', hq]; simp only [goto, Pc.toSend]
    grind
  have hD2 : ∀ i, due (goto j (.own1 b) s) i ≤ due s i := by
    intro i; simp only [due, hq', hq]; simp only [goto, Pc.toSend]
    grind
  have hS := Verif.Channel.sumTo_congr hD1
  rw [Inv, hq] at h
  rw [Inv, hq']
  generalize due (goto j (.own1 b) s) = D' at *
  have hD := hq'
  cases b
  all_goals
    fin


end Verif.Process
