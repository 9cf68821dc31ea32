/-!
# Receivers and senders as counted handles (include/stlab/concurrency/channel.hpp)

Any history of objects of `receiver<T>` (lines 1450-1550) and of `sender<T>` (lines 1554-1615) for any number of processes.
A receiver has `_p` and `_ready`; the count of a process is `_receiver_count` (line 753). A sender is treated as a receiver
that is never ready, with the count `_sender_count`: construction, copying, moving, assignment and destruction of both do
the same to the count. `setReady` is for receivers and `close` for senders only; the theorems hold for any mix.

The processes are alive (a sender of a process that is gone does nothing).
-/

namespace Verif.Handles

/-- The members of a receiver. -/
structure Handle where
  p : Option Nat
  ready : Bool
  deriving DecidableEq, Repr

structure St where
  /-- all objects; `none` if destroyed -/
  objs : List (Option Handle)
  /-- `_receiver_count` of each process; `none` for a process with result `void`, for which `add_receiver` and
  `remove_receiver` do nothing (lines 779, 784) -/
  cnt : List (Option Nat)

inductive Op where
  /-- a new process and its receiver: `channel()` or `operator|`, lines 1264-1273, 1509-1538 -/
  | make (void : Bool)
  /-- default construction, line 1472 -/
  | dflt
  /-- copy construction of object `i`, lines 1478-1480 (senders: 1575-1577) -/
  | copy (i : Nat)
  /-- move construction, line 1482 (1579) -/
  | move (i : Nat)
  /-- `j = i`, lines 1484-1488 (1582-1586) -/
  | assign (i j : Nat)
  /-- `j = std::move(i)`, line 1490 (1588) -/
  | moveAssign (i j : Nat)
  /-- lines 1497 (1590) -/
  | swap (i j : Nat)
  /-- lines 1492-1495 -/
  | setReady (i : Nat)
  /-- `sender::close`, lines 1600-1604 -/
  | close (i : Nat)
  /-- destruction, lines 1474-1476 (1571-1573) -/
  | destroy (i : Nat)
  deriving DecidableEq, Repr

inductive Out where
  | ok (s : St)
  /-- the assertion in line 790 (599) fails -/
  | ub
  /-- no such object -/
  | invalid

/-- `add_receiver`, lines 778-781, if there is a process. -/
def add (p : Option Nat) (s : St) : St :=
  match p with
  | none => s
  | some p => { s with cnt := s.cnt.modify p fun c => c.map (· + 1) }

/-- `remove_receiver`, lines 783-802, if there is a process. -/
def remove (p : Option Nat) (s : St) : Out :=
  match p with
  | none => .ok s
  | some p => match s.cnt[p]? with
    | some (some 0) => .ub
    | some (some (_ + 1)) => .ok { s with cnt := s.cnt.modify p fun c => c.map (· - 1) }
    | _ => .ok s

/-- The object, if it has not been destroyed. -/
def St.get (s : St) (i : Nat) : Option Handle := (s.objs[i]?).join

def St.set (s : St) (i : Nat) (h : Option Handle) : St := { s with objs := s.objs.set i h }

def St.new (s : St) (h : Handle) : St := { s with objs := s.objs ++ [some h] }

/-- `{_p = std::exchange(x._p, nullptr), _ready = x._ready}` -/
def Handle.moved (h : Handle) : Handle := { h with p := none }

/-- Set the count of process `p` down for the object that has it. -/
def drop (h : Handle) (s : St) : Out := if h.ready then .ok s else remove h.p s

def Out.bind (o : Out) (f : St → Out) : Out :=
  match o with
  | .ok s => f s
  | .ub => .ub
  | .invalid => .invalid

def step (s : St) : Op → Out
  | .make v => .ok { objs := s.objs ++ [some ⟨some s.cnt.length, false⟩], cnt := s.cnt ++ [if v then none else some 1] }
  | .dflt => .ok (s.new ⟨none, false⟩)
  | .copy i => match s.get i with
    | some h => .ok (add h.p (s.new h))
    | none => .invalid
  | .move i => match s.get i with
    | some h => .ok ((s.new h).set i (some h.moved))
    | none => .invalid
  | .assign i j => match s.get i, s.get j with
    | some h, some _ => if i = j then .invalid else .ok (add h.p (s.set j (some h)))
    | _, _ => .invalid
  | .moveAssign i j => match s.get i, s.get j with
    | some h, some _ => if i = j then .ok s else .ok ((s.set j (some h)).set i (some h.moved))
    | _, _ => .invalid
  | .swap i j => match s.get i, s.get j with
    | some h, some k => .ok ((s.set i (some k)).set j (some h))
    | _, _ => .invalid
  | .setReady i => match s.get i with
    | some h => (drop h s).bind fun s => .ok (s.set i (some { h with ready := true }))
    | none => .invalid
  | .close i => match s.get i with
    | some h => (drop h s).bind fun s => .ok (s.set i (some h.moved))
    | none => .invalid
  | .destroy i => match s.get i with
    | some h => (drop h s).bind fun s => .ok (s.set i none)
    | none => .invalid

def exec (s : St) : List Op → Out
  | [] => .ok s
  | a :: as => (step s a).bind fun s => exec s as

def init : St := ⟨[], []⟩

def Reachable (s : St) : Prop := ∃ as, exec init as = .ok s

/-- The object is a receiver of `p` that is not ready. -/
def holds (p : Nat) (o : Option Handle) : Bool := o = some ⟨some p, false⟩

/-- The receivers of `p` that exist and have not been set ready. -/
def pending (s : St) (p : Nat) : Nat := s.objs.countP (holds p)

/-- The operation does not overwrite a receiver that is not ready, and does not copy one that is. -/
def Tidy (s : St) : Op → Prop
  | .copy i => ∀ h, s.get i = some h → h.p ≠ none → h.ready = false
  | .assign i j => (∀ h, s.get i = some h → h.p ≠ none → h.ready = false) ∧ ∀ h, s.get j = some h → h.p = none ∨ h.ready = true
  | .moveAssign i j => i = j ∨ ∀ h, s.get j = some h → h.p = none ∨ h.ready = true
  | _ => True

inductive TidyReachable : St → Prop where
  | init : TidyReachable init
  | step {s s' : St} {a : Op} : TidyReachable s → Tidy s a → step s a = .ok s' → TidyReachable s'

/-! ## Counting -/

theorem get_some {s : St} {i : Nat} {h : Handle} (hi : s.get i = some h) : i < s.objs.length ∧ s.objs[i]? = some (some h) := by
  unfold St.get at hi
  cases hx : s.objs[i]? with
  | none => rw [hx] at hi; cases hi
  | some o =>
    rw [hx] at hi
    have : o = some h := hi
    exact ⟨(List.getElem?_eq_some_iff.1 hx).1, by rw [this]⟩

theorem countP_set' {α : Type} (f : α → Bool) (l : List α) (i : Nat) (a b : α) (h : l[i]? = some a) :
    (l.set i b).countP f + (if f a then 1 else 0) = l.countP f + (if f b then 1 else 0) := by
  induction l generalizing i with
  | nil => simp at h
  | cons x l ih =>
    cases i with
    | zero =>
      simp only [List.getElem?_cons_zero, Option.some.injEq] at h
      subst h
      simp only [List.set_cons_zero, List.countP_cons]
      omega
    | succ i =>
      have := ih i (by simpa using h)
      simp only [List.set_cons_succ, List.countP_cons]
      omega

theorem pending_set {s : St} {i : Nat} {h : Handle} (hi : s.get i = some h) (o : Option Handle) (p : Nat) :
    pending (s.set i o) p + (if holds p (some h) then 1 else 0) = pending s p + (if holds p o then 1 else 0) :=
  countP_set' _ _ _ _ _ (get_some hi).2

theorem pending_new (s : St) (h : Handle) (p : Nat) : pending (s.new h) p = pending s p + (if holds p (some h) then 1 else 0) := by
  simp [pending, St.new, List.countP_append, List.countP_cons]

theorem holds_moved (p : Nat) (h : Handle) : holds p (some h.moved) = false := by simp [holds, Handle.moved]

theorem get_new {s : St} {i : Nat} {h k : Handle} (hi : s.get i = some h) : (s.new k).get i = some h := by
  have := get_some hi
  simp only [St.get, St.new, List.getElem?_append_left this.1, this.2, Option.join_some]

theorem get_set_ne {s : St} {i j : Nat} {o : Option Handle} (h : i ≠ j) : (s.set i o).get j = s.get j := by
  simp [St.get, St.set, List.getElem?_set_ne h]

theorem get_set_eq {s : St} {i : Nat} {h k : Handle} (hi : s.get i = some h) : (s.set i (some k)).get i = some k := by
  simp [St.get, St.set, (get_some hi).1]

/-- All objects have processes that exist, and there are not more receivers of a process than it counts. -/
structure Inv (s : St) : Prop where
  ex : ∀ i h p, s.get i = some h → h.p = some p → p < s.cnt.length
  le : ∀ p c, s.cnt[p]? = some (some c) → pending s p ≤ c

/-- Moreover there are as many. -/
def Exact (s : St) : Prop := ∀ p c, s.cnt[p]? = some (some c) → pending s p = c

/-- What a step does to the count and the receivers of a process. -/
def Eff (s : St) (a : Op) (s' : St) (p c' : Nat) : Prop :=
  (∃ c, s.cnt[p]? = some (some c) ∧ pending s' p + c ≤ pending s p + c' ∧ (Tidy s a → pending s' p + c = pending s p + c')) ∨
    (s.cnt.length = p ∧ c' = 1 ∧ pending s' p = 1)

theorem cnt_add {p : Option Nat} {s : St} {q c' : Nat} (h : (add p s).cnt[q]? = some (some c')) :
    ∃ c, s.cnt[q]? = some (some c) ∧ c' = c + if p = some q then 1 else 0 := by
  cases p with
  | none => exact ⟨c', h, rfl⟩
  | some p =>
    simp only [add, List.getElem?_modify] at h
    cases hq : s.cnt[q]? with
    | none => rw [hq] at h; simp at h
    | some o =>
      rw [hq] at h
      cases o with
      | none => by_cases hp : p = q <;> simp [hp] at h
      | some c => refine ⟨c, rfl, ?_⟩; by_cases hp : p = q <;> simp [hp] at h ⊢ <;> omega

theorem cnt_drop {h : Handle} {s s1 : St} {q c' : Nat} (hd : drop h s = .ok s1) (hc : s1.cnt[q]? = some (some c')) :
    ∃ c, s.cnt[q]? = some (some c) ∧ c = c' + if holds q (some h) then 1 else 0 := by
  obtain ⟨p, r⟩ := h
  cases r with
  | true => cases hd; exact ⟨c', hc, by simp [holds]⟩
  | false =>
    simp only [drop, Bool.false_eq_true, ↓reduceIte] at hd
    cases p with
    | none => cases hd; exact ⟨c', hc, by simp [holds]⟩
    | some p =>
      simp only [remove] at hd
      split at hd
      · cases hd
      · next n hn =>
        cases hd
        simp only [List.getElem?_modify] at hc
        by_cases hp : p = q
        · subst hp
          rw [hn] at hc
          simp at hc
          exact ⟨n + 1, hn, by simp [holds, hc]⟩
        · simp [hp] at hc
          exact ⟨c', hc, by simp [holds, hp]⟩
      · next hn =>
        cases hd
        by_cases hp : p = q
        · subst hp
          refine absurd hc ?_
          cases c' with
          | zero => simp_all
          | succ n => exact hn n
        · exact ⟨c', hc, by simp [holds, hp]⟩

theorem objs_drop {h : Handle} {s s1 : St} (hd : drop h s = .ok s1) : s1.objs = s.objs ∧ s1.cnt.length = s.cnt.length := by
  obtain ⟨p, r⟩ := h
  cases r with
  | true => cases hd; exact ⟨rfl, rfl⟩
  | false =>
    simp only [drop, Bool.false_eq_true, ↓reduceIte] at hd
    cases p with
    | none => cases hd; exact ⟨rfl, rfl⟩
    | some p =>
      simp only [remove] at hd
      split at hd <;> cases hd
      · exact ⟨rfl, by simp⟩
      · exact ⟨rfl, rfl⟩

theorem objs_add (p : Option Nat) (s : St) : (add p s).objs = s.objs := by cases p <;> rfl

theorem length_add (p : Option Nat) (s : St) : (add p s).cnt.length = s.cnt.length := by cases p <;> simp [add]

theorem pending_congr {s s1 : St} (h : s1.objs = s.objs) (p : Nat) : pending s1 p = pending s p := by rw [pending, h, pending]

theorem get_congr {s s1 : St} (h : s1.objs = s.objs) (i : Nat) : s1.get i = s.get i := by rw [St.get, h, St.get]

/-- An operation that takes an object out of the count and changes it to one that is not counted. -/
theorem eff_drop {s s1 : St} {i : Nat} {h : Handle} {o : Option Handle} {a : Op} {p c' : Nat} (hi : s.get i = some h)
    (hd : drop h s = .ok s1) (ho : holds p o = false) (hc : (s1.set i o).cnt[p]? = some (some c')) : Eff s a (s1.set i o) p c' := by
  obtain ⟨c, h1, h2⟩ := cnt_drop hd hc
  obtain ⟨h3, -⟩ := objs_drop hd
  have h4 := pending_set (s := s1) (by rw [get_congr h3]; exact hi) o p
  rw [ho, pending_congr h3] at h4
  simp only [Bool.false_eq_true, ↓reduceIte, Nat.add_zero] at h4
  exact .inl ⟨c, h1, by omega, fun _ => by omega⟩

theorem step_eff {s s' : St} {a : Op} (I : Inv s) (h : step s a = .ok s') {p c' : Nat} (hc : s'.cnt[p]? = some (some c')) :
    Eff s a s' p c' := by
  cases a with
  | make v =>
    simp only [step, Out.ok.injEq] at h
    subst h
    simp only at hc
    by_cases hp : p < s.cnt.length
    · rw [List.getElem?_append_left hp] at hc
      refine .inl ⟨c', hc, ?_⟩
      have : pending { objs := s.objs ++ [some ⟨some s.cnt.length, false⟩], cnt := s.cnt ++ [if v then none else some 1] } p = pending s p := by
        have h1 : s.cnt.length ≠ p := by omega
        simp [pending, List.countP_append, holds, h1]
      omega
    · have hp' : p = s.cnt.length := by
        have := (List.getElem?_eq_some_iff.1 hc).1
        simp at this; omega
      subst hp'
      rw [List.getElem?_append_right (Nat.le_refl _)] at hc
      refine .inr ⟨rfl, ?_, ?_⟩
      · cases v <;> simp at hc; omega
      · have : pending s s.cnt.length = 0 := by
          rw [pending, List.countP_eq_zero]
          intro o ho hh
          simp only [holds, decide_eq_true_eq] at hh
          subst hh
          obtain ⟨i, hi⟩ := List.mem_iff_getElem?.1 ho
          have := I.ex i _ _ (by rw [St.get, hi]; rfl) rfl
          omega
        rw [pending] at this ⊢
        simp [List.countP_append, holds, this]
  | dflt =>
    simp only [step, Out.ok.injEq] at h
    subst h
    have := pending_new s ⟨none, false⟩ p
    have h0 : holds p (some ⟨none, false⟩) = false := by simp [holds]
    rw [h0] at this
    simp only [Bool.false_eq_true, ↓reduceIte, Nat.add_zero] at this
    exact .inl ⟨c', hc, by omega, fun _ => by omega⟩
  | copy i =>
    simp only [step] at h
    split at h
    · next hd hi =>
      cases h
      obtain ⟨c, h1, h2⟩ := cnt_add hc
      have h3 := pending_new s hd p
      rw [← pending_congr (objs_add hd.p (s.new hd))] at h3
      refine .inl ⟨c, h1, ?_, fun hT => ?_⟩
      · by_cases hp : hd.p = some p
        · simp only [hp, ↓reduceIte] at h2; split at h3 <;> omega
        · have : holds p (some hd) = false := by simp [holds]; intro h; rw [h] at hp; exact absurd rfl hp
          simp only [this, Bool.false_eq_true, ↓reduceIte] at h3; simp only [hp, ↓reduceIte] at h2; omega
      · by_cases hp : hd.p = some p
        · have hr := hT hd hi (by rw [hp]; simp)
          have : holds p (some hd) = true := by cases hd; simp_all [holds]
          simp only [this, ↓reduceIte] at h3; simp only [hp, ↓reduceIte] at h2; omega
        · have : holds p (some hd) = false := by simp [holds]; intro h; rw [h] at hp; exact absurd rfl hp
          simp only [this, Bool.false_eq_true, ↓reduceIte] at h3; simp only [hp, ↓reduceIte] at h2; omega
    · cases h
  | move i =>
    simp only [step] at h
    split at h
    · next hd hi =>
      cases h
      have h3 := pending_new s hd p
      have h4 := pending_set (get_new (k := hd) hi) (some hd.moved) p
      rw [holds_moved] at h4
      simp only [Bool.false_eq_true, ↓reduceIte] at h4
      exact .inl ⟨c', hc, by omega, fun _ => by omega⟩
    · cases h
  | assign i j =>
    simp only [step] at h
    split at h
    · next hd hj hi hj' =>
      split at h
      · cases h
      · cases h
        obtain ⟨c, h1, h2⟩ := cnt_add hc
        have h3 := pending_set hj' (some hd) p
        rw [← pending_congr (objs_add hd.p (s.set j (some hd)))] at h3
        have hle : (if holds p (some hd) then 1 else 0) ≤ if hd.p = some p then 1 else 0 := by
          by_cases hp : hd.p = some p
          · rw [if_pos hp]; split <;> omega
          · have : holds p (some hd) = false := by simp [holds]; intro h; rw [h] at hp; exact absurd rfl hp
            simp [this]
        refine .inl ⟨c, h1, by omega, fun hT => ?_⟩
        have h5 : holds p (some hj) = false := by
          rcases hT.2 hj hj' with h | h <;> (cases hj; simp_all [holds])
        have h6 : (if holds p (some hd) then 1 else 0) = if hd.p = some p then 1 else 0 := by
          by_cases hp : hd.p = some p
          · have hr := hT.1 hd hi (by rw [hp]; simp)
            have : holds p (some hd) = true := by cases hd; simp_all [holds]
            rw [if_pos hp, if_pos this]
          · have : holds p (some hd) = false := by simp [holds]; intro h; rw [h] at hp; exact absurd rfl hp
            simp [this, hp]
        simp only [h5, Bool.false_eq_true, ↓reduceIte, Nat.add_zero] at h3
        omega
    · cases h
  | moveAssign i j =>
    simp only [step] at h
    split at h
    · next hd hj hi hj' =>
      split at h
      · cases h; exact .inl ⟨c', hc, by omega, fun _ => by omega⟩
      · next hij =>
        cases h
        have h3 := pending_set hj' (some hd) p
        have h4 := pending_set (s := s.set j (some hd)) (i := i) (h := hd) (by rw [get_set_ne (Ne.symm hij)]; exact hi) (some hd.moved) p
        rw [holds_moved] at h4
        simp only [Bool.false_eq_true, ↓reduceIte] at h4
        refine .inl ⟨c', hc, by omega, fun hT => ?_⟩
        have h5 : holds p (some hj) = false := by
          rcases hT with h | h
          · exact absurd h hij
          · rcases h hj hj' with h | h <;> (cases hj; simp_all [holds])
        simp only [h5, Bool.false_eq_true, ↓reduceIte, Nat.add_zero] at h3
        omega
    · cases h
  | swap i j =>
    simp only [step] at h
    split at h
    · next hd hj hi hj' =>
      cases h
      have h3 := pending_set hi (some hj) p
      by_cases hij : i = j
      · subst hij
        have : hd = hj := by rw [hi] at hj'; exact Option.some.inj hj'
        subst this
        have h4 := pending_set (s := s.set i (some hd)) (i := i) (h := hd) (get_set_eq hi) (some hd) p
        exact .inl ⟨c', hc, by omega, fun _ => by omega⟩
      · have h4 := pending_set (s := s.set i (some hj)) (i := j) (h := hj) (by rw [get_set_ne hij]; exact hj') (some hd) p
        exact .inl ⟨c', hc, by omega, fun _ => by omega⟩
    · cases h
  | setReady i =>
    simp only [step] at h
    split at h
    · next hd hi =>
      cases hr : drop hd s with
      | ok s1 => rw [hr] at h; cases h; exact eff_drop hi hr (by simp [holds]) hc
      | ub => rw [hr] at h; cases h
      | invalid => rw [hr] at h; cases h
    · cases h
  | close i =>
    simp only [step] at h
    split at h
    · next hd hi =>
      cases hr : drop hd s with
      | ok s1 => rw [hr] at h; cases h; exact eff_drop hi hr (holds_moved _ _) hc
      | ub => rw [hr] at h; cases h
      | invalid => rw [hr] at h; cases h
    · cases h
  | destroy i =>
    simp only [step] at h
    split at h
    · next hd hi =>
      cases hr : drop hd s with
      | ok s1 => rw [hr] at h; cases h; exact eff_drop hi hr (by simp [holds]) hc
      | ub => rw [hr] at h; cases h
      | invalid => rw [hr] at h; cases h
    · cases h

/-- The process of an object after the step is one of before, or the new one. -/
theorem step_ex {s s' : St} {a : Op} (I : Inv s) (h : step s a = .ok s') {i : Nat} {k : Handle} {p : Nat} (hk : s'.get i = some k)
    (hp : k.p = some p) : p < s'.cnt.length := by
  have hset : ∀ (s1 : St) (i' : Nat) (o : Option Handle), (∀ i h p, s1.get i = some h → h.p = some p → p < s1.cnt.length) →
      (∀ k p, o = some k → k.p = some p → p < s1.cnt.length) →
      ∀ i h p, (s1.set i' o).get i = some h → h.p = some p → p < (s1.set i' o).cnt.length := by
    intro s1 i' o h1 h2 i h p hg hp
    by_cases hi : i' = i
    · subst hi
      have := get_some hg
      simp only [St.set, List.getElem?_set] at this
      by_cases hl : i' < s1.objs.length
      · simp [hl] at this; exact h2 h p this hp
      · simp [hl] at this
    · rw [get_set_ne hi] at hg
      exact h1 i h p hg hp
  have hnew : ∀ (s1 : St) (k : Handle), (∀ i h p, s1.get i = some h → h.p = some p → p < s1.cnt.length) →
      (∀ p, k.p = some p → p < s1.cnt.length) →
      ∀ i h p, (s1.new k).get i = some h → h.p = some p → p < (s1.new k).cnt.length := by
    intro s1 k h1 h2 i h p hg hp
    have := get_some hg
    simp only [St.new] at this
    by_cases hl : i < s1.objs.length
    · rw [List.getElem?_append_left hl] at this
      exact h1 i h p (by rw [St.get, this.2]; rfl) hp
    · have hi : i = s1.objs.length := by have := this.1; simp at this; omega
      subst hi
      simp at this
      exact h2 p (by rw [this]; exact hp)
  have hdrop : ∀ {hd : Handle} {s1 : St}, drop hd s = .ok s1 → ∀ i h p, s1.get i = some h → h.p = some p → p < s1.cnt.length := by
    intro hd s1 hd1 i h p hg hp
    obtain ⟨h1, h2⟩ := objs_drop hd1
    rw [get_congr h1] at hg
    rw [h2]
    exact I.ex i h p hg hp
  cases a with
  | make v =>
    simp only [step, Out.ok.injEq] at h
    subst h
    have h1 := hnew s ⟨some s.cnt.length, false⟩
    have hg := get_some hk
    simp only [List.length_append, List.length_cons, List.length_nil] at hg ⊢
    by_cases hl : i < s.objs.length
    · rw [List.getElem?_append_left hl] at hg
      have := I.ex i k p (by rw [St.get, hg.2]; rfl) hp
      omega
    · have hi : i = s.objs.length := by have := hg.1; omega
      subst hi
      simp at hg
      rw [← hg] at hp
      simp at hp
      omega
  | dflt =>
    simp only [step, Out.ok.injEq] at h
    subst h
    exact hnew s _ I.ex (fun p h => by cases h) i k p hk hp
  | copy j =>
    simp only [step] at h
    split at h
    · next hd hi =>
      cases h
      rw [length_add]
      rw [get_congr (objs_add _ _)] at hk
      exact hnew s _ I.ex (fun p h => I.ex j hd p hi h) i k p hk hp
    · cases h
  | move j =>
    simp only [step] at h
    split at h
    · next hd hi =>
      cases h
      exact hset _ _ _ (hnew s _ I.ex (fun p h => I.ex j hd p hi h)) (fun k p h hp => by cases h; cases hp) i k p hk hp
    · cases h
  | assign i' j =>
    simp only [step] at h
    split at h
    · next hd hj hi hj' =>
      split at h
      · cases h
      · cases h
        rw [length_add]
        rw [get_congr (objs_add _ _)] at hk
        exact hset _ _ _ I.ex (fun k p h hp => by cases h; exact I.ex i' hd p hi hp) i k p hk hp
    · cases h
  | moveAssign i' j =>
    simp only [step] at h
    split at h
    · next hd hj hi hj' =>
      split at h
      · cases h; exact I.ex i k p hk hp
      · cases h
        exact hset _ _ _ (hset _ _ _ I.ex (fun k p h hp => by cases h; exact I.ex i' hd p hi hp))
          (fun k p h hp => by cases h; cases hp) i k p hk hp
    · cases h
  | swap i' j =>
    simp only [step] at h
    split at h
    · next hd hj hi hj' =>
      cases h
      exact hset _ _ _ (hset _ _ _ I.ex (fun k p h hp => by cases h; exact I.ex j hj p hj' hp))
        (fun k p h hp => by cases h; exact I.ex i' hd p hi hp) i k p hk hp
    · cases h
  | setReady j =>
    simp only [step] at h
    split at h
    · next hd hi =>
      cases hr : drop hd s with
      | ok s1 =>
        rw [hr] at h; cases h
        exact hset _ _ _ (hdrop hr) (fun k p h hp => by cases h; rw [(objs_drop hr).2]; exact I.ex j hd p hi hp) i k p hk hp
      | ub => rw [hr] at h; cases h
      | invalid => rw [hr] at h; cases h
    · cases h
  | close j =>
    simp only [step] at h
    split at h
    · next hd hi =>
      cases hr : drop hd s with
      | ok s1 => rw [hr] at h; cases h; exact hset _ _ _ (hdrop hr) (fun k p h hp => by cases h; cases hp) i k p hk hp
      | ub => rw [hr] at h; cases h
      | invalid => rw [hr] at h; cases h
    · cases h
  | destroy j =>
    simp only [step] at h
    split at h
    · next hd hi =>
      cases hr : drop hd s with
      | ok s1 => rw [hr] at h; cases h; exact hset _ _ _ (hdrop hr) (fun k p h hp => by cases h) i k p hk hp
      | ub => rw [hr] at h; cases h
      | invalid => rw [hr] at h; cases h
    · cases h

theorem Inv.step {s s' : St} {a : Op} (I : Inv s) (h : step s a = .ok s') : Inv s' where
  ex _ _ _ hk hp := step_ex I h hk hp
  le p c' hc := by
    rcases step_eff I h hc with ⟨c, h1, h2, -⟩ | ⟨-, h1, h2⟩
    · have := I.le p c h1; omega
    · omega

theorem Inv.init : Inv init := by
  constructor <;> intros <;> simp_all [Handles.init, St.get]

theorem Inv.exec {s s' : St} {as : List Op} (I : Inv s) (h : exec s as = .ok s') : Inv s' := by
  induction as generalizing s with
  | nil => cases h; exact I
  | cons a as ih =>
    simp only [Handles.exec] at h
    cases hs : Handles.step s a with
    | ok s1 => rw [hs] at h; exact ih (I.step hs) h
    | ub => rw [hs] at h; cases h
    | invalid => rw [hs] at h; cases h

/-- Nothing is removed that is not counted. -/
theorem Inv.no_ub {s : St} (I : Inv s) (a : Op) : Handles.step s a ≠ .ub := by
  have hd : ∀ {i : Nat} {h : Handle}, s.get i = some h → drop h s ≠ .ub := by
    intro i h hi
    obtain ⟨p, r⟩ := h
    cases r with
    | true => simp [drop]
    | false =>
      cases p with
      | none => simp [drop, remove]
      | some p =>
        simp only [drop, Bool.false_eq_true, ↓reduceIte, remove]
        split
        · next hc =>
          have := I.le p 0 hc
          have h1 : 0 < pending s p := by
            rw [pending, List.countP_pos_iff]
            exact ⟨_, List.mem_of_getElem? (get_some hi).2, by simp [holds]⟩
          omega
        · simp
        · simp
  have hb : ∀ {i : Nat} {h : Handle} (f : St → St), s.get i = some h → ((drop h s).bind fun s => .ok (f s)) ≠ .ub := by
    intro i h f hi
    have := hd hi
    cases hr : drop h s with
    | ok s1 => simp [Out.bind]
    | ub => exact absurd hr this
    | invalid => simp [Out.bind]
  cases a with
  | setReady i => simp only [Handles.step]; split
                  · next h hi => exact hb _ hi
                  · simp
  | close i => simp only [Handles.step]; split
               · next h hi => exact hb _ hi
               · simp
  | destroy i => simp only [Handles.step]; split
                 · next h hi => exact hb _ hi
                 · simp
  | assign i j => simp only [Handles.step]; split
                  · split <;> simp
                  · simp
  | moveAssign i j => simp only [Handles.step]; split
                      · split <;> simp
                      · simp
  | _ => simp only [Handles.step] <;> (try split) <;> simp

/-! ## The properties -/

/-- Whatever is done to the receivers: as long as there is one of the process that is neither ready nor destroyed, its count
is not 0, so that nothing is processed (lines 605, 619, 791). -/
theorem c47_not_too_early {s : St} (h : Reachable s) {i p : Nat} (hi : s.get i = some ⟨some p, false⟩)
    {c : Nat} (hc : s.cnt[p]? = some (some c)) : c ≠ 0 := by
  obtain ⟨as, h⟩ := h
  have I := Inv.init.exec h
  have h1 : 0 < pending s p := by
    rw [pending, List.countP_pos_iff]
    exact ⟨_, List.mem_of_getElem? (get_some hi).2, by simp [holds]⟩
  have := I.le p c hc
  omega

/-- Whatever is done: the assertions on the counts in lines 599 and 790 hold. -/
theorem c47_no_underflow {s : St} (h : Reachable s) (a : Op) : step s a ≠ .ub := by
  obtain ⟨as, h⟩ := h
  exact (Inv.init.exec h).no_ub a

/-- If no ready receiver is copied and none is overwritten that is not ready, then the count is the number of receivers that
are not ready; so it is 0 exactly when all of them are ready or destroyed. Otherwise it may be greater for ever, see
`c47_counterexample_copy` and `c47_counterexample_assign`. -/
theorem c47_exact_partial {s : St} (h : TidyReachable s) {p c : Nat} (hc : s.cnt[p]? = some (some c)) :
    c = s.objs.countP (fun o => o = some ⟨some p, false⟩) ∧
      (c = 0 ↔ ∀ i k, s.get i = some k → k.p = some p → k.ready = true) := by
  have key : ∀ {s : St}, TidyReachable s → Inv s ∧ Exact s := by
    intro s h
    induction h with
    | init => exact ⟨Inv.init, fun p c h => by simp [init] at h⟩
    | step _ hT hs ih =>
      refine ⟨ih.1.step hs, fun p c' hc => ?_⟩
      rcases step_eff ih.1 hs hc with ⟨c, h1, -, h2⟩ | ⟨-, h1, h2⟩
      · have := ih.2 p c h1; have := h2 hT; omega
      · omega
  have he := (key h).2 p c hc
  refine ⟨he.symm, ?_⟩
  rw [← he, pending, List.countP_eq_zero]
  constructor
  · intro h0 i k hi hk
    refine Classical.byContradiction fun hr => h0 (some k) (List.mem_of_getElem? (get_some hi).2) ?_
    cases k
    simp_all [holds]
  · intro h0 o ho hh
    simp only [holds, decide_eq_true_eq] at hh
    subst hh
    obtain ⟨i, hi⟩ := List.mem_iff_getElem?.1 ho
    have := h0 i ⟨some p, false⟩ (by rw [St.get, hi]; rfl) rfl
    cases this

/-- A receiver, a copy, both set ready: nothing is pending. -/
example : ∃ s, exec init [.make false, .copy 0, .move 1, .setReady 0, .setReady 2] = .ok s ∧ s.cnt = [some 0] ∧ s.objs.length = 3 :=
  ⟨_, rfl, rfl, rfl⟩

/-- C47 fails: a copy of a ready receiver is counted (line 1479), and as it is ready, too, its destruction does not remove
it. All receivers are ready, and the process is blocked for ever. -/
theorem c47_counterexample_copy :
    ∃ s, Reachable s ∧ (∀ i k, s.get i = some k → k.ready = true) ∧ s.cnt = [some 1] ∧
      ∃ s', Handles.exec s [.destroy 1, .setReady 0, .destroy 0] = .ok s' ∧ s'.cnt = [some 1] := by
  refine ⟨⟨[some ⟨some 0, true⟩, some ⟨some 0, true⟩], [some 1]⟩, ⟨[.make false, .setReady 0, .copy 0], rfl⟩, ?_, rfl, _, rfl, rfl⟩
  intro i k h
  match i with
  | 0 => cases h; rfl
  | 1 => cases h; rfl
  | i + 2 => cases h

/-- C47 fails: a receiver that is not ready and is assigned another is not removed (line 1490). -/
theorem c47_counterexample_assign : ∃ s, Reachable s ∧ (∀ i k, s.get i = some k → k.p ≠ some 0) ∧ s.cnt = [some 1, some 1] := by
  refine ⟨⟨[some ⟨some 1, false⟩, some ⟨none, false⟩], [some 1, some 1]⟩,
    ⟨[.make false, .make false, .moveAssign 1 0], rfl⟩, ?_, rfl⟩
  intro i k h
  match i with
  | 0 => cases h; simp
  | 1 => cases h; simp
  | i + 2 => cases h

/-- For senders: as long as there is one the count is not 0, and the process is not closed. -/
theorem c45_sender_keeps_open {s : St} (h : Reachable s) {i p : Nat} (hi : s.get i = some ⟨some p, false⟩)
    {c : Nat} (hc : s.cnt[p]? = some (some c)) : c ≠ 0 := c47_not_too_early h hi hc

/-- C45 fails: when another sender is assigned to the last sender of a channel (line 1588), the channel is never closed. -/
theorem c45_counterexample_assign :
    ∃ s, Reachable s ∧ (∀ i, s.get i = none) ∧ s.cnt = [some 1, some 0] := by
  refine ⟨⟨[none, none], [some 1, some 0]⟩,
    ⟨[.make false, .make false, .moveAssign 1 0, .destroy 0, .destroy 1], rfl⟩, ?_, rfl⟩
  intro i
  match i with
  | 0 => rfl
  | 1 => rfl
  | i + 2 => rfl

end Verif.Handles
