/-!
# C102: comparing handles

Futures (include/stlab/concurrency/future.hpp lines 722-723, 892-893), receivers and senders (include/stlab/concurrency/channel.hpp lines
1500-1505, 1594-1598, 1652-1656) are compared by the addresses of the objects they refer to. Memory is used again: an object may be created where
another one was. Futures and receivers are `std::shared_ptr`s to their objects, senders are `std::weak_ptr`s.

Simplifications: an object is known by the number of objects created before; what it does is left out, except that it may have further owners (tasks
that run it, objects downstream). A destroyed handle is an empty one. The handles of one type are in one list.
-/

namespace Verif.Same

/-- A pointer: the address, and the object (which the control block of the pointer knows). -/
structure Ptr where
  addr : Nat
  obj : Nat
  deriving DecidableEq, Repr

structure St where
  /-- `_p` of the futures or receivers (future.hpp lines 694, 864, channel.hpp line 1453) -/
  strong : List (Option Ptr) := []
  /-- `_p` of the senders (channel.hpp lines 1556, 1623) -/
  weak : List (Option Ptr) := []
  /-- other owners -/
  others : List Ptr := []
  /-- the objects that exist, by address -/
  mem : Nat → Option Nat := fun _ => none
  /-- objects created so far -/
  count : Nat := 0

inductive Act where
  /-- an object is created at a free address, with a handle and a sender -/
  | create (a : Nat)
  /-- copy construction or assignment, from the first to the second -/
  | copy (j k : Nat)
  | move (j k : Nat)
  | swap (j k : Nat)
  | destroy (j : Nat)
  /-- the same for senders -/
  | copyS (j k : Nat)
  | moveS (j k : Nat)
  | swapS (j k : Nat)
  | destroyS (j : Nat)
  /-- `lock()` of a sender gives another owner, e.g. while a message is sent -/
  | lock (j : Nat)
  /-- ... as does a copy of a handle -/
  | own (j : Nat)
  | release (j : Nat)
  deriving DecidableEq, Repr

def owners (s : St) : List Ptr := s.strong.filterMap id ++ s.others

/-- An object without owners is destroyed, and its memory is free. -/
def collect (s : St) : St := { s with mem := fun a => if (owners s).any (·.addr = a) then s.mem a else none }

def get (l : List (Option Ptr)) (j : Nat) : Option Ptr := (l[j]?).getD none

/-- `lock()` of a `weak_ptr`: empty if the object is gone. -/
def lockOf (s : St) (p : Option Ptr) : Option Ptr := p.filter fun p => s.mem p.addr = some p.obj

def exchange (l : List (Option Ptr)) (j k : Nat) : List (Option Ptr) := (l.set j (get l k)).set k (get l j)

def step (s : St) : Act → Option St
  | .create a =>
    if s.mem a = none then
      some { s with mem := fun b => if b = a then some s.count else s.mem b, count := s.count + 1,
                    strong := s.strong ++ [some ⟨a, s.count⟩], weak := s.weak ++ [some ⟨a, s.count⟩] }
    else none
  | .copy j k => some (collect { s with strong := if k < s.strong.length then s.strong.set k (get s.strong j) else s.strong ++ [get s.strong j] })
  | .move j k =>
    if j = k then none
    else some (collect { s with strong := (if k < s.strong.length then s.strong.set k (get s.strong j) else s.strong ++ [get s.strong j]).set j none })
  | .swap j k => if j < s.strong.length ∧ k < s.strong.length then some (collect { s with strong := exchange s.strong j k }) else none
  | .destroy j => some (collect { s with strong := s.strong.set j none })
  | .copyS j k => some { s with weak := if k < s.weak.length then s.weak.set k (get s.weak j) else s.weak ++ [get s.weak j] }
  | .moveS j k =>
    if j = k then none
    else some { s with weak := (if k < s.weak.length then s.weak.set k (get s.weak j) else s.weak ++ [get s.weak j]).set j none }
  | .swapS j k => if j < s.weak.length ∧ k < s.weak.length then some { s with weak := exchange s.weak j k } else none
  | .destroyS j => some { s with weak := s.weak.set j none }
  | .lock j => (lockOf s (get s.weak j)).map fun p => { s with others := p :: s.others }
  | .own j => (get s.strong j).map fun p => { s with others := p :: s.others }
  | .release j => some (collect { s with others := s.others.eraseIdx j })

inductive Reachable : St → Prop where
  | init : Reachable {}
  | step {s s' : St} {a : Act} : Reachable s → step s a = some s' → Reachable s'

/-- `==` of futures or receivers: `x._p == y._p`. -/
def eqStrong (x y : Option Ptr) : Bool := x.map (·.addr) = y.map (·.addr)

/-- `==` of senders: `x._p.lock() == y._p.lock()`. -/
def eqWeak (s : St) (x y : Option Ptr) : Bool := (lockOf s x).map (·.addr) = (lockOf s y).map (·.addr)

structure Inv (s : St) : Prop where
  owned : ∀ p ∈ owners s, s.mem p.addr = some p.obj
  live : ∀ a i, s.mem a = some i → i < s.count ∧ ⟨a, i⟩ ∈ owners s
  one : ∀ a b i, s.mem a = some i → s.mem b = some i → a = b
  weak : ∀ p ∈ s.weak.filterMap id, p.obj < s.count ∧ ∀ a, s.mem a = some p.obj → a = p.addr

theorem mem_owners {s : St} {p : Ptr} : p ∈ owners s ↔ some p ∈ s.strong ∨ p ∈ s.others := by
  simp [owners]

theorem get_mem {l : List (Option Ptr)} {j : Nat} {p : Ptr} (h : get l j = some p) : some p ∈ l := by
  unfold get at h
  cases e : l[j]? with
  | none => simp [e] at h
  | some x => simp [e] at h; subst h; exact List.mem_of_getElem? e

theorem Inv.init : Inv {} := by constructor <;> simp [owners]

theorem Inv.collect {s t : St} (I : Inv s) (ho : ∀ p ∈ owners t, p ∈ owners s) (hm : t.mem = s.mem) (hc : t.count = s.count)
    (hw : t.weak = s.weak) : Inv (collect t) := by
  have e : ∀ a i, (Same.collect t).mem a = some i → s.mem a = some i ∧ ∃ p ∈ owners t, p.addr = a := by
    intro a i h
    simp only [Same.collect, hm] at h
    split at h
    · next h' => exact ⟨h, by simpa using h'⟩
    · cases h
  refine ⟨fun p hp => ?_, fun a i h => ?_, fun a b i h h' => I.one a b i (e _ _ h).1 (e _ _ h').1, fun p hp => ?_⟩
  · have hp' : p ∈ owners t := hp
    simp only [Same.collect, hm]
    rw [if_pos (by simp only [List.any_eq_true]; exact ⟨p, hp', by simp⟩)]
    exact I.owned p (ho p hp')
  · obtain ⟨h1, p, hp, rfl⟩ := e a i h
    have h2 := I.owned p (ho p hp)
    rw [h1] at h2
    cases h2
    refine ⟨?_, hp⟩
    show p.obj < t.count
    rw [hc]; exact (I.live _ _ h1).1
  · have hp' : p ∈ s.weak.filterMap id := by rw [← hw]; exact hp
    refine ⟨?_, fun a h => (I.weak p hp').2 a (e _ _ h).1⟩
    show p.obj < t.count
    rw [hc]; exact (I.weak p hp').1

theorem put_mem {l : List (Option Ptr)} {j k : Nat} {p : Ptr}
    (h : some p ∈ (if k < l.length then l.set k (get l j) else l ++ [get l j])) : some p ∈ l := by
  split at h
  · rcases List.mem_or_eq_of_mem_set h with h | h
    · exact h
    · exact get_mem h.symm
  · rw [List.mem_append] at h
    rcases h with h | h
    · exact h
    · rw [List.mem_singleton] at h; exact get_mem h.symm

theorem set_none_mem {l : List (Option Ptr)} {j : Nat} {p : Ptr} (h : some p ∈ l.set j none) : some p ∈ l := by
  rcases List.mem_or_eq_of_mem_set h with h | h
  · exact h
  · cases h

theorem exchange_mem {l : List (Option Ptr)} {j k : Nat} {p : Ptr} (h : some p ∈ exchange l j k) : some p ∈ l := by
  rcases List.mem_or_eq_of_mem_set h with h | h
  · rcases List.mem_or_eq_of_mem_set h with h | h
    · exact h
    · exact get_mem h.symm
  · exact get_mem h.symm

theorem Inv.weaken {s t : St} (I : Inv s) (hm : t.mem = s.mem) (hc : t.count = s.count) (ho : ∀ p, p ∈ owners t ↔ p ∈ owners s)
    (hw : ∀ p, some p ∈ t.weak → some p ∈ s.weak) : Inv t := by
  refine ⟨fun p hp => by rw [hm]; exact I.owned p ((ho p).1 hp), fun a i h => ?_, fun a b i => by rw [hm]; exact I.one a b i, fun p hp => ?_⟩
  · rw [hm] at h; rw [hc, ho]; exact I.live a i h
  · rw [hm, hc]; exact I.weak p (by simpa using hw p (by simpa using hp))

theorem Inv.step {s s' : St} (I : Inv s) {a : Act} (e : step s a = some s') : Inv s' := by
  cases a with
  | create a =>
    simp only [Same.step] at e
    split at e
    · next ha =>
      cases e
      have hno : ∀ b, s.mem b ≠ some s.count := fun b h => by have := (I.live b _ h).1; omega
      have hso : ∀ p ∈ owners s, p.addr ≠ a := fun p hp e => by have := I.owned p hp; rw [e, ha] at this; cases this
      refine ⟨fun p hp => ?_, fun b i h => ?_, fun b c i h h' => ?_, fun p hp => ?_⟩
      · simp only [mem_owners, List.mem_append, List.mem_singleton] at hp
        by_cases hn : p ∈ owners s
        · simp only [if_neg (hso p hn)]; exact I.owned p hn
        · have : p = ⟨a, s.count⟩ := by
            rw [mem_owners] at hn
            rcases hp with (hp | hp) | hp
            · exact absurd (.inl hp) hn
            · exact Option.some.inj hp
            · exact absurd (.inr hp) hn
          subst this; simp
      · simp only [mem_owners, List.mem_append, List.mem_singleton]
        simp only at h
        split at h
        · next hb => cases h; subst hb; exact ⟨by omega, .inl (.inr rfl)⟩
        · have := I.live b i h
          rw [mem_owners] at this
          exact ⟨by omega, by rcases this.2 with h | h <;> simp [h]⟩
      · simp only at h h'
        split at h <;> split at h'
        · simp_all
        · cases h; exact absurd h' (hno c)
        · cases h'; exact absurd h (hno b)
        · exact I.one b c i h h'
      · simp only [List.filterMap_append, List.mem_append] at hp
        rcases hp with hp | hp
        · have := I.weak p hp
          refine ⟨by simp only; omega, fun b h => ?_⟩
          simp only at h
          split at h
          · have hq := Option.some.inj h; omega
          · exact this.2 b h
        · simp only [List.filterMap_cons, List.filterMap_nil, id, List.mem_singleton] at hp
          subst hp
          refine ⟨by simp, fun b h => ?_⟩
          simp only at h
          split at h
          · assumption
          · exact absurd h (hno b)
    · cases e
  | copy j k =>
    cases e
    refine I.collect (fun p hp => ?_) rfl rfl rfl
    rw [mem_owners] at hp ⊢
    exact hp.imp put_mem id
  | move j k =>
    simp only [Same.step] at e
    split at e
    · cases e
    · cases e
      refine I.collect (fun p hp => ?_) rfl rfl rfl
      rw [mem_owners] at hp ⊢
      exact hp.imp (fun h => put_mem (set_none_mem h)) id
  | swap j k =>
    simp only [Same.step] at e
    split at e
    · cases e
      refine I.collect (fun p hp => ?_) rfl rfl rfl
      rw [mem_owners] at hp ⊢
      exact hp.imp exchange_mem id
    · cases e
  | destroy j =>
    cases e
    refine I.collect (fun p hp => ?_) rfl rfl rfl
    rw [mem_owners] at hp ⊢
    exact hp.imp set_none_mem id
  | copyS j k => cases e; exact I.weaken rfl rfl (fun _ => Iff.rfl) fun p h => put_mem h
  | moveS j k =>
    simp only [Same.step] at e
    split at e
    · cases e
    · cases e; exact I.weaken rfl rfl (fun _ => Iff.rfl) fun p h => put_mem (set_none_mem h)
  | swapS j k =>
    simp only [Same.step] at e
    split at e
    · cases e; exact I.weaken rfl rfl (fun _ => Iff.rfl) fun p h => exchange_mem h
    · cases e
  | destroyS j => cases e; exact I.weaken rfl rfl (fun _ => Iff.rfl) fun p h => set_none_mem h
  | lock j =>
    simp only [Same.step, Option.map_eq_some_iff] at e
    obtain ⟨p, hp, rfl⟩ := e
    simp only [lockOf, Option.filter_eq_some_iff] at hp
    refine I.weaken rfl rfl (fun q => ?_) fun _ h => h
    have := (I.live p.addr p.obj (by simpa using hp.2)).2
    rw [mem_owners] at this ⊢
    rw [mem_owners]
    simp only [List.mem_cons]
    constructor
    · rintro (h | h | h)
      · exact .inl h
      · subst h; exact this
      · exact .inr h
    · rintro (h | h)
      · exact .inl h
      · exact .inr (.inr h)
  | own j =>
    simp only [Same.step, Option.map_eq_some_iff] at e
    obtain ⟨p, hp, rfl⟩ := e
    refine I.weaken rfl rfl (fun q => ?_) fun _ h => h
    rw [mem_owners, mem_owners]
    simp only [List.mem_cons]
    constructor
    · rintro (h | h | h)
      · exact .inl h
      · subst h; exact .inl (get_mem hp)
      · exact .inr h
    · rintro (h | h)
      · exact .inl h
      · exact .inr (.inr h)
  | release j =>
    cases e
    refine I.collect (fun p hp => ?_) rfl rfl rfl
    rw [mem_owners] at hp ⊢
    exact hp.imp id List.mem_of_mem_eraseIdx

theorem Reachable.inv {s : St} (h : Reachable s) : Inv s := by
  induction h with
  | init => exact .init
  | step _ e ih => exact ih.step e

/-- Two futures or two receivers are equal exactly if they refer to the same object, or neither refers to one; whatever memory is used again. -/
theorem c102_same_object {s : St} (h : Reachable s) {x y : Option Ptr} (hx : x ∈ s.strong) (hy : y ∈ s.strong) :
    eqStrong x y = true ↔ x.map (·.obj) = y.map (·.obj) := by
  have I := h.inv
  cases x with
  | none => cases y <;> simp [eqStrong]
  | some p =>
    cases y with
    | none => simp [eqStrong]
    | some q =>
      have hp := I.owned p (mem_owners.2 (.inl hx))
      have hq := I.owned q (mem_owners.2 (.inl hy))
      simp only [eqStrong, Option.map_some, Option.some.injEq, decide_eq_true_eq]
      constructor
      · intro e; rw [e, hq] at hp; exact (Option.some.inj hp).symm
      · intro e; rw [e] at hp; exact I.one _ _ _ hp hq

/-- Senders of objects that exist are equal exactly if they refer to the same object. Missing: the same for other senders, which is false. -/
theorem c102_same_channel_partial {s : St} (h : Reachable s) {x y : Option Ptr} (hx : x ∈ s.weak) (hy : y ∈ s.weak)
    (lx : ∀ p, x = some p → ∃ a, s.mem a = some p.obj) (ly : ∀ p, y = some p → ∃ a, s.mem a = some p.obj) :
    eqWeak s x y = true ↔ x.map (·.obj) = y.map (·.obj) := by
  have I := h.inv
  have lock : ∀ x ∈ s.weak, (∀ p, x = some p → ∃ a, s.mem a = some p.obj) → lockOf s x = x ∧ ∀ p, x = some p → s.mem p.addr = some p.obj := by
    intro x hx lx
    cases x with
    | none => exact ⟨rfl, by simp⟩
    | some p =>
      obtain ⟨a, ha⟩ := lx p rfl
      have := (I.weak p (by simpa using hx)).2 a ha
      subst this
      exact ⟨by simp [lockOf, ha], by rintro _ ⟨⟩; exact ha⟩
  obtain ⟨e1, m1⟩ := lock x hx lx
  obtain ⟨e2, m2⟩ := lock y hy ly
  rw [eqWeak, e1, e2]
  cases x with
  | none => cases y <;> simp
  | some p =>
    cases y with
    | none => simp
    | some q =>
      have hp := m1 p rfl
      have hq := m2 q rfl
      simp only [Option.map_some, Option.some.injEq, decide_eq_true_eq]
      constructor
      · intro e; rw [e, hq] at hp; exact (Option.some.inj hp).symm
      · intro e; rw [e] at hp; exact I.one _ _ _ hp hq

/-- A sender of an object that exists equals no sender of one that is gone, also if the memory is used again. -/
theorem c102_not_gone {s : St} (h : Reachable s) {p q : Ptr} (hp : some p ∈ s.weak) (_ : some q ∈ s.weak) (lp : ∃ a, s.mem a = some p.obj)
    (lq : ∀ a, s.mem a ≠ some q.obj) : eqWeak s (some p) (some q) = false := by
  obtain ⟨a, ha⟩ := lp
  have := (h.inv.weak p (by simpa using hp)).2 a ha
  subst this
  simp [eqWeak, lockOf, Option.filter, ha, lq q.addr]

theorem get_put {l : List (Option Ptr)} {k : Nat} (hk : k ≤ l.length) (x : Option Ptr) (i : Nat) :
    get (if k < l.length then l.set k x else l ++ [x]) i = if i = k then x else get l i := by
  unfold get
  split
  · rename_i h
    rw [List.getElem?_set]
    by_cases hi : i = k
    · subst hi; simp [h]
    · simp [hi, Ne.symm hi]
  · have : k = l.length := by omega
    subst this
    rcases Nat.lt_trichotomy i l.length with hi | hi | hi
    · rw [List.getElem?_append_left hi, if_neg (by omega)]
    · subst hi; simp
    · rw [List.getElem?_eq_none (by simp; omega), List.getElem?_eq_none (by omega), if_neg (by omega)]

theorem get_drop (l : List (Option Ptr)) (j i : Nat) : get (l.set j none) i = if i = j then none else get l i := by
  unfold get
  rw [List.getElem?_set]
  by_cases hi : i = j
  · subst hi; simp; split <;> simp
  · simp [hi, Ne.symm hi]

/-- A copy of a future, a receiver or a sender can be made at any time, and refers to the object of the original; the other handles are unchanged. -/
theorem c102_copied (s : St) (j k : Nat) :
    (k ≤ s.strong.length → ∃ s', step s (.copy j k) = some s' ∧ s'.weak = s.weak ∧ ∀ i, get s'.strong i = get s.strong (if i = k then j else i)) ∧
    (k ≤ s.weak.length → ∃ s', step s (.copyS j k) = some s' ∧ s'.strong = s.strong ∧ ∀ i, get s'.weak i = get s.weak (if i = k then j else i)) := by
  refine ⟨fun hk => ⟨_, rfl, rfl, fun i => (get_put hk _ i).trans ?_⟩, fun hk => ⟨_, rfl, rfl, fun i => (get_put hk _ i).trans ?_⟩⟩ <;> split <;> rfl

/-- A future, a receiver or a sender that is moved to another handle leaves nothing behind, and the other handle refers to its object; the remaining ones are unchanged. -/
theorem c102_moved (s : St) {j k : Nat} (hjk : j ≠ k) :
    (k ≤ s.strong.length → ∃ s', step s (.move j k) = some s' ∧ s'.weak = s.weak ∧
      ∀ i, get s'.strong i = if i = j then none else get s.strong (if i = k then j else i)) ∧
    (k ≤ s.weak.length → ∃ s', step s (.moveS j k) = some s' ∧ s'.strong = s.strong ∧
      ∀ i, get s'.weak i = if i = j then none else get s.weak (if i = k then j else i)) := by
  refine ⟨fun hk => ⟨_, if_neg hjk, rfl, fun i => ?_⟩, fun hk => ⟨_, if_neg hjk, rfl, fun i => ?_⟩⟩ <;>
    (dsimp only [collect]; rw [get_drop, get_put hk]; split; rfl; split <;> rfl)

/-- Handles that are swapped refer to each other's objects. -/
theorem c102_swapped (s : St) (j k : Nat) :
    (j < s.strong.length → k < s.strong.length → ∃ s', step s (.swap j k) = some s' ∧ s'.weak = s.weak ∧
      ∀ i, get s'.strong i = get s.strong (if i = k then j else if i = j then k else i)) ∧
    (j < s.weak.length → k < s.weak.length → ∃ s', step s (.swapS j k) = some s' ∧ s'.strong = s.strong ∧
      ∀ i, get s'.weak i = get s.weak (if i = k then j else if i = j then k else i)) := by
  have ex : ∀ (l : List (Option Ptr)), j < l.length → k < l.length → ∀ i, get (exchange l j k) i = get l (if i = k then j else if i = j then k else i) := by
    intro l hj hk i
    have h1 := get_put (l := l) (Nat.le_of_lt hj) (get l k) i
    have h2 := get_put (l := l.set j (get l k)) (k := k) (by simp; omega) (get l j) i
    rw [if_pos hj] at h1
    rw [if_pos (by simpa using hk), h1] at h2
    refine h2.trans ?_
    split
    · rfl
    · split <;> rfl
  exact ⟨fun hj hk => ⟨_, if_pos ⟨hj, hk⟩, rfl, ex _ hj hk⟩, fun hj hk => ⟨_, if_pos ⟨hj, hk⟩, rfl, ex _ hj hk⟩⟩

def run (s : St) : List Act → Option St
  | [] => some s
  | a :: as => (step s a).bind (run · as)

theorem reachable_run {s s' : St} (h : Reachable s) {as : List Act} (e : run s as = some s') : Reachable s' := by
  induction as generalizing s with
  | nil => cases e; exact h
  | cons a as ih =>
    simp only [run, Option.bind_eq_some_iff] at e
    obtain ⟨s1, h1, h2⟩ := e
    exact ih (.step h h1) h2

/-- The senders of two channels of which the receivers are destroyed are equal, though they were not before; and they equal one that belongs to no channel. -/
theorem c102_gone_counterexample : ∃ s s' p q, Reachable s ∧ run s [.destroy 0, .destroy 1] = some s' ∧ s.weak = [some p, some q, none] ∧
    s'.weak = s.weak ∧ p.obj ≠ q.obj ∧ eqWeak s (some p) (some q) = false ∧ eqWeak s' (some p) (some q) = true ∧ eqWeak s' (some p) none = true := by
  refine ⟨_, _, ⟨5, 0⟩, ⟨6, 1⟩, reachable_run .init (as := [.create 5, .create 6, .copyS 7 2]) rfl, rfl, rfl, rfl, by decide, rfl, rfl, rfl⟩

/-- A future is destroyed and another one created in its place: its sender is not that of the first one. The hypotheses of the theorems are met. -/
example : ∃ s, Reachable s ∧ s.strong = [none, some ⟨5, 1⟩, some ⟨5, 1⟩, some ⟨6, 2⟩] ∧ s.weak = [some ⟨5, 0⟩, some ⟨5, 1⟩, some ⟨6, 2⟩] ∧
    s.mem 5 = some 1 ∧ eqStrong (some ⟨5, 1⟩) (some ⟨6, 2⟩) = false ∧ eqWeak s (some ⟨5, 0⟩) (some ⟨5, 1⟩) = false :=
  ⟨_, reachable_run .init (as := [.create 5, .destroy 0, .create 5, .copy 1 2, .create 6]) rfl, rfl, rfl, rfl, rfl, rfl⟩

/-- A sender that is used keeps its channel. -/
example : ∃ s, Reachable s ∧ s.strong = [none] ∧ s.mem 5 = some 0 ∧ run s [.release 0] ≠ none :=
  ⟨_, reachable_run .init (as := [.create 5, .lock 0, .destroy 0]) rfl, rfl, rfl, by simp [run, step]⟩

/-- A sender is moved, copied and swapped. -/
example : ∃ s, Reachable s ∧ s.weak = [some ⟨6, 1⟩, none, some ⟨5, 0⟩, some ⟨6, 1⟩] :=
  ⟨_, reachable_run .init (as := [.create 5, .create 6, .moveS 0 2, .copyS 1 3, .swapS 0 1]) rfl, rfl⟩

end Verif.Same
