/-!
# `notification_queue` (include/stlab/concurrency/default_executor.hpp:221-314): the priority queue

The vector `_q` is kept a heap by `std::push_heap`/`std::pop_heap`. These are standard library
functions, represented here by their contract: the front of a heap is an element no other element
compares greater than, and `pop_heap` followed by `pop_back` removes just that element.
-/

namespace Verif.NotificationQueue

/-- `element_t` (default_executor.hpp:222-234). `prio` and `seq` are ghosts: the priority given to
`push` and the number of pushes before. -/
structure Elem where
  /-- `_priority`, a `std::size_t` -/
  key : BitVec 64
  /-- `_task` -/
  task : Nat
  prio : Nat
  seq : Nat
  deriving DecidableEq, Repr

/-- `element_t::greater` (default_executor.hpp:229-233). -/
def greater (a b : Elem) : Bool := b.key < a.key

/-- `merge_priority_count` (default_executor.hpp:244-247). `std::size_t` has 64 bits. -/
def mergePriorityCount (priority : Nat) (count : BitVec 64) : BitVec 64 :=
  (BitVec.ofNat 64 priority <<< (64 - 2 : Nat)) ||| count

/-- The data members (default_executor.hpp:236-242), mutex and condition variable excluded. -/
structure NQ where
  /-- `_q`, in no particular order -/
  items : List Elem := []
  /-- `_count` -/
  count : BitVec 64 := 0
  /-- number of pushes (ghost) -/
  pushes : Nat := 0
  /-- `_done` -/
  done : Bool := false
  /-- `_waiting` -/
  waiting : Bool := false

/-- The front of the heap with respect to the comparison `greater` used as "less than". -/
def front : List Elem → Option Elem
  | [] => none
  | x :: xs => match front xs with
    | none => some x
    | some y => if greater x y then some y else some x

/-- The critical section of `push` and `try_push` (default_executor.hpp:298-299, 309-310). -/
def push (task prio : Nat) (q : NQ) : NQ :=
  { q with items := q.items ++ [⟨mergePriorityCount prio q.count, task, prio, q.pushes⟩],
           count := q.count + 1, pushes := q.pushes + 1 }

/-- `pop_not_empty` (default_executor.hpp:250-255). -/
def popNotEmpty (q : NQ) : Option (Elem × NQ) :=
  match front q.items with
  | none => none
  | some e => some (e, { q with items := q.items.erase e })

theorem front_mem : ∀ {l : List Elem} {e : Elem}, front l = some e → e ∈ l
  | [], e, h => by simp [front] at h
  | x :: xs, e, h => by
    simp only [front] at h
    split at h
    · simp_all
    · rename_i y hy
      split at h
      · simp only [Option.some.injEq] at h; subst h; exact List.mem_cons_of_mem _ (front_mem hy)
      · simp_all

theorem front_eq_none : ∀ {l : List Elem}, front l = none ↔ l = []
  | [] => by simp [front]
  | x :: xs => by
    simp only [front]
    split
    · simp
    · split <;> simp

theorem front_le : ∀ {l : List Elem} {e : Elem}, front l = some e → ∀ x ∈ l, e.key.toNat ≤ x.key.toNat
  | [], e, h, x, hx => by simp at hx
  | a :: xs, e, h, x, hx => by
    simp only [front] at h
    split at h
    · rename_i hn
      rw [front_eq_none] at hn
      subst hn
      simp only [Option.some.injEq] at h; subst h
      simp only [List.mem_singleton] at hx; subst hx; exact Nat.le_refl _
    · rename_i y hy
      have ih := front_le hy
      split at h
      · rename_i hg
        simp only [greater, BitVec.lt_def, decide_eq_true_eq] at hg
        simp only [Option.some.injEq] at h; subst h
        rcases List.mem_cons.1 hx with rfl | hx
        · omega
        · exact ih x hx
      · rename_i hg
        simp only [greater, BitVec.lt_def, decide_eq_true_eq] at hg
        simp only [Option.some.injEq] at h; subst h
        rcases List.mem_cons.1 hx with rfl | hx
        · exact Nat.le_refl _
        · have := ih x hx; omega

/-- Below `2^62` pushes the merged key orders by priority, then by count. -/
theorem merge_toNat {p c : Nat} (hp : p < 4) (hc : c < 2 ^ 62) :
    (mergePriorityCount p (BitVec.ofNat 64 c)).toNat = p * 2 ^ 62 + c := by
  unfold mergePriorityCount
  rw [BitVec.toNat_or, BitVec.toNat_shiftLeft, BitVec.toNat_ofNat, BitVec.toNat_ofNat]
  have h1 : p % 2 ^ 64 = p := Nat.mod_eq_of_lt (by omega)
  have h2 : c % 2 ^ 64 = c := Nat.mod_eq_of_lt (by omega)
  have h3 : (p <<< (64 - 2)) % 2 ^ 64 = 2 ^ 62 * p := by
    rw [Nat.shiftLeft_eq]
    show (p * 2 ^ 62) % 2 ^ 64 = 2 ^ 62 * p
    omega
  rw [h1, h2, h3, ← Nat.two_pow_add_eq_or_of_lt hc]
  omega

/-- Operations on the queue. -/
inductive Op where
  /-- `push`, or a `try_push` that got the lock -/
  | push (task prio : Nat)
  /-- `pop` or `try_pop` with the lock -/
  | pop
  deriving DecidableEq, Repr

/-- Run operations; `none` if `pop_not_empty` is called on an empty queue or a priority is out of range
(`static_assert(P < 3)`, default_executor.hpp:399). Collects what the pops return. -/
def exec (q : NQ) (out : List Elem) : List Op → Option (NQ × List Elem)
  | [] => some (q, out)
  | .push t p :: ops => if p < 3 then exec (push t p q) out ops else none
  | .pop :: ops => match popNotEmpty q with
    | none => none
    | some (e, q) => exec q (out ++ [e]) ops

/-- What holds of every queue state. -/
structure Inv (q : NQ) : Prop where
  count : q.count = BitVec.ofNat 64 q.pushes
  key : ∀ e ∈ q.items, e.key = mergePriorityCount e.prio (BitVec.ofNat 64 e.seq)
  prio : ∀ e ∈ q.items, e.prio < 3
  seq : ∀ e ∈ q.items, e.seq < q.pushes
  nodup : (q.items.map Elem.seq).Nodup

theorem inv_init : Inv {} := ⟨rfl, by simp, by simp, by simp, by simp⟩

theorem inv_push {q : NQ} (I : Inv q) {t p : Nat} (hp : p < 3) : Inv (push t p q) := by
  refine ⟨?_, ?_, ?_, ?_, ?_⟩
  · simp only [push, I.count]
    apply BitVec.eq_of_toNat_eq
    simp [BitVec.toNat_add]
  · intro e he
    simp only [push, List.mem_append, List.mem_singleton] at he
    rcases he with he | rfl
    · exact I.key e he
    · simp [I.count]
  · intro e he
    simp only [push, List.mem_append, List.mem_singleton] at he
    rcases he with he | rfl
    · exact I.prio e he
    · exact hp
  · intro e he
    simp only [push, List.mem_append, List.mem_singleton] at he ⊢
    rcases he with he | rfl
    · have := I.seq e he; omega
    · simp
  · simp only [push, List.map_append, List.map_cons, List.map_nil]
    rw [List.nodup_append]
    refine ⟨I.nodup, by simp, ?_⟩
    intro a ha b hb
    simp only [List.mem_singleton] at hb
    subst hb
    obtain ⟨e, he, rfl⟩ := List.mem_map.1 ha
    have := I.seq e he
    omega

theorem inv_pop {q q' : NQ} {e : Elem} (I : Inv q) (h : popNotEmpty q = some (e, q')) : Inv q' := by
  simp only [popNotEmpty] at h
  split at h
  · simp at h
  · simp only [Option.some.injEq, Prod.mk.injEq] at h
    obtain ⟨rfl, rfl⟩ := h
    exact ⟨I.count, fun x hx => I.key x (List.mem_of_mem_erase hx),
      fun x hx => I.prio x (List.mem_of_mem_erase hx), fun x hx => I.seq x (List.mem_of_mem_erase hx),
      I.nodup.sublist (List.erase_sublist.map _)⟩

theorem inv_exec : ∀ {ops : List Op} {q q' : NQ} {o o' : List Elem}, Inv q →
    exec q o ops = some (q', o') → Inv q'
  | [], q, q', o, o', I, h => by
    simp only [exec, Option.some.injEq, Prod.mk.injEq] at h; exact h.1 ▸ I
  | .push t p :: ops, q, q', o, o', I, h => by
    simp only [exec] at h
    split at h
    · rename_i hp; exact inv_exec (inv_push I hp) h
    · simp at h
  | .pop :: ops, q, q', o, o', I, h => by
    simp only [exec] at h
    split at h
    · simp at h
    · rename_i e q1 h1; exact inv_exec (inv_pop I h1) h

/-- C25: after any sequence of pushes (fewer than `2^62`) and pops, the element taken next has the
highest priority of those waiting (priorities are numbered downwards, `executor_priority::high` is 0),
and of those with this priority it was pushed first. Exactly that element leaves the queue. -/
theorem c25_priority {ops : List Op} {q q' : NQ} {o : List Elem} {e : Elem}
    (h : exec {} [] ops = some (q, o)) (hb : q.pushes < 2 ^ 62) (hp : popNotEmpty q = some (e, q')) :
    (e :: q'.items).Perm q.items ∧
    ∀ x ∈ q'.items, e.prio < x.prio ∨ (e.prio = x.prio ∧ e.seq < x.seq) := by
  have I := inv_exec inv_init h
  have I' := inv_pop I hp
  simp only [popNotEmpty] at hp
  split at hp
  · simp at hp
  · rename_i e0 hf
    simp only [Option.some.injEq, Prod.mk.injEq] at hp
    obtain ⟨rfl, rfl⟩ := hp
    have hm := front_mem hf
    have hperm := List.perm_cons_erase hm
    refine ⟨hperm.symm, ?_⟩
    intro x hx
    have hx' := List.mem_of_mem_erase hx
    have hle := front_le hf x hx'
    have b1 := I.prio e0 hm
    have b2 := I.prio x hx'
    have b3 := I.seq e0 hm
    have b4 := I.seq x hx'
    rw [I.key e0 hm, I.key x hx', merge_toNat (by omega) (by omega), merge_toNat (by omega) (by omega)] at hle
    have hne : e0.seq ≠ x.seq := by
      have hn := (hperm.map Elem.seq).nodup_iff.1 I.nodup
      simp only [List.map_cons, List.nodup_cons] at hn
      intro h
      exact hn.1 (h ▸ List.mem_map_of_mem hx)
    omega

/-- C25: a pop finds a task whenever one is waiting. -/
theorem c25_pop_some (q : NQ) : popNotEmpty q = none ↔ q.items = [] := by
  unfold popNotEmpty
  constructor
  · intro h
    split at h
    · rename_i hf; exact front_eq_none.1 hf
    · simp at h
  · intro h
    rw [h]; rfl

/-- C25: what is popped was pushed before, with its task, and nothing is popped twice: the elements popped
so far together with those waiting are a permutation of those pushed. -/
theorem c25_conserve {ops : List Op} {q : NQ} {o : List Elem} (h : exec {} [] ops = some (q, o)) :
    ((o ++ q.items).map fun e => (e.task, e.prio)).Perm
      (ops.filterMap fun | .push t p => some (t, p) | .pop => none) := by
  have key : ∀ {ops : List Op} {q q' : NQ} {o o' : List Elem}, exec q o ops = some (q', o') →
      ((o' ++ q'.items).map fun e => (e.task, e.prio)).Perm
        (((o ++ q.items).map fun e => (e.task, e.prio)) ++
          (ops.filterMap fun | .push t p => some (t, p) | .pop => none)) := by
    intro ops
    induction ops with
    | nil => intro q q' o o' h; simp only [exec, Option.some.injEq, Prod.mk.injEq] at h; simp [h]
    | cons a ops ih =>
      intro q q' o o' h
      cases a with
      | push t p =>
        simp only [exec] at h
        split at h
        · have := ih h
          simpa [push] using this
        · simp at h
      | pop =>
        simp only [exec] at h
        split at h
        · simp at h
        · rename_i e q1 h1
          refine (ih h).trans ?_
          simp only [List.filterMap_cons]
          refine List.Perm.append_right _ (List.Perm.map _ ?_)
          simp only [popNotEmpty] at h1
          split at h1
          · simp at h1
          · rename_i e0 hf
            simp only [Option.some.injEq, Prod.mk.injEq] at h1
            obtain ⟨rfl, rfl⟩ := h1
            rw [List.append_assoc]
            exact List.Perm.append_left _ (List.perm_cons_erase (front_mem hf)).symm
  simpa using key h

/-- A non-trivial case: three priorities, the medium one twice; one pop has already happened. -/
example : ∃ q, exec {} [] [.push 10 1, .push 11 2, .push 12 1, .pop, .push 13 0, .push 14 1] =
      some (q, [⟨mergePriorityCount 1 0, 10, 1, 0⟩]) ∧ q.pushes < 2 ^ 62 ∧
      (popNotEmpty q).map (·.1.task) = some 13 ∧
      ((popNotEmpty q).bind fun p => popNotEmpty p.2).map (·.1.task) = some 12 := by
  refine ⟨_, rfl, ?_, ?_, ?_⟩ <;> decide

end Verif.NotificationQueue
