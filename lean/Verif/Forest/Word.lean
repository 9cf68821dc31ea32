import Verif.Forest.Spec
import Mathlib.Tactic.Common

/-! # Lemmas about well nested words -/

namespace Verif.Forest

/-- Stack machine accepting well nested words. -/
def run : List Ptr → List Iter → Option (List Ptr)
  | s, [] => some s
  | s, ⟨n, .leading⟩ :: w => run (n :: s) w
  | [], ⟨_, .trailing⟩ :: _ => none
  | m :: s, ⟨n, .trailing⟩ :: w => if m = n then run s w else none

theorem run_append (s : List Ptr) (a b : List Iter) :
    run s (a ++ b) = (run s a).bind (fun s' => run s' b) := by
  induction a generalizing s with
  | nil => simp [run]
  | cons x a ih =>
    obtain ⟨n, e⟩ := x
    cases e with
    | leading => simp [run, ih]
    | trailing =>
      cases s with
      | nil => simp [run]
      | cons m s =>
        simp only [List.cons_append, run]
        split
        · exact ih s
        · simp

theorem Balanced.run {w : List Iter} (h : Balanced w) (s : List Ptr) : run s w = some s := by
  induction h generalizing s with
  | nil => simp [Forest.run]
  | cons n hb hc ihb ihc =>
    simp only [Forest.run, run_append, ihb, Option.bind_some, if_true, ihc]

/-- `w` closes the stack `s`. -/
def Closes : List Ptr → List Iter → Prop
  | [], w => Balanced w
  | m :: s, w => ∃ b c, w = b ++ ⟨m, .trailing⟩ :: c ∧ Balanced b ∧ Closes s c

theorem closes_of_run {s : List Ptr} {w : List Iter} (h : run s w = some []) : Closes s w := by
  induction w generalizing s with
  | nil =>
    simp [run] at h; subst h; exact Balanced.nil
  | cons x w ih =>
    obtain ⟨n, e⟩ := x
    cases e with
    | leading =>
      simp only [run] at h
      obtain ⟨b, c, rfl, hb, hc⟩ := ih h
      cases s with
      | nil => exact Balanced.cons n hb hc
      | cons m s =>
        obtain ⟨b', c', rfl, hb', hc'⟩ := hc
        exact ⟨⟨n, .leading⟩ :: (b ++ ⟨n, .trailing⟩ :: b'), c', by simp, Balanced.cons n hb hb', hc'⟩
    | trailing =>
      cases s with
      | nil => simp [run] at h
      | cons m s =>
        simp only [run] at h
        split at h
        · rename_i hmn
          subst hmn
          exact ⟨[], w, by simp, Balanced.nil, ih h⟩
        · simp at h

theorem balanced_iff_run {w : List Iter} : Balanced w ↔ run [] w = some [] :=
  ⟨fun h => h.run [], fun h => closes_of_run (s := []) h⟩

theorem Balanced.append {a b : List Iter} (ha : Balanced a) (hb : Balanced b) :
    Balanced (a ++ b) := by
  rw [balanced_iff_run, run_append, ha.run, Option.bind_some, hb.run]

/-- Removing a balanced infix. -/
theorem Balanced.remove {a b c : List Iter} (h : Balanced (a ++ (b ++ c))) (hb : Balanced b) :
    Balanced (a ++ c) := by
  rw [balanced_iff_run] at h ⊢
  rw [run_append] at h ⊢
  cases ha : Forest.run [] a with
  | none => simp [ha] at h
  | some s => simpa [ha, run_append, hb.run] using h

/-- Inserting a balanced infix. -/
theorem Balanced.insert {a b c : List Iter} (h : Balanced (a ++ c)) (hb : Balanced b) :
    Balanced (a ++ (b ++ c)) := by
  rw [balanced_iff_run] at h ⊢
  rw [run_append] at h ⊢
  cases ha : Forest.run [] a with
  | none => simp [ha] at h
  | some s => simpa [ha, run_append, hb.run] using h

theorem Balanced.leaf (n : Ptr) : Balanced [⟨n, .leading⟩, ⟨n, .trailing⟩] :=
  Balanced.cons n Balanced.nil Balanced.nil

theorem Balanced.tree (n : Ptr) {b : List Iter} (hb : Balanced b) :
    Balanced (⟨n, .leading⟩ :: (b ++ [⟨n, .trailing⟩])) :=
  Balanced.cons n hb Balanced.nil

theorem Balanced.closed {t : Ptr} {w : List Iter} (h : Balanced w) : Balanced (closed t w) :=
  Balanced.tree t h

/-- Every balanced word contains both edges of a node or none. -/
theorem Balanced.mem_iff {w : List Iter} (h : Balanced w) (n : Ptr) :
    (⟨n, .leading⟩ : Iter) ∈ w ↔ (⟨n, .trailing⟩ : Iter) ∈ w := by
  induction h with
  | nil => simp
  | cons m hb hc ihb ihc => simp [ihb, ihc, or_left_comm]

theorem Balanced.mem_edge {w : List Iter} (h : Balanced w) {x : Iter} (hx : x ∈ w) (e : Edge) :
    (⟨x.node, e⟩ : Iter) ∈ w := by
  obtain ⟨n, e'⟩ := x
  cases e <;> cases e' <;> first | exact hx | exact (h.mem_iff n).mp hx | exact (h.mem_iff n).mpr hx

/-- A node of a balanced word brackets a balanced word. -/
theorem Balanced.split {w : List Iter} (h : Balanced w) {n : Ptr} {e : Edge}
    (hn : (⟨n, e⟩ : Iter) ∈ w) :
    ∃ a b c, w = a ++ (⟨n, .leading⟩ :: (b ++ ⟨n, .trailing⟩ :: c)) ∧ Balanced b := by
  replace hn : (⟨n, .leading⟩ : Iter) ∈ w := h.mem_edge hn .leading
  induction h with
  | nil => simp at hn
  | @cons m b c hb hc ihb ihc =>
    simp only [List.mem_cons, Iter.mk.injEq, and_true, List.mem_append, reduceCtorEq, and_false,
      false_or] at hn
    rcases hn with rfl | hn | hn
    · exact ⟨[], b, c, rfl, hb⟩
    · obtain ⟨a, b', c', rfl, hb'⟩ := ihb hn
      exact ⟨⟨m, .leading⟩ :: a, b', c' ++ ⟨m, .trailing⟩ :: c, by simp, hb'⟩
    · obtain ⟨a, b', c', rfl, hb'⟩ := ihc hn
      exact ⟨⟨m, .leading⟩ :: (b ++ ⟨m, .trailing⟩ :: a), b', c', by simp, hb'⟩

/-- Removing the two edges of nodes keeps a word balanced. -/
theorem Balanced.filter {w : List Iter} (h : Balanced w) (p : Ptr → Bool) :
    Balanced (w.filter (fun x => p x.node)) := by
  induction h with
  | nil => exact Balanced.nil
  | cons m hb hc ihb ihc =>
    by_cases hp : p m
    · simp only [List.filter_cons, hp, if_true, List.filter_append]
      exact Balanced.cons m ihb ihc
    · simp only [List.filter_cons, hp, List.filter_append]
      simpa using ihb.append ihc

/-- A leading edge directly followed by a trailing edge: same node. -/
theorem Balanced.adj_leaf {a b : List Iter} {n m : Ptr}
    (h : Balanced (a ++ ⟨n, .leading⟩ :: ⟨m, .trailing⟩ :: b)) : n = m := by
  rw [balanced_iff_run, run_append] at h
  cases ha : Forest.run [] a with
  | none => simp [ha] at h
  | some s =>
    simp only [ha, Option.bind_some, Forest.run] at h
    by_contra hne
    simp [hne] at h

/-- Two lists with a common element occurring once split alike. -/
theorem append_cons_inj {α : Type*} {a b a' b' : List α} {x : α} (hn : (a ++ x :: b).Nodup)
    (h : a ++ x :: b = a' ++ x :: b') : a = a' ∧ b = b' := by
  induction a generalizing a' with
  | nil =>
    cases a' with
    | nil => simpa using h
    | cons y a' =>
      simp only [List.nil_append, List.cons_append, List.cons.injEq] at h
      obtain ⟨rfl, rfl⟩ := h
      simp at hn
  | cons y a ih =>
    cases a' with
    | nil =>
      simp only [List.nil_append, List.cons_append, List.cons.injEq] at h
      obtain ⟨rfl, h⟩ := h
      simp at hn
    | cons z a' =>
      simp only [List.cons_append, List.cons.injEq] at h
      obtain ⟨rfl, h⟩ := h
      have := ih (by simp only [List.cons_append, List.nodup_cons] at hn; exact hn.2) h
      simp [this.1, this.2]

/-- Two trailing edges in a row: the inner node lies strictly inside the outer one. -/
theorem Balanced.adj_trailing {a b : List Iter} {n m : Ptr}
    (h : Balanced (a ++ ⟨n, .trailing⟩ :: ⟨m, .trailing⟩ :: b))
    (hn : (a ++ ⟨n, .trailing⟩ :: ⟨m, .trailing⟩ :: b).Nodup) :
    ∃ a1 c, a ++ [⟨n, .trailing⟩] = a1 ++ ⟨m, .leading⟩ :: c ∧
      (⟨n, .leading⟩ : Iter) ∈ c ∧ (⟨n, .trailing⟩ : Iter) ∈ c := by
  obtain ⟨a1, c, b1, he, hc⟩ := h.split (n := m) (e := .trailing) (by simp)
  have he' : (a ++ [⟨n, .trailing⟩]) ++ ⟨m, .trailing⟩ :: b =
      (a1 ++ ⟨m, .leading⟩ :: c) ++ ⟨m, .trailing⟩ :: b1 := by simpa using he
  obtain ⟨h1, -⟩ := append_cons_inj (by simpa using hn) he'
  refine ⟨a1, c, h1, ?_⟩
  have : (⟨n, .trailing⟩ : Iter) ∈ c := by
    rcases List.eq_nil_or_concat c with rfl | ⟨c', x, rfl⟩
    · have := (List.append_inj' h1 rfl).2
      simp at this
    · have h1' : a ++ [⟨n, .trailing⟩] = (a1 ++ ⟨m, .leading⟩ :: c') ++ [x] := by
        rw [h1]; simp
      have := (List.append_inj' h1' rfl).2
      simp only [List.cons.injEq, and_true] at this
      simp [this]
  exact ⟨(hc.mem_iff n).mpr this, this⟩

/-- Two leading edges in a row: the inner node lies strictly inside the outer one. -/
theorem Balanced.adj_leading {a b : List Iter} {n m : Ptr}
    (h : Balanced (a ++ ⟨n, .leading⟩ :: ⟨m, .leading⟩ :: b))
    (hn : (a ++ ⟨n, .leading⟩ :: ⟨m, .leading⟩ :: b).Nodup) :
    ∃ c b1, ⟨m, .leading⟩ :: b = c ++ ⟨n, .trailing⟩ :: b1 ∧
      (⟨m, .leading⟩ : Iter) ∈ c ∧ (⟨m, .trailing⟩ : Iter) ∈ c := by
  obtain ⟨a1, c, b1, he, hc⟩ := h.split (n := n) (e := .leading) (by simp)
  obtain ⟨-, h1⟩ := append_cons_inj hn he
  refine ⟨c, b1, h1, ?_⟩
  have : (⟨m, .leading⟩ : Iter) ∈ c := by
    cases c with
    | nil => simp at h1
    | cons x c => simp at h1; simp [h1.1]
  exact ⟨this, (hc.mem_iff m).mp this⟩

end Verif.Forest
