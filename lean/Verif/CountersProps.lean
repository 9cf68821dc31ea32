import Verif.Counters

/-!
# C78: counting and awaiting `annotate` objects

The counters of include/stlab/test/model.hpp: what they count, and what `wait` waits for.
-/

namespace Verif.Counters

/-- An original object is made: line 69. -/
def Act.isMake : Act → Bool
  | .make _ => true
  | _ => false

/-- An object is constructed from another one: lines 78 and 79. -/
def Act.isCtor : Act → Bool
  | .copy _ _ | .move _ _ => true
  | _ => false

theorem use_cases {s s' r : St} (h : s.use s' = some r) :
    (s.gone = false ∧ r = s') ∨ (s.gone = true ∧ r = { s with ub := true }) := by
  unfold St.use at h
  split at h <;> rename_i hg <;> injection h with h
  · exact .inr ⟨hg, h.symm⟩
  · exact .inl ⟨by simpa using hg, h.symm⟩

/-! ### The counters -/

/-- What the counters say about a history in which `made` original objects were made. -/
structure CInv (made : Nat) (s : St) : Prop where
  live : s.gone = false → s.objs.length + s.dtor = made + s.copy + s.move
  nodup : s.objs.Nodup
  empty : s.gone = true → s.objs = []

theorem CInv.ub {m m' : Nat} {s : St} (h : CInv m s) (hg : s.gone = true) : CInv m' { s with ub := true } :=
  ⟨fun h' => by simp [hg] at h', h.nodup, h.empty⟩

theorem CInv.of {m : Nat} {s s' : St} (h : CInv m s) (h1 : s'.objs = s.objs) (h2 : s'.dtor = s.dtor)
    (h3 : s'.copy = s.copy) (h4 : s'.move = s.move) (h5 : s'.gone = s.gone) : CInv m s' := by
  constructor
  · rw [h1, h2, h3, h4, h5]; exact h.live
  · rw [h1]; exact h.nodup
  · rw [h1, h5]; exact h.empty

theorem wake_fields {s s' : St} {w : Option Nat} (h : s.wake w = some s') :
    s'.objs = s.objs ∧ s'.dtor = s.dtor ∧ s'.copy = s.copy ∧ s'.move = s.move ∧ s'.gone = s.gone := by
  unfold St.wake at h
  repeat' split at h
  all_goals first | (cases h; done) | (injection h with h; subst h; simp [St.set])

theorem cinv_step {made : Nat} {s s' : St} {a : Act} (h : step s a = some s') (hi : CInv made s) :
    CInv (made + if a.isMake then 1 else 0) s' := by
  cases a <;> simp only [step, Act.isMake, if_true, Bool.false_eq_true, if_false, Nat.add_zero] at h ⊢
  case make o =>
    split at h
    · cases h
    · rename_i ho
      rcases use_cases h with ⟨hg, rfl⟩ | ⟨hg, rfl⟩
      · refine ⟨fun _ => ?_, by simp [ho, hi.nodup], fun h' => by simp [hg] at h'⟩
        have := hi.live hg; simp; omega
      · exact hi.ub hg
  case copy o x =>
    split at h
    · rename_i ho
      rcases use_cases h with ⟨hg, rfl⟩ | ⟨hg, rfl⟩
      · refine ⟨fun _ => ?_, by simp [ho.2, hi.nodup], fun h' => by simp [hg] at h'⟩
        have := hi.live hg; simp; omega
      · exact hi.ub hg
    · cases h
  case move o x =>
    split at h
    · rename_i ho
      rcases use_cases h with ⟨hg, rfl⟩ | ⟨hg, rfl⟩
      · refine ⟨fun _ => ?_, by simp [ho.2, hi.nodup], fun h' => by simp [hg] at h'⟩
        have := hi.live hg; simp; omega
      · exact hi.ub hg
    · cases h
  case destroy t o =>
    split at h
    · rename_i ho
      rcases use_cases h with ⟨hg, rfl⟩ | ⟨hg, rfl⟩
      · refine ⟨fun _ => ?_, hi.nodup.erase _, fun h' => by simp [St.set, hg] at h'⟩
        have := hi.live hg
        have h1 := List.length_erase_of_mem ho.1
        have h2 := List.length_pos_of_mem ho.1
        simp [St.set, h1]; omega
      · exact hi.ub hg
    · cases h
  case notify t w =>
    split at h
    · split at h
      · rename_i hw
        rcases use_cases h with ⟨hg, rfl⟩ | ⟨hg, rfl⟩
        · obtain ⟨h1, h2, h3, h4, h5⟩ := wake_fields hw
          exact hi.of h1 h2 h3 h4 h5
        · exact hi.ub hg
      · cases h
    · cases h
  case drop t =>
    split at h
    · split at h
      · rename_i ho
        injection h with h; subst h
        exact ⟨fun h' => by simp at h', hi.nodup, fun _ => ho.1⟩
      · cases h
    · cases h
  all_goals
    repeat' split at h
    all_goals first
      | (cases h; done)
      | (injection h with h; subst h; exact hi)
      | (rcases use_cases h with ⟨hg, rfl⟩ | ⟨hg, rfl⟩
         · exact hi.of (by simp [St.set]) (by simp [St.set]) (by simp [St.set]) (by simp [St.set]) (by simp [St.set])
         · exact hi.ub hg)

theorem cinv_exec {acts : List Act} : ∀ {made : Nat} {s s' : St}, exec s acts = some s' → CInv made s →
    CInv (made + acts.countP Act.isMake) s' := by
  induction acts with
  | nil => intro made s s' h hi; simp only [exec] at h; injection h with h; subst h; exact hi
  | cons a as ih =>
    intro made s s' h hi
    simp only [exec] at h
    split at h
    · rename_i s1 h1
      have := ih h (cinv_step h1 hi)
      rw [List.countP_cons]
      rw [Nat.add_assoc] at this
      rw [Nat.add_comm (as.countP _)]
      exact this
    · cases h

theorem cinv_init : CInv 0 init := ⟨fun _ => rfl, List.nodup_nil, fun h => by cases h⟩

/-- C78. `remaining()` is the number of objects that exist, one more or less for every original object missing or in excess of
one, in `std::size_t`. -/
theorem c78_remaining {acts : List Act} {s : St} (h : exec init acts = some s) (hg : s.gone = false) :
    s.remaining = ((s.objs.length : Int) + 1 - acts.countP Act.isMake) % 2 ^ 64 ∧ s.objs.Nodup := by
  have hi := cinv_exec h cinv_init
  refine ⟨?_, hi.nodup⟩
  have := hi.live hg
  unfold St.remaining remainingOf
  congr 1
  omega

/-- C78. With one original object, and not `2^64` objects at once, `remaining()` is the number of objects that exist. -/
theorem c78_remaining_one_partial {acts : List Act} {s : St} (h : exec init acts = some s) (hg : s.gone = false)
    (h1 : acts.countP Act.isMake = 1) (hl : s.objs.length < 2 ^ 64) : s.remaining = s.objs.length := by
  rw [(c78_remaining h hg).1, h1]
  omega

example : ∃ s, exec init [.make 0, .copy 1 0, .move 2 1, .destroy 0 1, .notify 0 none] = some s ∧ s.gone = false ∧
    ([.make 0, .copy 1 0, .move 2 1, .destroy 0 1, .notify 0 none] : List Act).countP Act.isMake = 1 ∧
    s.objs = [2, 0] ∧ s.remaining = 2 :=
  ⟨_, rfl, rfl, rfl, rfl, rfl⟩

/-- C78, a counterexample: with two original objects, both gone, `remaining()` is `2^64 - 1`, and 1 before the first is made. -/
theorem c78_remaining_counterexample :
    init.remaining = 1 ∧ init.objs = [] ∧
    ∃ s, exec init [.make 0, .make 1, .destroy 0 0, .notify 0 none, .destroy 0 1, .notify 0 none] = some s ∧
      s.objs = [] ∧ s.remaining = 2 ^ 64 - 1 :=
  ⟨by decide, rfl, _, rfl, rfl, by decide⟩


/-! ### The other counters -/

/-- Per action: copy constructions, move constructions, destructions, copy assignments between different objects, move
assignments, swaps, comparisons. -/
def Act.kind : Act → Fin 7 → Nat
  | .copy _ _, 0 => 1
  | .move _ _, 1 => 1
  | .destroy _ _, 2 => 1
  | .copyAssign x y, 3 => if x = y then 0 else 1
  | .moveAssign _ _, 4 => 1
  | .swap _ _, 5 => 1
  | .equal _ _, 6 => 1
  | _, _ => 0

/-- How many there are in a history. -/
def calls (acts : List Act) (k : Fin 7) : Nat := (acts.map (Act.kind · k)).sum

/-- The nine counters, in terms of the calls made. -/
structure Counts (n : Fin 7 → Nat) (s : St) : Prop where
  copy : s.copy = n 0
  move : s.move = n 1
  dtor : s.dtor = n 2
  copyLhs : s.copyLhs = n 3
  copyRhs : s.copyRhs = n 3
  moveLhs : s.moveLhs = n 4
  moveRhs : s.moveRhs = n 4
  swaps : s.swaps = 2 * n 5
  equals : s.equals = 2 * n 6

theorem counts_step {n : Fin 7 → Nat} {s s' : St} {a : Act} (h : step s a = some s') (hg : s'.ub = false)
    (hi : Counts n s) : Counts (fun k => n k + a.kind k) s' := by
  obtain ⟨h1, h2, h3, h4, h5, h6, h7, h8, h9⟩ := hi
  cases a <;> simp only [step] at h
  case notify t w =>
    split at h
    · split at h
      · rename_i s1 hw
        unfold St.wake at hw
        rcases use_cases h with ⟨_, rfl⟩ | ⟨_, rfl⟩
        · repeat' split at hw
          all_goals first
            | (cases hw; done)
            | (injection hw with hw; subst hw; constructor <;> simp [Act.kind, St.set, *])
        · simp at hg
      · cases h
    · cases h
  all_goals
    repeat' split at h
    all_goals first
      | (cases h; done)
      | (injection h with h; subst h; constructor <;> simp [Act.kind, *]; done)
      | (rcases use_cases h with ⟨_, rfl⟩ | ⟨_, rfl⟩
         · constructor <;> simp [Act.kind, St.set, *] <;> omega
         · simp at hg)

theorem ub_step {s s' : St} {a : Act} (h : step s a = some s') (hg : s'.ub = false) : s.ub = false := by
  cases a <;> simp only [step] at h
  case notify t w =>
    split at h
    · split at h
      · rename_i s1 hw
        unfold St.wake at hw
        rcases use_cases h with ⟨_, rfl⟩ | ⟨_, rfl⟩
        · repeat' split at hw
          all_goals first
            | (cases hw; done)
            | (injection hw with hw; subst hw; exact hg)
        · simp at hg
      · cases h
    · cases h
  all_goals
    repeat' split at h
    all_goals first
      | (cases h; done)
      | (injection h with h; subst h; exact hg)
      | (rcases use_cases h with ⟨_, rfl⟩ | ⟨_, rfl⟩
         · exact hg
         · simp at hg)

theorem counts_exec {acts : List Act} : ∀ {n : Fin 7 → Nat} {s s' : St}, exec s acts = some s' → s'.ub = false →
    Counts n s → Counts (fun k => n k + calls acts k) s' ∧ s.ub = false := by
  induction acts with
  | nil => intro n s s' h hu hi; simp only [exec] at h; injection h with h; subst h; exact ⟨by simpa [calls] using hi, hu⟩
  | cons a as ih =>
    intro n s s' h hu hi
    simp only [exec] at h
    split at h
    · rename_i s1 h1
      by_cases hu1 : s1.ub = false
      · refine ⟨?_, ub_step h1 hu1⟩
        have := (ih h hu (counts_step h1 hu1 hi)).1
        simpa [calls, Nat.add_assoc] using this
      · exfalso
        have hx : ∀ (l : List Act) {r r' : St}, exec r l = some r' → r'.ub = false → r.ub = false := by
          intro l
          induction l with
          | nil => intro r r' h hu; simp only [exec] at h; injection h with h; subst h; exact hu
          | cons b bs ihb =>
            intro r r' h hu
            simp only [exec] at h
            split at h
            · rename_i r1 hr1; exact ub_step hr1 (ihb h hu)
            · cases h
        exact hu1 (hx as h hu)
    · cases h

/-- C78. Every counter is the number of calls of the function it is named after; `_swap` and `_equality` count every call
twice, once per object, and the copy assignment of an object to itself is not counted. -/
theorem c78_counts {acts : List Act} {s : St} (h : exec init acts = some s) (hu : s.ub = false) :
    s.copy = calls acts 0 ∧ s.move = calls acts 1 ∧ s.dtor = calls acts 2 ∧
    s.copyLhs = calls acts 3 ∧ s.copyRhs = calls acts 3 ∧ s.moveLhs = calls acts 4 ∧ s.moveRhs = calls acts 4 ∧
    s.swaps = 2 * calls acts 5 ∧ s.equals = 2 * calls acts 6 := by
  have h0 : Counts (fun _ => 0) init := ⟨rfl, rfl, rfl, rfl, rfl, rfl, rfl, rfl, rfl⟩
  obtain ⟨h1, h2, h3, h4, h5, h6, h7, h8, h9⟩ := (counts_exec h hu h0).1
  simp only [Nat.zero_add] at *
  exact ⟨h1, h2, h3, h4, h5, h6, h7, h8, h9⟩

example : ∃ s, exec init [.make 0, .copy 1 0, .copyAssign 0 1, .copyAssign 0 0, .moveAssign 0 0, .swap 0 1, .equal 0 1,
    .destroy 0 1] = some s ∧ s.ub = false ∧ s.copyLhs = 1 ∧ s.moveLhs = 1 ∧ s.swaps = 2 :=
  ⟨_, rfl, rfl, rfl, rfl, rfl⟩

/-! ### What `wait` sees -/

theorem exec_append {s s1 : St} {a b : List Act} (h : exec s a = some s1) : exec s (a ++ b) = exec s1 b := by
  induction a generalizing s with
  | nil => simp only [exec] at h; injection h with h; subst h; rfl
  | cons x as ih =>
    simp only [exec, List.cons_append] at h ⊢
    split at h
    · exact ih h
    · cases h

/-- What a thread in `wait(c)` has read is what the counters of objects made are now. -/
def Fresh (s : St) (c : Nat) : Pc → Prop
  | .locking c' | .asleep c' | .woken c' => c' = c
  | .reading c' v m _ => c' = c ∧ (v = none ∨ v = some s.copy) ∧ (m = none ∨ m = some s.move)
  | _ => False

/-- What it has read of `_dtor` makes the predicate true. -/
def Sees (s : St) (c : Nat) : Pc → Prop
  | .reading _ _ _ (some d) => (c : Int) = remainingOf s.copy s.move d
  | _ => False

theorem set_self (s : St) (t : Nat) (p : Pc) : (s.set t p).pc t = p := by simp [St.set]

theorem set_other (s : St) {t u : Nat} (p : Pc) (h : u ≠ t) : (s.set t p).pc u = s.pc u := by simp [St.set, h]

theorem fresh_congr {s s' : St} {c : Nat} {p : Pc} (h1 : s'.copy = s.copy) (h2 : s'.move = s.move) :
    (Fresh s' c p ↔ Fresh s c p) ∧ (Sees s' c p ↔ Sees s c p) := by
  constructor
  · cases p <;> simp [Fresh, h1, h2]
  · cases p
    case reading c' v m d => cases d <;> simp [Sees, h1, h2]
    all_goals simp [Sees]

/-- What one step is, seen from a thread in `wait(c)`. -/
def Good (s s' : St) (t c : Nat) : Prop :=
  (Fresh s' c (s'.pc t) ∧ (Sees s' c (s'.pc t) → Sees s c (s.pc t) ∨ (c : Int) = s.remaining)) ∨
  (s'.pc t = .returned c ∧ Sees s c (s.pc t))

theorem good_keep {s s' : St} {t c : Nat} (hf : Fresh s c (s.pc t)) (h0 : s'.pc t = s.pc t) (h1 : s'.copy = s.copy)
    (h2 : s'.move = s.move) : Good s s' t c := by
  refine .inl ⟨?_, fun h => .inl ?_⟩
  · rw [h0]; exact (fresh_congr h1 h2).1.2 hf
  · rw [h0] at h; exact (fresh_congr h1 h2).2.1 h

theorem good_woken {s s' : St} {t c : Nat} (h0 : s'.pc t = .woken c) : Good s s' t c := by
  refine .inl ⟨?_, fun h => ?_⟩
  · rw [h0]; rfl
  · rw [h0] at h; exact h.elim

/-- One step seen from a thread in `wait(c)`, if it constructs no object. -/
theorem fresh_step {s s' : St} {a : Act} {t c : Nat} (h : step s a = some s') (ha : a.isCtor = false)
    (hf : Fresh s c (s.pc t)) : Good s s' t c := by
  cases a <;> simp only [step, Act.isCtor, Bool.true_eq_false] at h ha
  case destroy u o =>
    split at h
    · rename_i ho
      rcases use_cases h with ⟨hg, rfl⟩ | ⟨hg, rfl⟩
      · have hne : t ≠ u := by rintro rfl; rw [ho.2] at hf; exact hf
        exact good_keep hf (set_other _ _ hne) rfl rfl
      · exact good_keep hf rfl rfl rfl
    · cases h
  case notify u w =>
    split at h
    · rename_i hu
      have hne : t ≠ u := by rintro rfl; rw [hu] at hf; exact hf
      split at h
      · rename_i s1 hw
        rcases use_cases h with ⟨hg, rfl⟩ | ⟨hg, rfl⟩
        · unfold St.wake at hw
          split at hw
          · rename_i v
            split at hw
            · rename_i cv hv
              injection hw with hw; subst hw
              by_cases hvt : t = v
              · subst hvt
                have : cv = c := by rw [hv] at hf; exact hf
                subst this
                exact good_woken (by rw [set_other _ _ hne]; exact set_self s t _)
              · exact good_keep hf (by rw [set_other _ _ hne]; exact set_other s _ hvt) rfl rfl
            · cases hw
          · split at hw
            · injection hw with hw; subst hw
              exact good_keep hf (set_other _ _ hne) rfl rfl
            · cases hw
        · exact good_keep hf rfl rfl rfl
      · cases h
    · cases h
  case wait u c' =>
    split at h
    · rename_i hu
      have hne : t ≠ u := by rintro rfl; rw [hu] at hf; exact hf
      rcases use_cases h with ⟨hg, rfl⟩ | ⟨hg, rfl⟩
      · exact good_keep hf (set_other _ _ hne) rfl rfl
      · exact good_keep hf rfl rfl rfl
    · rename_i hu
      have hne : t ≠ u := by rintro rfl; rw [hu] at hf; exact hf
      rcases use_cases h with ⟨hg, rfl⟩ | ⟨hg, rfl⟩
      · exact good_keep hf (set_other _ _ hne) rfl rfl
      · exact good_keep hf rfl rfl rfl
    · cases h
  case lock u =>
    split at h
    · rename_i cu hu _
      rcases use_cases h with ⟨hg, rfl⟩ | ⟨hg, rfl⟩
      · by_cases hne : t = u
        · subst hne
          have : cu = c := by rw [hu] at hf; exact hf
          subst this
          refine .inl ⟨?_, fun h => ?_⟩
          · simp [St.set, Fresh]
          · simp [St.set, Sees] at h
        · exact good_keep hf (set_other s _ hne) rfl rfl
      · exact good_keep hf rfl rfl rfl
    · rename_i cu hu _
      rcases use_cases h with ⟨hg, rfl⟩ | ⟨hg, rfl⟩
      · by_cases hne : t = u
        · subst hne
          have : cu = c := by rw [hu] at hf; exact hf
          subst this
          refine .inl ⟨?_, fun h => ?_⟩
          · simp [St.set, Fresh]
          · simp [St.set, Sees] at h
        · exact good_keep hf (set_other s _ hne) rfl rfl
      · exact good_keep hf rfl rfl rfl
    · cases h
  case readCopy u =>
    split at h
    · rename_i cu m d hu
      rcases use_cases h with ⟨hg, rfl⟩ | ⟨hg, rfl⟩
      · by_cases hne : t = u
        · subst hne
          rw [hu] at hf
          refine .inl ⟨?_, fun h => .inl ?_⟩
          · simp [St.set, Fresh]; exact ⟨hf.1, hf.2.2⟩
          · rw [hu]; cases d <;> simp [St.set, Sees] at h ⊢; exact h
        · exact good_keep hf (set_other s _ hne) rfl rfl
      · exact good_keep hf rfl rfl rfl
    · cases h
  case readMove u =>
    split at h
    · rename_i cu v d hu
      rcases use_cases h with ⟨hg, rfl⟩ | ⟨hg, rfl⟩
      · by_cases hne : t = u
        · subst hne
          rw [hu] at hf
          refine .inl ⟨?_, fun h => .inl ?_⟩
          · simp [St.set, Fresh]; exact ⟨hf.1, hf.2.1⟩
          · rw [hu]; cases d <;> simp [St.set, Sees] at h ⊢; exact h
        · exact good_keep hf (set_other s _ hne) rfl rfl
      · exact good_keep hf rfl rfl rfl
    · cases h
  case readDtor u =>
    split at h
    · rename_i cu v m hu
      rcases use_cases h with ⟨hg, rfl⟩ | ⟨hg, rfl⟩
      · by_cases hne : t = u
        · subst hne
          rw [hu] at hf
          refine .inl ⟨?_, fun h => .inr ?_⟩
          · simp [St.set, Fresh]; exact ⟨hf.1, hf.2⟩
          · simp [St.set, Sees] at h; exact h
        · exact good_keep hf (set_other s _ hne) rfl rfl
      · exact good_keep hf rfl rfl rfl
    · cases h
  case decide u =>
    split at h
    · rename_i cu v m d hu
      by_cases hne : t = u
      · subst hne
        rw [hu] at hf
        obtain ⟨rfl, h1, h2⟩ := hf
        have h1 : v = s.copy := by simpa using h1
        have h2 : m = s.move := by simpa using h2
        subst h1 h2
        split at h <;> rename_i hc <;> rcases use_cases h with ⟨hg, rfl⟩ | ⟨hg, rfl⟩
        · exact .inr ⟨by simp [St.set], by rw [hu]; exact hc⟩
        · exact good_keep (by rw [hu]; simp [Fresh]) rfl rfl rfl
        · refine .inl ⟨by simp [St.set, Fresh], fun h => by simp [St.set, Sees] at h⟩
        · exact good_keep (by rw [hu]; simp [Fresh]) rfl rfl rfl
      · split at h <;> rcases use_cases h with ⟨hg, rfl⟩ | ⟨hg, rfl⟩
        · exact good_keep hf (set_other s _ hne) rfl rfl
        · exact good_keep hf rfl rfl rfl
        · exact good_keep hf (set_other s _ hne) rfl rfl
        · exact good_keep hf rfl rfl rfl
    · cases h
  case spurious u =>
    split at h
    · rename_i cu hu
      rcases use_cases h with ⟨hg, rfl⟩ | ⟨hg, rfl⟩
      · by_cases hne : t = u
        · subst hne
          have : cu = c := by rw [hu] at hf; exact hf
          subst this
          exact good_woken (set_self s t _)
        · exact good_keep hf (set_other s _ hne) rfl rfl
      · exact good_keep hf rfl rfl rfl
    · cases h
  all_goals
    repeat' split at h
    all_goals first
      | (cases h; done)
      | (injection h with h; subst h; exact good_keep hf rfl rfl rfl)
      | (rcases use_cases h with ⟨hg, rfl⟩ | ⟨hg, rfl⟩ <;> exact good_keep hf rfl rfl rfl)

/-- A thread in `wait(c)`, at any point of it, that returns: `remaining()` was `c`, or what it had read of `_dtor` said so. -/
theorem wait_exact {acts : List Act} {t c : Nat} : ∀ {s s' : St}, exec s acts = some s' →
    (∀ a ∈ acts, a.isCtor = false) → Fresh s c (s.pc t) → s'.pc t = .returned c →
    Sees s c (s.pc t) ∨ ∃ k s1, k ≤ acts.length ∧ exec s (acts.take k) = some s1 ∧ (c : Int) = s1.remaining := by
  induction acts with
  | nil =>
    intro s s' h _ hf hr
    simp only [exec] at h; injection h with h; subst h
    rw [hr] at hf; exact hf.elim
  | cons a as ih =>
    intro s s' h hc hf hr
    simp only [exec] at h
    split at h
    · rename_i s1 h1
      rcases fresh_step h1 (hc a (by simp)) hf with ⟨hf1, hs1⟩ | ⟨_, hs⟩
      · rcases ih h (fun b hb => hc b (by simp [hb])) hf1 hr with h2 | ⟨k, s2, hk, h2, h3⟩
        · rcases hs1 h2 with h3 | h3
          · exact .inl h3
          · exact .inr ⟨0, s, by simp, rfl, h3⟩
        · exact .inr ⟨k + 1, s2, by simpa using hk, by simp [exec, h1, h2], h3⟩
      · exact .inl hs
    · cases h

/-- C78. If no object is copied or moved during a call of `wait(c)`, then `remaining()` was `c` at some time during the call. -/
theorem c78_wait_exact_partial {acts : List Act} {t c : Nat} {s s1 s' : St} (h0 : step s (.wait t c) = some s1)
    (hu : s1.ub = false) (h : exec s1 acts = some s') (hc : ∀ a ∈ acts, a.isCtor = false)
    (hr : s'.pc t = .returned c) :
    ∃ k s2, k ≤ acts.length ∧ exec s1 (acts.take k) = some s2 ∧ (c : Int) = s2.remaining := by
  have hp : s1.pc t = .locking c := by
    simp only [step] at h0
    split at h0
    · rcases use_cases h0 with ⟨_, rfl⟩ | ⟨_, rfl⟩
      · exact set_self s t _
      · simp at hu
    · rcases use_cases h0 with ⟨_, rfl⟩ | ⟨_, rfl⟩
      · exact set_self s t _
      · simp at hu
    · cases h0
  rcases wait_exact h hc (by rw [hp]; rfl) hr with h1 | h1
  · rw [hp] at h1; exact h1.elim
  · exact h1


example : ∃ s s1 s', exec init [.make 0, .copy 1 0] = some s ∧ step s (.wait 0 1) = some s1 ∧ s1.ub = false ∧
    exec s1 [.lock 0, .readCopy 0, .destroy 1 0, .readMove 0, .readDtor 0, .decide 0] = some s' ∧
    s'.pc 0 = .returned 1 ∧ s.remaining = 2 :=
  ⟨_, _, _, rfl, rfl, rfl, rfl, rfl, by decide⟩

/-- C78, a counterexample: the three counters are not read at once, so that `wait(1)` returns although there are never fewer
than three objects. -/
theorem c78_wait_counterexample :
    ∃ s s1 s', exec init [.make 0, .copy 1 0, .copy 2 0] = some s ∧ step s (.wait 0 1) = some s1 ∧
      let acts : List Act := [.lock 0, .readCopy 0, .readMove 0, .copy 3 0, .copy 4 0, .destroy 1 3, .notify 1 none,
        .destroy 1 4, .notify 1 none, .readDtor 0, .decide 0]
      exec s1 acts = some s' ∧ s'.pc 0 = .returned 1 ∧
      ∀ k ≤ acts.length, ∃ s2, exec s1 (acts.take k) = some s2 ∧ 3 ≤ s2.objs.length ∧ 3 ≤ s2.remaining := by
  refine ⟨_, _, _, rfl, rfl, rfl, rfl, ?_⟩
  intro k hk
  match k, hk with
  | 0, _ | 1, _ | 2, _ | 3, _ | 4, _ | 5, _ | 6, _ | 7, _ | 8, _ | 9, _ | 10, _ | 11, _ =>
    exact ⟨_, rfl, by decide, by decide⟩

/-! ### Whether `wait` returns -/

/-- A thread is in `~annotate`, about to notify. -/
def Notifying (s : St) : Prop := ∃ t, s.pc t = .notifying

/-- What is needed for no wake-up to be missed by `w`: only `w` waits, no object is copied or moved meanwhile, and no
destructor counts while the mutex is locked. -/
def Polite (w : Nat) (s : St) : Act → Prop
  | .wait t _ => t = w
  | .copy _ _ | .move _ _ => s.pc w = .idle ∨ s.pc w = .notifying ∨ ∃ c, s.pc w = .returned c
  | .destroy _ _ => s.owner = none
  | _ => True

/-- The states reached by steps that satisfy `P`. -/
inductive Runs (P : St → Act → Prop) : St → Prop where
  | init : Runs P init
  | step {s s' : St} {a : Act} : Runs P s → P s a → step s a = some s' → Runs P s'

/-- Thread `t` is in `wait(c)`. -/
def InWait (s : St) (t c : Nat) : Prop :=
  s.pc t = .locking c ∨ (∃ v m d, s.pc t = .reading c v m d) ∨ s.pc t = .asleep c ∨ s.pc t = .woken c

/-- Threads other than the one that waits. -/
def Outside : Pc → Prop
  | .idle | .notifying => True
  | _ => False

def Pc.isAsleep : Pc → Bool
  | .asleep _ => true
  | _ => false

def Pc.isReading : Pc → Bool
  | .reading _ _ _ _ => true
  | _ => false

/-- What a thread in the predicate has read is still so. -/
def ReadOk (s : St) : Pc → Prop
  | .reading _ v m d => (v = none ∨ v = some s.copy) ∧ (m = none ∨ m = some s.move) ∧ (d = none ∨ d = some s.dtor)
  | _ => True

/-- A sleeper for whom it is time is about to be notified. -/
def AwakeOk (s : St) : Pc → Prop
  | .asleep c => (c : Int) = s.remaining → Notifying s
  | _ => True

structure WInv (w : Nat) (s : St) : Prop where
  others : ∀ t, t ≠ w → Outside (s.pc t)
  sleepers : s.sleepers = if (s.pc w).isAsleep then [w] else []
  owner : s.owner = if (s.pc w).isReading then some w else none
  read : ReadOk s (s.pc w)
  awake : AwakeOk s (s.pc w)

theorem WInv.keep {w : Nat} {s s' : St} (h : WInv w s) (h0 : s'.pc = s.pc) (h1 : s'.sleepers = s.sleepers)
    (h2 : s'.owner = s.owner) (h3 : s'.copy = s.copy) (h4 : s'.move = s.move) (h5 : s'.dtor = s.dtor) : WInv w s' := by
  constructor
  · rw [h0]; exact h.others
  · rw [h0, h1]; exact h.sleepers
  · rw [h0, h2]; exact h.owner
  · have := h.read
    rw [h0]
    cases hp : s.pc w <;> simp [ReadOk, hp, h3, h4, h5] at this ⊢
    exact this
  · have := h.awake
    rw [h0]
    cases hp : s.pc w <;> simp [AwakeOk, hp, Notifying, h0, St.remaining, h3, h4, h5] at this ⊢
    exact this

/-- A thread that is in `wait` is `w`. -/
theorem WInv.is {w t : Nat} {s : St} (h : WInv w s) (ht : ¬ Outside (s.pc t)) : t = w := by
  by_cases he : t = w
  · exact he
  · exact absurd (h.others t he) ht

/-- The thread that waits takes a step to a place where it is neither asleep nor in the predicate. -/
theorem WInv.move {w : Nat} {s s' : St} {p : Pc} (h : WInv w s) (h0 : ∀ t, s'.pc t = if t = w then p else s.pc t)
    (h1 : s'.sleepers = if p.isAsleep then [w] else []) (h2 : s'.owner = if p.isReading then some w else none)
    (h3 : ReadOk s' p) (h4 : AwakeOk s' p) : WInv w s' := by
  have hw : s'.pc w = p := by rw [h0]; simp
  constructor
  · intro t ht; rw [h0]; simp [ht, h.others t ht]
  · rw [hw]; exact h1
  · rw [hw]; exact h2
  · rw [hw]; exact h3
  · rw [hw]; exact h4

theorem winv_step {w : Nat} {s s' : St} {a : Act} (h : step s a = some s') (hp : Polite w s a) (hi : WInv w s) :
    WInv w s' := by
  cases a <;> simp only [step, Polite] at h hp
  case destroy t o =>
    split at h
    · rename_i ho
      rcases use_cases h with ⟨hg, rfl⟩ | ⟨hg, rfl⟩
      · have hr : (s.pc w).isReading = false := by
          have := hi.owner; rw [hp] at this
          cases hq : (s.pc w).isReading <;> simp [hq] at this ⊢
        by_cases ht : t = w
        · subst ht
          refine hi.move (p := .notifying) (fun u => rfl) ?_ ?_ trivial trivial
          · have := hi.sleepers; simpa [ho.2, Pc.isAsleep, St.set] using this
          · exact hp
        · have hw : (s.set t .notifying).pc w = s.pc w := set_other s _ (fun e => ht e.symm)
          constructor
          · intro u hu
            by_cases hut : u = t
            · subst hut; simp [St.set, Outside]
            · simp [St.set, hut, hi.others u hu]
          · show s.sleepers = if ((s.set t .notifying).pc w).isAsleep then [w] else []
            rw [hw]; exact hi.sleepers
          · show s.owner = if ((s.set t .notifying).pc w).isReading then some w else none
            rw [hw]; exact hi.owner
          · show ReadOk _ ((s.set t .notifying).pc w)
            rw [hw]; cases hq : s.pc w <;> simp [ReadOk, hq, Pc.isReading] at hr ⊢
          · show AwakeOk _ ((s.set t .notifying).pc w)
            rw [hw]
            cases hq : s.pc w <;> simp only [AwakeOk]
            intro _; exact ⟨t, set_self s t _⟩
      · exact hi.keep rfl rfl rfl rfl rfl rfl
    · cases h
  case notify t v =>
    split at h
    · rename_i ht
      split at h
      · rename_i s1 hw
        rcases use_cases h with ⟨hg, rfl⟩ | ⟨hg, rfl⟩
        · unfold St.wake at hw
          split at hw
          · rename_i u
            split at hw
            · rename_i c hu
              injection hw with hw; subst hw
              have huw : u = w := hi.is (by rw [hu]; exact fun h => h)
              subst huw
              have htu : t ≠ u := by rintro rfl; rw [ht] at hu; cases hu
              have hw' : ((s.set u (.woken c)).set t .idle).pc u = .woken c := by
                rw [set_other _ _ htu.symm]; exact set_self s u _
              have hsl := hi.sleepers
              have how := hi.owner
              simp [hu, Pc.isAsleep, Pc.isReading] at hsl how
              constructor
              · intro x hx
                by_cases hxt : x = t
                · subst hxt; simp [St.set, Outside]
                · simp [St.set, hxt, hx, hi.others x hx]
              · show s.sleepers.erase u = if (((s.set u (.woken c)).set t .idle).pc u).isAsleep then [u] else []
                rw [hw', hsl]; simp [Pc.isAsleep]
              · show s.owner = if (((s.set u (.woken c)).set t .idle).pc u).isReading then some u else none
                rw [hw', how]; rfl
              · show ReadOk _ (((s.set u (.woken c)).set t .idle).pc u)
                rw [hw']; trivial
              · show AwakeOk _ (((s.set u (.woken c)).set t .idle).pc u)
                rw [hw']; trivial
            · cases hw
          · split at hw
            · rename_i hsl
              injection hw with hw; subst hw
              have hna : (s.pc w).isAsleep = false := by
                have := hi.sleepers; rw [hsl] at this
                cases hq : (s.pc w).isAsleep <;> simp [hq] at this ⊢
              by_cases htw : t = w
              · subst htw
                refine hi.move (p := .idle) (fun u => rfl) ?_ ?_ trivial trivial
                · exact hsl
                · have := hi.owner; simpa [ht, Pc.isReading, St.set] using this
              · have hw : (s.set t .idle).pc w = s.pc w := set_other s _ (fun e => htw e.symm)
                constructor
                · intro u hu
                  by_cases hut : u = t
                  · subst hut; simp [St.set, Outside]
                  · simp [St.set, hut, hi.others u hu]
                · show s.sleepers = if ((s.set t .idle).pc w).isAsleep then [w] else []
                  rw [hw]; exact hi.sleepers
                · show s.owner = if ((s.set t .idle).pc w).isReading then some w else none
                  rw [hw]; exact hi.owner
                · show ReadOk _ ((s.set t .idle).pc w)
                  rw [hw]; exact hi.read
                · show AwakeOk _ ((s.set t .idle).pc w)
                  rw [hw]; cases hq : s.pc w <;> simp [AwakeOk, hq, Pc.isAsleep] at hna ⊢
            · cases hw
        · exact hi.keep rfl rfl rfl rfl rfl rfl
      · cases h
    · cases h
  case wait t c =>
    subst hp
    have hsl := hi.sleepers
    have how := hi.owner
    split at h
    · rename_i hu
      rcases use_cases h with ⟨hg, rfl⟩ | ⟨hg, rfl⟩
      · exact hi.move (p := .locking c) (fun u => rfl) (by simpa [hu, Pc.isAsleep, St.set] using hsl)
          (by simpa [hu, Pc.isReading, St.set] using how) trivial trivial
      · exact hi.keep rfl rfl rfl rfl rfl rfl
    · rename_i hu
      rcases use_cases h with ⟨hg, rfl⟩ | ⟨hg, rfl⟩
      · exact hi.move (p := .locking c) (fun u => rfl) (by simpa [hu, Pc.isAsleep, St.set] using hsl)
          (by simpa [hu, Pc.isReading, St.set] using how) trivial trivial
      · exact hi.keep rfl rfl rfl rfl rfl rfl
    · cases h
  case lock t =>
    have hsl := hi.sleepers
    have how := hi.owner
    split at h
    · rename_i c hu _
      rcases use_cases h with ⟨hg, rfl⟩ | ⟨hg, rfl⟩
      · have := hi.is (t := t) (by rw [hu]; exact fun h => h)
        subst this
        exact hi.move (p := .reading c none none none) (fun u => rfl) (by simpa [hu, Pc.isAsleep, St.set] using hsl) rfl
          ⟨.inl rfl, .inl rfl, .inl rfl⟩ trivial
      · exact hi.keep rfl rfl rfl rfl rfl rfl
    · rename_i c hu _
      rcases use_cases h with ⟨hg, rfl⟩ | ⟨hg, rfl⟩
      · have := hi.is (t := t) (by rw [hu]; exact fun h => h)
        subst this
        exact hi.move (p := .reading c none none none) (fun u => rfl) (by simpa [hu, Pc.isAsleep, St.set] using hsl) rfl
          ⟨.inl rfl, .inl rfl, .inl rfl⟩ trivial
      · exact hi.keep rfl rfl rfl rfl rfl rfl
    · cases h
  case readCopy t =>
    have hsl := hi.sleepers
    have how := hi.owner
    have hrd := hi.read
    split at h
    · rename_i c m d hu
      rcases use_cases h with ⟨hg, rfl⟩ | ⟨hg, rfl⟩
      · have := hi.is (t := t) (by rw [hu]; exact fun h => h)
        subst this
        rw [hu] at hsl how hrd
        exact hi.move (p := .reading c (some s.copy) m d) (fun u => rfl) hsl how ⟨.inr rfl, hrd.2⟩ trivial
      · exact hi.keep rfl rfl rfl rfl rfl rfl
    · cases h
  case readMove t =>
    have hsl := hi.sleepers
    have how := hi.owner
    have hrd := hi.read
    split at h
    · rename_i c v d hu
      rcases use_cases h with ⟨hg, rfl⟩ | ⟨hg, rfl⟩
      · have := hi.is (t := t) (by rw [hu]; exact fun h => h)
        subst this
        rw [hu] at hsl how hrd
        exact hi.move (p := .reading c v (some s.move) d) (fun u => rfl) hsl how ⟨hrd.1, .inr rfl, hrd.2.2⟩ trivial
      · exact hi.keep rfl rfl rfl rfl rfl rfl
    · cases h
  case readDtor t =>
    have hsl := hi.sleepers
    have how := hi.owner
    have hrd := hi.read
    split at h
    · rename_i c v m hu
      rcases use_cases h with ⟨hg, rfl⟩ | ⟨hg, rfl⟩
      · have := hi.is (t := t) (by rw [hu]; exact fun h => h)
        subst this
        rw [hu] at hsl how hrd
        exact hi.move (p := .reading c v m (some s.dtor)) (fun u => rfl) hsl how ⟨hrd.1, hrd.2.1, .inr rfl⟩ trivial
      · exact hi.keep rfl rfl rfl rfl rfl rfl
    · cases h
  case decide t =>
    have hsl := hi.sleepers
    have hrd := hi.read
    split at h
    · rename_i c v m d hu
      have := hi.is (t := t) (by rw [hu]; exact fun h => h)
      subst this
      rw [hu] at hsl hrd
      obtain ⟨h1, h2, h3⟩ := hrd
      have h1 : v = s.copy := by simpa using h1
      have h2 : m = s.move := by simpa using h2
      have h3 : d = s.dtor := by simpa using h3
      subst h1 h2 h3
      split at h <;> rename_i hc <;> rcases use_cases h with ⟨hg, rfl⟩ | ⟨hg, rfl⟩
      · exact hi.move (p := .returned c) (fun u => rfl) hsl rfl trivial trivial
      · exact hi.keep rfl rfl rfl rfl rfl rfl
      · refine hi.move (p := .asleep c) (fun u => rfl) ?_ rfl trivial (fun he => absurd he hc)
        show t :: s.sleepers = [t]
        rw [hsl]; rfl
      · exact hi.keep rfl rfl rfl rfl rfl rfl
    · cases h
  case spurious t =>
    have hsl := hi.sleepers
    have how := hi.owner
    split at h
    · rename_i c hu
      rcases use_cases h with ⟨hg, rfl⟩ | ⟨hg, rfl⟩
      · have := hi.is (t := t) (by rw [hu]; exact fun h => h)
        subst this
        rw [hu] at hsl how
        refine hi.move (p := .woken c) (fun u => rfl) ?_ how trivial trivial
        show s.sleepers.erase t = []
        rw [hsl]; simp [Pc.isAsleep]
      · exact hi.keep rfl rfl rfl rfl rfl rfl
    · cases h
  case copy o x =>
    split at h
    · rcases use_cases h with ⟨hg, rfl⟩ | ⟨hg, rfl⟩
      · refine ⟨hi.others, hi.sleepers, hi.owner, ?_, ?_⟩
        · rcases hp with hp | hp | ⟨c, hp⟩ <;> simp [ReadOk, hp]
        · rcases hp with hp | hp | ⟨c, hp⟩ <;> simp [AwakeOk, hp]
      · exact hi.keep rfl rfl rfl rfl rfl rfl
    · cases h
  case move o x =>
    split at h
    · rcases use_cases h with ⟨hg, rfl⟩ | ⟨hg, rfl⟩
      · refine ⟨hi.others, hi.sleepers, hi.owner, ?_, ?_⟩
        · rcases hp with hp | hp | ⟨c, hp⟩ <;> simp [ReadOk, hp]
        · rcases hp with hp | hp | ⟨c, hp⟩ <;> simp [AwakeOk, hp]
      · exact hi.keep rfl rfl rfl rfl rfl rfl
    · cases h
  all_goals
    repeat' split at h
    all_goals first
      | (cases h; done)
      | (injection h with h; subst h; exact hi.keep rfl rfl rfl rfl rfl rfl)
      | (rcases use_cases h with ⟨hg, rfl⟩ | ⟨hg, rfl⟩ <;> exact hi.keep rfl rfl rfl rfl rfl rfl)

theorem winv {w : Nat} {s : St} (h : Runs (Polite w) s) : WInv w s := by
  induction h with
  | init => exact ⟨fun _ _ => trivial, rfl, rfl, trivial, trivial⟩
  | step _ hp h ih => exact winv_step h hp ih

/-- C78. If only `w` waits, no object is copied or moved while it does, and no destructor counts while `w` evaluates the
predicate, then `w` does not sleep in `wait(c)` while `remaining()` is `c`, unless a destructor is about to notify. -/
theorem c78_not_missed_partial {w c : Nat} {s : St} (h : Runs (Polite w) s) (hs : s.pc w = .asleep c)
    (hr : (c : Int) = s.remaining) : ∃ t, s.pc t = .notifying := by
  have := (winv h).awake
  rw [hs] at this
  exact this hr

/-- The steps a thread makes itself in `wait`. -/
def Act.own (t : Nat) : Act → Bool
  | .lock u | .readCopy u | .readMove u | .readDtor u | .decide u => u == t
  | _ => false

/-- C78. Under the same conditions, when no destructor is about to notify and `remaining()` is `c`, a thread in `wait(c)`
returns after at most five of its own steps if nothing else happens. -/
theorem c78_returns_partial {w c : Nat} {s : St} (h : Runs (Polite w) s) (hg : s.gone = false) (hw : InWait s w c)
    (hr : (c : Int) = s.remaining) (hn : ∀ t, s.pc t ≠ .notifying) :
    ∃ acts s', acts.length ≤ 5 ∧ (∀ a ∈ acts, a.own w = true) ∧ exec s acts = some s' ∧ s'.pc w = .returned c := by
  have hi := winv h
  have how := hi.owner
  have hrd := hi.read
  have hr' : (c : Int) = remainingOf s.copy s.move s.dtor := hr
  rcases hw with hw | ⟨v, m, d, hw⟩ | hw | hw
  · rw [hw] at how
    refine ⟨[.lock w, .readCopy w, .readMove w, .readDtor w, .decide w], ?_⟩
    simp [exec, step, hw, how, Pc.isReading, St.use, hg, St.set, hr', Act.own]
  · rw [hw] at hrd
    obtain ⟨h1, h2, h3⟩ := hrd
    refine ⟨(if v = none then [.readCopy w] else []) ++ (if m = none then [.readMove w] else []) ++
      (if d = none then [.readDtor w] else []) ++ [.decide w], ?_⟩
    rcases h1 with rfl | rfl <;> rcases h2 with rfl | rfl <;> rcases h3 with rfl | rfl <;>
      simp [exec, step, hw, St.use, hg, St.set, hr', Act.own]
  · obtain ⟨t, ht⟩ := c78_not_missed_partial h hw hr
    exact absurd ht (hn t)
  · rw [hw] at how
    refine ⟨[.lock w, .readCopy w, .readMove w, .readDtor w, .decide w], ?_⟩
    simp [exec, step, hw, how, Pc.isReading, St.use, hg, St.set, hr', Act.own]


/-- `w = 0` waits for 0; thread 1 destroys the only object and is about to notify. -/
example : ∃ s, Runs (Polite 0) s ∧ s.pc 0 = .asleep 0 ∧ ((0 : Nat) : Int) = s.remaining ∧ s.gone = false := by
  refine ⟨_, .step (a := .destroy 1 0) (.step (a := .decide 0) (.step (a := .readDtor 0) (.step (a := .readMove 0)
    (.step (a := .readCopy 0) (.step (a := .lock 0) (.step (a := .wait 0 0) (.step (a := .make 0) .init trivial rfl) rfl rfl)
    trivial rfl) trivial rfl) trivial rfl) trivial rfl) trivial rfl) rfl rfl, rfl, by decide, rfl⟩

/-- The same after the notification: it can return. -/
example : ∃ s, Runs (Polite 0) s ∧ s.gone = false ∧ InWait s 0 0 ∧ ((0 : Nat) : Int) = s.remaining ∧
    ∀ t, s.pc t ≠ .notifying := by
  refine ⟨_, .step (a := .notify 1 (some 0)) (.step (a := .destroy 1 0) (.step (a := .decide 0) (.step (a := .readDtor 0)
    (.step (a := .readMove 0) (.step (a := .readCopy 0) (.step (a := .lock 0) (.step (a := .wait 0 0)
    (.step (a := .make 0) .init trivial rfl) rfl rfl) trivial rfl) trivial rfl) trivial rfl) trivial rfl) trivial rfl)
    rfl rfl) trivial rfl, rfl, .inr (.inr (.inr rfl)), by decide, ?_⟩
  intro t
  simp only [St.set, init]
  repeat' split
  all_goals simp

/-- Nothing wakes thread `t`: no object is made, and no spurious wake-up. -/
def Act.quiet (t : Nat) : Act → Bool
  | .make _ => false
  | .spurious u => u != t
  | _ => true

/-- `t` is asleep and nobody is left who could notify. -/
structure Lost (t c : Nat) (s : St) : Prop where
  asleep : s.pc t = .asleep c
  objs : s.objs = []
  others : ∀ u, s.pc u ≠ .notifying

theorem Lost.set {t c u : Nat} {p : Pc} {s s' : St} (hi : Lost t c s) (h0 : ∀ x, s'.pc x = if x = u then p else s.pc x)
    (hu : u ≠ t) (h1 : s'.objs = s.objs) (hp : p ≠ .notifying) : Lost t c s' := by
  refine ⟨?_, ?_, ?_⟩
  · rw [h0, if_neg hu.symm]; exact hi.asleep
  · rw [h1]; exact hi.objs
  · intro x; rw [h0]; split
    · exact hp
    · exact hi.others x

theorem lost_step {t c : Nat} {s s' : St} {a : Act} (h : step s a = some s') (ha : a.quiet t = true) (hi : Lost t c s) :
    Lost t c s' := by
  have hk : ∀ {r : St}, r.pc = s.pc → r.objs = s.objs → Lost t c r :=
    fun h1 h2 => ⟨by rw [h1]; exact hi.asleep, by rw [h2]; exact hi.objs, by rw [h1]; exact hi.others⟩
  have hne : ∀ {u : Nat}, (∀ c, s.pc u ≠ .asleep c) → u ≠ t := fun h e => h c (by rw [e]; exact hi.asleep)
  cases a <;> simp only [step, hi.objs, List.not_mem_nil, false_and, and_false, if_false, Act.quiet, Bool.false_eq_true,
    bne_iff_ne] at h ha
  case copy | move | copyAssign | moveAssign | swap | equal | destroy => cases h
  case notify u w =>
    split at h
    · rename_i hu; exact absurd hu (hi.others u)
    · cases h
  case drop u =>
    split at h
    · split at h
      · injection h with h; subst h; exact hk rfl (by simp [hi.objs])
      · cases h
    · cases h
  case spurious u =>
    split at h
    · rcases use_cases h with ⟨hg, rfl⟩ | ⟨hg, rfl⟩
      · exact hi.set (fun _ => rfl) ha rfl (by simp)
      · exact hk rfl rfl
    · cases h
  all_goals
    repeat' split at h
    all_goals first
      | (cases h; done)
      | (rcases use_cases h with ⟨hg, rfl⟩ | ⟨hg, rfl⟩
         · exact hi.set (fun _ => rfl) (hne (by intro c' e; simp_all)) rfl (by simp)
         · exact hk rfl rfl)

theorem lost_exec {t c : Nat} {acts : List Act} : ∀ {s s' : St}, exec s acts = some s' → (∀ a ∈ acts, a.quiet t = true) →
    Lost t c s → Lost t c s' := by
  induction acts with
  | nil => intro s s' h _ hi; simp only [exec] at h; injection h with h; subst h; exact hi
  | cons a as ih =>
    intro s s' h hq hi
    simp only [exec] at h
    split at h
    · rename_i s1 h1
      exact ih h (fun b hb => hq b (by simp [hb])) (lost_step h1 (hq a (by simp)) hi)
    · cases h

/-- C78, a counterexample: the destructor counts and notifies between the predicate and the sleep, as it does not lock the
mutex: `wait(0)` sleeps although no object exists, and does so for ever. -/
theorem c78_missed_counterexample :
    ∃ s, exec init [.make 0, .wait 0 0, .lock 0, .readCopy 0, .readMove 0, .readDtor 0, .destroy 1 0, .notify 1 none,
        .decide 0] = some s ∧
      s.pc 0 = .asleep 0 ∧ s.objs = [] ∧ s.remaining = 0 ∧ (∀ t, t ≠ 0 → s.pc t = .idle) ∧
      ∀ acts s', exec s acts = some s' → (∀ a ∈ acts, a.quiet 0 = true) → s'.pc 0 = .asleep 0 := by
  have hx : ∀ s, exec init [.make 0, .wait 0 0, .lock 0, .readCopy 0, .readMove 0, .readDtor 0, .destroy 1 0, .notify 1 none,
      .decide 0] = some s → (∀ t, s.pc t = if t = 0 then .asleep 0 else .idle) ∧ s.objs = [] := by
    intro s h
    have := Option.some.inj h
    subst this
    refine ⟨fun t => ?_, rfl⟩
    simp only [St.set, init]
    repeat' split
    all_goals first | rfl | (exfalso; omega)
  refine ⟨_, rfl, rfl, rfl, by decide, fun t ht => ?_, fun acts s' h hq => ?_⟩
  · rw [(hx _ rfl).1, if_neg ht]
  · refine (lost_exec (c := 0) h hq ⟨rfl, rfl, fun u => ?_⟩).asleep
    rw [(hx _ rfl).1]; split <;> simp

/-- C78, a counterexample: constructors do not notify, so that `wait(2)` sleeps although two objects exist and nobody is about
to notify. -/
theorem c78_constructor_counterexample :
    ∃ s, exec init [.make 0, .wait 0 2, .lock 0, .readCopy 0, .readMove 0, .readDtor 0, .decide 0, .copy 1 0] = some s ∧
      s.pc 0 = .asleep 2 ∧ s.objs.length = 2 ∧ s.remaining = 2 ∧ s.pc 1 = .idle :=
  ⟨_, rfl, rfl, rfl, by decide, rfl⟩

/-- C78, a counterexample: one sleeper is notified, which may be one that waits for another number. -/
theorem c78_two_waiters_counterexample :
    ∃ s, exec init [.make 0, .copy 1 0, .wait 0 1, .lock 0, .readCopy 0, .readMove 0, .readDtor 0, .decide 0,
        .wait 1 0, .lock 1, .readCopy 1, .readMove 1, .readDtor 1, .decide 1, .destroy 2 0, .notify 2 (some 1),
        .lock 1, .readCopy 1, .readMove 1, .readDtor 1, .decide 1] = some s ∧
      s.pc 0 = .asleep 1 ∧ s.remaining = 1 ∧ s.objs.length = 1 ∧ s.pc 1 = .asleep 0 ∧ s.pc 2 = .idle :=
  ⟨_, rfl, rfl, by decide, rfl, rfl, rfl⟩

/-- C78, a counterexample: after `wait(0)` returned the counters are destroyed, and the destructor that made it return
notifies them. -/
theorem c78_ub_counterexample :
    ∃ s, exec init [.make 0, .destroy 1 0, .wait 0 0, .lock 0, .readCopy 0, .readMove 0, .readDtor 0, .decide 0, .drop 0,
        .notify 1 none] = some s ∧ s.ub = true :=
  ⟨_, rfl, rfl⟩

/-- The counters are destroyed when no thread is in `wait` or about to notify, and not used afterwards. -/
def Careful (s : St) : Act → Prop
  | .drop _ => ∀ t, s.pc t = .idle ∨ ∃ c, s.pc t = .returned c
  | .make _ | .wait _ _ => s.gone = false
  | _ => True

structure DInv (s : St) : Prop where
  ub : s.ub = false
  gone : s.gone = true → s.objs = [] ∧ ∀ t, s.pc t = .idle ∨ ∃ c, s.pc t = .returned c

theorem dinv_step {s s' : St} {a : Act} (h : step s a = some s') (hp : Careful s a) (hi : DInv s) : DInv s' := by
  cases hg : s.gone
  · have hk : ∀ {r : St}, r.ub = s.ub → r.gone = s.gone → DInv r :=
      fun h1 h2 => ⟨by rw [h1]; exact hi.ub, by rw [h2, hg]; intro h; cases h⟩
    cases a <;> simp only [step, St.use, hg, Bool.false_eq_true, if_false, Careful] at h hp
    case drop t =>
      split at h
      · split at h
        · rename_i ho
          injection h with h; subst h
          exact ⟨hi.ub, fun _ => ⟨ho.1, hp⟩⟩
        · cases h
      · cases h
    case notify t w =>
      split at h
      · split at h
        · rename_i hw
          injection h with h; subst h
          refine hk ?_ (wake_fields hw).2.2.2.2
          unfold St.wake at hw
          repeat' split at hw
          all_goals first | (cases hw; done) | (injection hw with hw; subst hw; rfl)
        · cases h
      · cases h
    all_goals
      repeat' split at h
      all_goals first
        | (cases h; done)
        | (injection h with h; subst h; exact hk (by rfl) (by first | rfl | simp [hg]))
  · obtain ⟨ho, ht⟩ := hi.gone hg
    cases a <;> simp only [step, ho, hg, List.not_mem_nil, false_and, and_false, if_false, Careful, Bool.true_eq_false,
      reduceCtorEq] at h hp
    case drop u => split at h <;> cases h
    case notify u w => rcases ht u with h1 | ⟨c, h1⟩ <;> simp [h1] at h
    case lock u => rcases ht u with h1 | ⟨c, h1⟩ <;> simp [h1] at h
    case readCopy u => rcases ht u with h1 | ⟨c, h1⟩ <;> simp [h1] at h
    case readMove u => rcases ht u with h1 | ⟨c, h1⟩ <;> simp [h1] at h
    case readDtor u => rcases ht u with h1 | ⟨c, h1⟩ <;> simp [h1] at h
    case decide u => rcases ht u with h1 | ⟨c, h1⟩ <;> simp [h1] at h
    case spurious u => rcases ht u with h1 | ⟨c, h1⟩ <;> simp [h1] at h

/-- C78. If the counters are destroyed when no thread is in `wait` and every destructor has notified, and neither function is
called afterwards, no function uses the destroyed counters. -/
theorem c78_ub_partial {s : St} (h : Runs Careful s) : s.ub = false := by
  suffices DInv s from this.ub
  induction h with
  | init => exact ⟨rfl, fun h => by cases h⟩
  | step _ hp h ih => exact dinv_step h hp ih

example : ∃ s, Runs Careful s ∧ s.gone = true ∧ s.pc 0 = .returned 0 := by
  refine ⟨_, .step (a := .drop 0) (.step (a := .decide 0) (.step (a := .readDtor 0) (.step (a := .readMove 0)
    (.step (a := .readCopy 0) (.step (a := .lock 0) (.step (a := .wait 0 0) (.step (a := .notify 1 none)
    (.step (a := .destroy 1 0) (.step (a := .make 0) .init rfl rfl) trivial rfl) trivial rfl) rfl rfl) trivial rfl) trivial rfl)
    trivial rfl) trivial rfl) trivial rfl) ?_ rfl, rfl, rfl⟩
  intro t
  simp only [St.set, init]
  repeat' split
  all_goals simp

end Verif.Counters
