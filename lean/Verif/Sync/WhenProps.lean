import Mathlib.Data.List.Nodup
import Mathlib.Data.List.Perm.Subperm
import Verif.Sync.When

/-!
# Property theorems C85: when_all and when_any are free of data races
-/

namespace Verif.Sync.When

/-! ## The members of the context -/

/-- `when_all`. -/
def Variant.all : Variant → Bool
  | .packAll | .rangeAll => true
  | _ => false

/-- It is decided what the result is made of. -/
def Dec (v : Variant) (d : Data) : Prop :=
  if v.all then d.exc.isSome = true ∨ d.remaining = 0 else d.index.isSome = true ∨ d.remaining = 0

/-- The arguments the result is made of. -/
def uses (v : Variant) (n : Nat) (d : Data) : List Nat :=
  match if v.all then d.exc else d.index with
  | some i => [i]
  | none => List.range n

/-- The members after the critical sections of the arguments in `l`. -/
structure DInv (v : Variant) (n : Nat) (l : List (Nat × Bool)) (d : Data) : Prop where
  nodup : (l.map (·.1)).Nodup
  lt : ∀ x ∈ l, x.1 < n
  all : v.all = true → (d.exc = none → ∀ x ∈ l, x.2 = true) ∧ (d.exc = none → d.remaining + l.length = n) ∧
    (∀ i, d.args i = true → (i, true) ∈ l) ∧ (d.exc = none → ∀ x ∈ l, d.args x.1 = true) ∧
    (∀ i, d.exc = some i → (i, false) ∈ l) ∧ (d.exc ≠ none → 0 < d.remaining)
  any : v.all = false → d.remaining + (l.filter fun x => !x.2).length = n ∧ (d.index = none → ∀ x ∈ l, x.2 = false) ∧
    (∀ i, d.index = some i → (i, true) ∈ l) ∧ (d.exc ≠ none → d.remaining = 0) ∧ (l ≠ [] → d.remaining = 0 → d.exc ≠ none)
  any0 : v = .packAny → d.args 0 = d.index.isSome
  range : v = .rangeAll → d.remaining + (l.filter (·.2)).length = n
  single : v = .rangeAll → d.single = d.exc.isSome
  single' : v = .rangeAny → d.single = d.index.isSome

theorem length_le {n : Nat} {l : List Nat} (h : l.Nodup) (h' : ∀ x ∈ l, x < n) : l.length ≤ n := by
  have := (List.subperm_of_subset h (fun x hx => List.mem_range.mpr (h' x hx))).length_le
  simpa using this

theorem full {n : Nat} {l : List Nat} (h : l.Nodup) (h' : ∀ x ∈ l, x < n) (hn : n ≤ l.length) {i : Nat} (hi : i < n) : i ∈ l := by
  have := (List.subperm_of_subset h (fun x hx => List.mem_range.mpr (h' x hx))).perm_of_length_le (by simpa using hn)
  exact this.mem_iff.mpr (List.mem_range.mpr hi)

variable {v : Variant} {n : Nat} {l : List (Nat × Bool)} {d : Data} {i : Nat} {ok : Bool}

theorem DInv.length (h : DInv v n l d) : l.length ≤ n := by
  have := length_le h.nodup (by intro x hx; obtain ⟨y, hy, rfl⟩ := List.mem_map.mp hx; exact h.lt y hy)
  simpa using this

theorem DInv.lt_length (h : DInv v n l d) (hi : i < n) (hn : i ∉ l.map (·.1)) : l.length < n := by
  rcases Nat.lt_or_ge l.length n with h' | h'
  · exact h'
  · exact absurd (full h.nodup (by intro x hx; obtain ⟨y, hy, rfl⟩ := List.mem_map.mp hx; exact h.lt y hy) (by simpa using h') hi) hn

theorem filter_lt {l : List (Nat × Bool)} {p : Nat × Bool → Bool} {x : Nat × Bool} (hx : x ∈ l) (hp : p x = false) :
    (l.filter p).length < l.length := by
  rcases Nat.lt_or_ge (l.filter p).length l.length with h | h
  · exact h
  · have := List.filter_eq_self.mp (List.filter_sublist.eq_of_length_le h) x hx
    rw [hp] at this; cases this

theorem filter_all {l : List (Nat × Bool)} {p : Nat × Bool → Bool} (h : l.length ≤ (l.filter p).length) : ∀ x ∈ l, p x = true :=
  List.filter_eq_self.mp (List.filter_sublist.eq_of_length_le h)

/-- Once it is decided and one argument is still to come, the count does not come to its end. -/
theorem DInv.open_all (h : DInv v n l d) (hv : v.all = true) (hi : i < n) (hn : i ∉ l.map (·.1)) : 0 < d.remaining := by
  have h1 := h.lt_length hi hn
  have h2 := h.all hv
  by_cases he : d.exc = none
  · have := h2.2.1 he; omega
  · exact h2.2.2.2.2.2 he

theorem DInv.open_any (h : DInv v n l d) (hv : v.all = false) (hi : i < n) (hn : i ∉ l.map (·.1)) :
    0 < d.remaining ∧ d.exc = none ∧ (d.index.isSome = true → 1 < d.remaining) := by
  have h1 := h.lt_length hi hn
  have h2 := h.any hv
  have h3 : (l.filter fun x => !x.2).length ≤ l.length := List.length_filter_le _ _
  have h4 : 0 < d.remaining := by have := h2.1; omega
  refine ⟨h4, ?_, ?_⟩
  · by_cases he : d.exc = none
    · exact he
    · have := h2.2.2.2.1 he; omega
  · intro hx
    obtain ⟨j, hj⟩ := Option.isSome_iff_exists.mp hx
    have := filter_lt (p := fun x => !x.2) (h2.2.2.1 j hj) rfl
    have := h2.1
    omega

theorem DInv.init : DInv v n [] (.init n) := by
  constructor <;> simp [Data.init]

/-- A critical section keeps the invariant. -/
theorem DInv.sect (h : DInv v n l d) (hi : i < n) (hn : i ∉ l.map (·.1)) : DInv v n (l ++ [(i, ok)]) (sect v n d i ok).data := by
  have hnd : ((l ++ [(i, ok)]).map (·.1)).Nodup := by
    rw [List.map_append, List.nodup_append]
    refine ⟨h.nodup, by simp, ?_⟩
    intro x hx y hy
    simp only [List.map_cons, List.map_nil, List.mem_singleton] at hy
    subst hy
    rintro rfl
    exact hn hx
  have hlt : ∀ x ∈ l ++ [(i, ok)], x.1 < n := by
    intro x hx
    rcases List.mem_append.mp hx with hx | hx
    · exact h.lt x hx
    · simp only [List.mem_singleton] at hx; subst hx; exact hi
  have hl := h.lt_length hi hn
  cases v
  case packAll =>
    obtain ⟨a1, a2, a3, a4, a5, a6⟩ := h.all rfl
    have hr := h.open_all rfl hi hn
    refine ⟨hnd, hlt, ?_, by simp [Variant.all], by simp, by simp, by simp, by simp⟩
    intro _
    cases ok
    · simp only [When.sect]
      split
      · rename_i hs
        have he : d.exc ≠ none := by intro e; simp [e] at hs
        refine ⟨fun e => absurd e he, fun e => absurd e he, ?_, fun e => absurd e he, ?_, fun _ => hr⟩
        · intro j hj; simp [a3 j hj]
        · intro j hj; simp [a5 j hj]
      · refine ⟨by simp, by simp, ?_, by simp, ?_, fun _ => hr⟩
        · intro j hj; simp [a3 j hj]
        · intro j hj; simp at hj; simp [hj]
    · simp only [When.sect]
      split
      · rename_i hs
        have he : d.exc ≠ none := by intro e; simp [e] at hs
        refine ⟨fun e => absurd e he, fun e => absurd e he, ?_, fun e => absurd e he, ?_, fun _ => hr⟩
        · intro j hj; simp [a3 j hj]
        · intro j hj; simp [a5 j hj]
      · rename_i hs
        have he : d.exc = none := by simpa using hs
        refine ⟨?_, ?_, ?_, ?_, ?_, by simp [he]⟩
        · intro _ x hx
          rcases List.mem_append.mp hx with hx | hx
          · exact a1 he x hx
          · simp at hx; simp [hx]
        · intro _; have := a2 he; simp; omega
        · intro j hj
          simp only [upd] at hj
          split at hj
          · rename_i e; simp [e]
          · simp [a3 j hj]
        · intro _ x hx
          simp only [upd]
          split
          · rfl
          · rename_i e
            rcases List.mem_append.mp hx with hx | hx
            · exact a4 he x hx
            · simp at hx; simp [hx] at e
        · simp [he]
  case rangeAll =>
    obtain ⟨a1, a2, a3, a4, a5, a6⟩ := h.all rfl
    have hr := h.open_all rfl hi hn
    have hs := h.single rfl
    have hg := h.range rfl
    have h3 : (l.filter fun x => x.2).length ≤ l.length := List.length_filter_le _ _
    cases ok
    · simp only [When.sect]
      split
      · rename_i hs'
        have he : d.exc ≠ none := by intro e; simp [e, hs] at hs'
        refine ⟨hnd, hlt, fun _ => ⟨fun e => absurd e he, fun e => absurd e he, ?_, fun e => absurd e he, ?_, fun _ => hr⟩,
          by simp [Variant.all], by simp, ?_, fun _ => hs, by simp⟩
        · intro j hj; simp [a3 j hj]
        · intro j hj; simp [a5 j hj]
        · intro _; simp [List.filter_append, hg]
      · refine ⟨hnd, hlt, fun _ => ⟨by simp, by simp, ?_, by simp, ?_, fun _ => hr⟩,
          by simp [Variant.all], by simp, ?_, by simp, by simp⟩
        · intro j hj; simp [a3 j hj]
        · intro j hj; simp at hj; simp [hj]
        · intro _; simp [List.filter_append, hg]
    · simp only [When.sect]
      refine ⟨hnd, hlt, fun _ => ⟨?_, ?_, ?_, ?_, ?_, ?_⟩, by simp [Variant.all], by simp, ?_, fun _ => hs, by simp⟩
      · intro he x hx
        rcases List.mem_append.mp hx with hx | hx
        · exact a1 he x hx
        · simp at hx; simp [hx]
      · intro he; have := a2 he; simp; omega
      · intro j hj
        simp only [upd] at hj
        split at hj
        · rename_i e; simp [e]
        · simp [a3 j hj]
      · intro he x hx
        simp only [upd]
        split
        · rfl
        · rename_i e
          rcases List.mem_append.mp hx with hx | hx
          · exact a4 he x hx
          · simp at hx; simp [hx] at e
      · intro j hj; simp [a5 j hj]
      · intro he
        obtain ⟨j, hj⟩ := Option.ne_none_iff_exists'.mp he
        have := filter_lt (p := fun x => x.2) (a5 j hj) rfl
        simp only
        omega
      · intro _; simp [List.filter_append]; omega
  all_goals
    obtain ⟨b1, b2, b3, b4, b5⟩ := h.any rfl
    obtain ⟨c1, c2, c3⟩ := h.open_any rfl hi hn
  all_goals
    cases ok
    · simp only [When.sect]
      have key : ∀ d' : Data, d'.index = d.index → d'.remaining = d.remaining - 1 → (d.remaining = 1 → d'.exc ≠ none) →
          (d.remaining ≠ 1 → d'.exc = none) →
          d'.remaining + ((l ++ [(i, false)]).filter fun x => !x.2).length = n ∧ (d'.index = none → ∀ x ∈ l ++ [(i, false)], x.2 = false) ∧
          (∀ j, d'.index = some j → (j, true) ∈ l ++ [(i, false)]) ∧ (d'.exc ≠ none → d'.remaining = 0) ∧
          (l ++ [(i, false)] ≠ [] → d'.remaining = 0 → d'.exc ≠ none) := by
        intro d' e1 e2 e3 e4
        refine ⟨?_, ?_, ?_, ?_, ?_⟩
        · simp [List.filter_append]; omega
        · rw [e1]
          intro e x hx
          rcases List.mem_append.mp hx with hx | hx
          · exact b2 e x hx
          · simp at hx; simp [hx]
        · rw [e1]; intro j hj; simp [b3 j hj]
        · intro e
          by_cases h1 : d.remaining = 1
          · omega
          · exact absurd (e4 h1) e
        · intro _ e; exact e3 (by omega)
      split
      · rename_i h1
        refine ⟨hnd, hlt, by simp [Variant.all], fun _ => key _ rfl (by simp [h1]) (by simp) (fun e => absurd h1 e), ?_, by simp, by simp, ?_⟩
        · first | exact fun _ => h.any0 rfl | simp
        · first | exact fun _ => h.single' rfl | simp
      · rename_i h1
        refine ⟨hnd, hlt, by simp [Variant.all], fun _ => key _ rfl rfl (fun e => absurd e h1) (fun _ => c2), ?_, by simp, by simp, ?_⟩
        · first | exact fun _ => h.any0 rfl | simp
        · first | exact fun _ => h.single' rfl | simp
    · simp only [When.sect]
      have key : ∀ d' : Data, (d'.index = some i ∨ (d'.index = d.index ∧ d.index ≠ none)) → d'.remaining = d.remaining → d'.exc = d.exc →
          d'.remaining + ((l ++ [(i, true)]).filter fun x => !x.2).length = n ∧ (d'.index = none → ∀ x ∈ l ++ [(i, true)], x.2 = false) ∧
          (∀ j, d'.index = some j → (j, true) ∈ l ++ [(i, true)]) ∧ (d'.exc ≠ none → d'.remaining = 0) ∧
          (l ++ [(i, true)] ≠ [] → d'.remaining = 0 → d'.exc ≠ none) := by
        intro d' e1 e2 e3
        refine ⟨?_, ?_, ?_, ?_, ?_⟩
        · simp [List.filter_append]; omega
        · intro e; rcases e1 with e1 | ⟨e1, e4⟩
          · rw [e] at e1; cases e1
          · rw [e] at e1; exact absurd e1.symm e4
        · intro j hj
          rcases e1 with e1 | ⟨e1, e4⟩
          · rw [hj] at e1; cases e1; simp
          · rw [hj] at e1; simp [b3 j e1.symm]
        · rw [e3]; intro e; exact absurd c2 e
        · intro _ e; omega
      split
      · rename_i h1
        have hx : d.index ≠ none := by
          first | (intro e; simp [e] at h1) | (intro e; simp [h.single' rfl, e] at h1)
        refine ⟨hnd, hlt, by simp [Variant.all], fun _ => key _ (.inr ⟨rfl, hx⟩) rfl rfl, ?_, by simp, by simp, ?_⟩
        · first | exact fun _ => h.any0 rfl | simp
        · first | exact fun _ => h.single' rfl | simp
      · refine ⟨hnd, hlt, by simp [Variant.all], fun _ => key _ (.inl rfl) rfl rfl, ?_, by simp, by simp, ?_⟩
        · first | exact fun _ => rfl | simp
        · first | exact fun _ => rfl | simp

/-- It is decided in the section that says so, and stays decided. -/
theorem DInv.run (h : DInv v n l d) (hi : i < n) (hn : i ∉ l.map (·.1)) :
    ((When.sect v n d i ok).run = true → ¬ Dec v d ∧ Dec v (When.sect v n d i ok).data) ∧
    ((When.sect v n d i ok).run = false → (Dec v (When.sect v n d i ok).data ↔ Dec v d)) := by
  cases v
  case packAll =>
    have hr := h.open_all rfl hi hn
    cases ok <;> simp only [When.sect] <;> split <;> rename_i hs <;> simp_all [Dec, Variant.all] <;> omega
  case rangeAll =>
    have hr := h.open_all rfl hi hn
    have hs := h.single rfl
    have ha := (h.all rfl).2.2.2.2
    have hg := h.range rfl
    cases ok
    · simp only [When.sect]; split <;> rename_i hs' <;> simp_all [Dec, Variant.all] <;> omega
    · simp only [When.sect, Dec, Variant.all]
      by_cases he : d.exc = none
      · simp [he]; omega
      · obtain ⟨j, hj⟩ := Option.ne_none_iff_exists'.mp he
        have := filter_lt (p := fun x => x.2) (ha.1 j hj) rfl
        have := h.lt_length hi hn
        simp [hj]; omega
  case packAny =>
    obtain ⟨c1, c2, c3⟩ := h.open_any rfl hi hn
    cases ok <;> simp only [When.sect] <;> split <;> rename_i hs <;> simp_all [Dec, Variant.all] <;>
      first | omega | (constructor <;> (rintro (g | g); exact .inl g; (exfalso; omega)))
  case packAnyVoid =>
    obtain ⟨c1, c2, c3⟩ := h.open_any rfl hi hn
    cases ok <;> simp only [When.sect] <;> split <;> rename_i hs <;> simp_all [Dec, Variant.all] <;>
      first | omega | (constructor <;> (rintro (g | g); exact .inl g; (exfalso; omega)))
  case rangeAny =>
    obtain ⟨c1, c2, c3⟩ := h.open_any rfl hi hn
    have hs := h.single' rfl
    cases ok <;> simp only [When.sect] <;> split <;> rename_i hs' <;> simp_all [Dec, Variant.all] <;>
      first | omega | (constructor <;> (rintro (g | g); exact .inl g; (exfalso; omega)))

/-- Once it is decided, sections do not change what the result is made of. -/
theorem DInv.stable (h : DInv v n l d) (hi : i < n) (hn : i ∉ l.map (·.1)) (hd : Dec v d) :
    exec v n (When.sect v n d i ok).data = exec v n d ∧ uses v n (When.sect v n d i ok).data = uses v n d := by
  cases v
  case packAll =>
    have hr := h.open_all rfl hi hn
    have he : d.exc.isSome = true := by simp only [Dec, Variant.all, if_true] at hd; rcases hd with hd | hd; exact hd; omega
    cases ok <;> simp [When.sect, he]
  case rangeAll =>
    have hr := h.open_all rfl hi hn
    have hs := h.single rfl
    have he : d.exc.isSome = true := by simp only [Dec, Variant.all, if_true] at hd; rcases hd with hd | hd; exact hd; omega
    cases ok <;> simp [When.sect, he, hs, exec, uses]
  all_goals
    obtain ⟨c1, c2, c3⟩ := h.open_any rfl hi hn
    have he : d.index.isSome = true := by
      simp only [Dec, Variant.all, Bool.false_eq_true, if_false] at hd; rcases hd with hd | hd; exact hd; omega
    have hr := c3 he
    have hr1 : d.remaining ≠ 1 := by omega
    cases ok
  case rangeAny.true => have hs := h.single' rfl; simp [When.sect, he, hs]
  all_goals simp [When.sect, he, hr1, exec, uses]

/-- Once it is decided, sections do not touch what the result is made of. -/
theorem DInv.apart (h : DInv v n l d) (hi : i < n) (hn : i ∉ l.map (·.1)) (hd : Dec v d) {ls : List (Loc × Bool)} {b : Bool}
    (hx : exec v n d = some (ls, b)) {x y : Loc × Bool} (h1 : x ∈ (When.sect v n d i ok).acc) (h2 : y ∈ ls) (he : x.1 = y.1) :
    x.2 = false ∧ y.2 = false := by
  cases v
  case packAll =>
    have hr := h.open_all rfl hi hn
    have he' : d.exc.isSome = true := by simp only [Dec, Variant.all, if_true] at hd; rcases hd with hd | hd; exact hd; omega
    have h1' : x = (.exc, false) := by cases ok <;> simpa [When.sect, he'] using h1
    subst h1'
    refine ⟨rfl, ?_⟩
    obtain ⟨j, hj⟩ := Option.isSome_iff_exists.mp he'
    have hj' : d.args j = false := by
      by_contra hc
      have a1 := (h.all rfl).2.2.1 j (by simpa using hc)
      have a2 := (h.all rfl).2.2.2.2.1 j hj
      have := List.inj_on_of_nodup_map h.nodup a1 a2 rfl
      simp at this
    have hjn := h.lt _ ((h.all rfl).2.2.2.2.1 j hj)
    simp only [exec] at hx
    split at hx
    · simp only [he', if_true, Option.some.injEq, Prod.mk.injEq] at hx
      rw [← hx.1] at h2
      rcases List.mem_append.mp h2 with h2 | h2
      · obtain ⟨_, _, rfl⟩ := List.mem_map.mp h2; rfl
      · simp at h2; simp [h2]
    · rename_i hf
      have := List.find?_eq_none.mp hf j (List.mem_range.mpr hjn)
      simp [hj'] at this
  case rangeAll =>
    have hr := h.open_all rfl hi hn
    have hs := h.single rfl
    have he' : d.exc.isSome = true := by simp only [Dec, Variant.all, if_true] at hd; rcases hd with hd | hd; exact hd; omega
    simp only [exec, he', if_true, Option.some.injEq, Prod.mk.injEq] at hx
    rw [← hx.1] at h2
    simp only [List.mem_singleton] at h2
    subst h2
    refine ⟨?_, rfl⟩
    cases ok <;> simp [When.sect, hs, he'] at h1
    · simp [h1]
    · rcases h1 with rfl | rfl <;> simp at he
  all_goals
    obtain ⟨c1, c2, c3⟩ := h.open_any rfl hi hn
    have he' : d.index.isSome = true := by
      simp only [Dec, Variant.all, Bool.false_eq_true, if_false] at hd; rcases hd with hd | hd; exact hd; omega
    have hr := c3 he'
    have hr1 : d.remaining ≠ 1 := by omega
  case rangeAny =>
    have hs := h.single' rfl
    simp only [exec, c2, Option.isSome_none, Bool.false_eq_true, if_false, Option.some.injEq, Prod.mk.injEq] at hx
    rw [← hx.1] at h2
    cases ok <;> simp [When.sect, hs, he', hr1] at h1 <;> subst h1 <;> simp at h2 <;> rcases h2 with rfl | rfl | rfl <;> simp at he
  case packAny =>
    simp only [exec, c2, h.any0 rfl, he', Option.isSome_none, Bool.false_eq_true, if_false, if_true, Option.some.injEq, Prod.mk.injEq] at hx
    rw [← hx.1] at h2
    cases ok <;> simp [When.sect, he', hr1] at h1 <;> subst h1 <;> simp at h2 <;> rcases h2 with rfl | rfl | rfl <;> simp at he ⊢
  case packAnyVoid =>
    simp only [exec, c2, Option.isSome_none, Bool.false_eq_true, if_false, Option.some.injEq, Prod.mk.injEq] at hx
    rw [← hx.1] at h2
    cases ok <;> simp [When.sect, he', hr1] at h1 <;> subst h1 <;> simp at h2 <;> rcases h2 with rfl | rfl <;> simp at he ⊢

/-- If it is decided there is something to make the result of. -/
theorem DInv.exec (h : DInv v n l d) (hl : l ≠ []) (hd : Dec v d) :
    ∃ ls b, When.exec v n d = some (ls, b) ∧ (∀ i ∈ uses v n d, i ∈ l.map (·.1)) ∧
      (v.all = true → (b = true → d.exc = none) ∧ (b = false → d.exc ≠ none)) ∧
      (v.all = false → (b = true → d.index ≠ none) ∧ (b = false → d.index = none)) ∧
      (∀ x ∈ ls, (∃ j, x.1 = .arg j) ∨ x.1 = .exc ∨ x.1 = .index) := by
  have hfull : n ≤ l.length → ∀ i ∈ List.range n, i ∈ l.map (·.1) := by
    intro hn i hi
    exact full h.nodup (by intro x hx; obtain ⟨y, hy, rfl⟩ := List.mem_map.mp hx; exact h.lt y hy) (by simpa using hn) (List.mem_range.mp hi)
  have huse : ∀ i ∈ uses v n d, i ∈ l.map (·.1) := by
    intro i hi
    by_cases hv : v.all = true
    · simp only [uses, hv, if_true] at hi
      split at hi
      · rename_i j hj
        simp only [List.mem_singleton] at hi
        subst hi
        exact List.mem_map.mpr ⟨_, (h.all hv).2.2.2.2.1 _ hj, rfl⟩
      · rename_i hj
        have := (h.all hv).2.1 hj
        simp only [Dec, hv, if_true, hj, Option.isSome_none, Bool.false_eq_true, false_or] at hd
        exact hfull (by omega) i hi
    · have hv : v.all = false := by simpa using hv
      simp only [uses, hv, Bool.false_eq_true, if_false] at hi
      split at hi
      · rename_i j hj
        simp only [List.mem_singleton] at hi
        subst hi
        exact List.mem_map.mpr ⟨_, (h.any hv).2.2.1 _ hj, rfl⟩
      · rename_i hj
        have h1 := (h.any hv).1
        have h2 : (l.filter fun x => !x.2).length ≤ l.length := List.length_filter_le _ _
        simp only [Dec, hv, Bool.false_eq_true, if_false, hj, Option.isSome_none, false_or] at hd
        exact hfull (by omega) i hi
  have hany : v.all = false → (d.exc.isSome = true ↔ d.index = none) := by
    intro hv
    obtain ⟨b1, b2, b3, b4, b5⟩ := h.any hv
    constructor
    · intro e
      have hr := b4 (by intro e'; simp [e'] at e)
      by_contra hc
      obtain ⟨j, hj⟩ := Option.ne_none_iff_exists'.mp hc
      have := filter_lt (p := fun x => !x.2) (b3 j hj) rfl
      have := h.length
      omega
    · intro e
      simp only [Dec, hv, Bool.false_eq_true, if_false, e, Option.isSome_none, false_or] at hd
      have := b5 hl hd
      exact Option.isSome_iff_ne_none.mpr this
  cases v
  case packAll =>
    by_cases hx : d.exc = none
    · have hr : d.remaining = 0 := by simpa [Dec, Variant.all, hx] using hd
      have hlen := (h.all rfl).2.1 hx
      have hf : ((List.range n).find? fun i => !d.args i) = none := by
        rw [List.find?_eq_none]
        intro i hi
        obtain ⟨x, hx1, rfl⟩ := List.mem_map.mp (hfull (by omega) i hi)
        simp [(h.all rfl).2.2.2.1 hx x hx1]
      refine ⟨_, _, (by simp only [When.exec, hf]; rfl), huse, by simp [hx], by simp [Variant.all], ?_⟩
      intro x hx
      rcases List.mem_append.mp hx with hx | hx <;> obtain ⟨j, -, rfl⟩ := List.mem_map.mp hx <;> exact .inl ⟨j, rfl⟩
    · obtain ⟨j, hj⟩ := Option.ne_none_iff_exists'.mp hx
      have hm := (h.all rfl).2.2.2.2.1 j hj
      have hj' : d.args j = false := by
        by_contra hc
        have a1 := (h.all rfl).2.2.1 j (by simpa using hc)
        have := List.inj_on_of_nodup_map h.nodup a1 hm rfl
        simp at this
      have hf : ((List.range n).find? fun i => !d.args i) ≠ none := by
        intro hf
        have := List.find?_eq_none.mp hf j (List.mem_range.mpr (h.lt _ hm))
        simp [hj'] at this
      obtain ⟨k, hk⟩ := Option.ne_none_iff_exists'.mp hf
      refine ⟨_, _, (by simp only [When.exec, hk, hj, Option.isSome_some, if_true]; rfl), huse, by simp [hj], by simp [Variant.all], ?_⟩
      intro x hx
      rcases List.mem_append.mp hx with hx | hx
      · obtain ⟨j, -, rfl⟩ := List.mem_map.mp hx; exact .inl ⟨j, rfl⟩
      · simp at hx; simp [hx]
  case rangeAll =>
    by_cases hx : d.exc = none
    · refine ⟨_, _, (by simp only [When.exec, hx, Option.isSome_none, Bool.false_eq_true, if_false]; rfl), huse, by simp [hx], by simp [Variant.all], ?_⟩
      intro x hx
      rcases List.mem_cons.mp hx with rfl | hx
      · simp
      · obtain ⟨j, -, rfl⟩ := List.mem_map.mp hx; exact .inl ⟨j, rfl⟩
    · obtain ⟨j, hj⟩ := Option.ne_none_iff_exists'.mp hx
      refine ⟨_, _, (by simp only [When.exec, hj, Option.isSome_some, if_true]; rfl), huse, by simp [hj], by simp [Variant.all], by simp⟩
  case packAny =>
    by_cases hx : d.index = none
    · have he := (hany rfl).mpr hx
      refine ⟨_, _, (by simp only [When.exec, he, if_true]; rfl), huse, by simp [Variant.all], by simp [hx], by simp⟩
    · have he : d.exc.isSome = false := by
        by_contra hc; exact hx ((hany rfl).mp (by rw [← Bool.not_eq_false]; exact hc))
      refine ⟨_, _, (by simp only [When.exec, he, h.any0 rfl, Option.isSome_iff_ne_none.mpr hx, Bool.false_eq_true, if_false, if_true]; rfl), huse,
        by simp [Variant.all], by simp [hx], by simp⟩
  all_goals
    by_cases hx : d.index = none
    · have he := (hany rfl).mpr hx
      refine ⟨_, _, (by simp only [When.exec, he, if_true]; rfl), huse, by simp [Variant.all], by simp [hx], by simp⟩
    · have he : d.exc.isSome = false := by
        by_contra hc; exact hx ((hany rfl).mp (by rw [← Bool.not_eq_false]; exact hc))
      refine ⟨_, _, (by simp only [When.exec, he, Bool.false_eq_true, if_false]; rfl), huse, by simp [Variant.all], by simp [hx], by simp⟩

theorem sect_acc {x : Loc × Bool} (h : x ∈ (sect v n d i ok).acc) : x.1 ≠ .task := by
  intro e
  cases v <;> cases ok <;> simp only [sect] at h <;> (try split at h) <;> simp [others] at h <;> revert e <;> aesop

/-! ## Accesses -/

theorem upd_upd {α : Type} (f : Nat → α) (k : Nat) (a b : α) : upd (upd f k a) k b = upd f k b := by
  funext i; simp only [upd]; split <;> rfl

theorem upd_self {α : Type} (f : Nat → α) (k : Nat) : upd f k (f k) = f := by
  funext i; simp only [upd]; split
  · rename_i h; rw [h]
  · rfl

variable {s s' : St} {t : Nat}

theorem accesses_ok {ls : List (Loc × Bool)} (h : ∀ a ∈ s.acc, ∀ x ∈ ls, a.loc = x.1 → (a.write = true ∨ x.2 = true) → a.stamp.le (s.vc t)) :
    ∃ c new, accesses s t ls = .ok { s with vc := upd s.vc t c, acc := new ++ s.acc } ∧ leq (s.vc t) c ∧
      ∀ a ∈ new, (a.loc, a.write) ∈ ls ∧ a.stamp.le c := by
  induction ls generalizing s with
  | nil => exact ⟨s.vc t, [], by simp [accesses, upd_self], leq.refl _, by simp⟩
  | cons x ls ih =>
    have h1 : access s t x.1 x.2 = .ok { s with vc := tick s.vc t, acc := ⟨x.1, x.2, ⟨t, s.vc t t + 1⟩⟩ :: s.acc } := by
      unfold access
      rw [if_neg]
      intro hc
      simp only [List.any_eq_true, Bool.and_eq_true, decide_eq_true_eq, Bool.or_eq_true] at hc
      obtain ⟨a, ha, ⟨h1, h2⟩, h3⟩ := hc
      exact h3 (h a ha x (by simp) h1 h2)
    obtain ⟨c, new, g1, g2, g3⟩ := ih (s := { s with vc := tick s.vc t, acc := ⟨x.1, x.2, ⟨t, s.vc t t + 1⟩⟩ :: s.acc }) (by
      intro a ha y hy e1 e2
      rcases List.mem_cons.mp ha with rfl | ha
      · exact tick_stamp _ _
      · exact (h a ha y (by simp [hy]) e1 e2).mono (leq_tick _ _ _))
    refine ⟨c, new ++ [⟨x.1, x.2, ⟨t, s.vc t t + 1⟩⟩], ?_, (leq_tick _ _ _).trans g2, ?_⟩
    · rw [accesses, h1]
      refine g1.trans ?_
      simp only [tick, upd_upd, List.append_assoc, List.singleton_append]
    · intro a ha
      rcases List.mem_append.mp ha with ha | ha
      · exact ⟨by simp [(g3 a ha).1], (g3 a ha).2⟩
      · simp only [List.mem_singleton] at ha
        subst ha
        exact ⟨by simp, (tick_stamp _ _).mono g2⟩

/-! ## The invariant -/

/-- Accesses made by the function that makes the result. -/
def Own (v : Variant) (n : Nat) (d : Data) (a : Access) : Prop :=
  a.loc = .task ∨ ∃ ls b, exec v n d = some (ls, b) ∧ (a.loc, a.write) ∈ ls

/-- Accesses in conflict with those. -/
def Clash (v : Variant) (n : Nat) (d : Data) (a : Access) : Prop :=
  a.loc = .task ∨ ∃ ls b, exec v n d = some (ls, b) ∧ ∃ x ∈ ls, a.loc = x.1 ∧ (a.write = true ∨ x.2 = true)

/-- The arguments the result is made of were resolved before. -/
def Seen (v : Variant) (n : Nat) (s : St) (c : Clock) : Prop :=
  ∀ i ∈ uses v n s.data, ∃ ok st, s.resolved i = some (ok, st) ∧ st.le c

structure Inv (v : Variant) (n : Nat) (x : Option Nat) (s : St) : Prop where
  dinv : DInv v n s.entered s.data
  runIff : ∀ t, t ∈ s.runners ↔ s.pc t ≠ .none
  nodup : s.runners.Nodup
  gone : s.destroyed = true → s.creating = false ∧ s.task = false ∧ s.runners = []
  know0 : 1 ≤ s.vc 0 0
  know : ∀ t, s.pc t ≠ .none → 1 ≤ s.vc t 0
  att : ∀ i c, s.attached i = some c → i < n ∧ 1 ≤ c 0
  res : ∀ i ok st, s.resolved i = some (ok, st) → st.le (s.rvc i)
  cont : ∀ t i ok, s.pc t = .cont i ok → i < n ∧ i ∈ s.started ∧ i ∉ s.entered.map (·.1) ∧ ∃ st, s.resolved i = some (ok, st) ∧ st.le (s.vc t)
  inj : ∀ t u i ok ok', s.pc t = .cont i ok → s.pc u = .cont i ok' → t = u
  ent : ∀ x ∈ s.entered, x.1 ∈ s.started ∧ ∃ st, s.resolved x.1 = some (x.2, st) ∧ (st.le s.lm ∨ ∃ t, s.holder = some t ∧ st.le (s.vc t))
  hold : ∀ t, s.holder = some t → s.pc t = .decided ∨ s.pc t = .making
  dec : ∀ t, s.pc t = .decided → Dec v s.data ∧ s.entered ≠ [] ∧ s.begun = [] ∧ (∀ u, s.pc u = .decided → u = t) ∧
    Seen v n s (s.vc t) ∧ ∀ a ∈ s.acc, Clash v n s.data a → a.stamp.le (s.vc t)
  made : s.begun ≠ [] → Dec v s.data ∧ s.entered ≠ [] ∧ (∀ u, s.pc u ≠ .decided) ∧ s.begun.length = 1 ∧
    ∀ x ∈ s.begun, 1 ≤ x.2 0 ∧ (∃ ls, exec v n s.data = some (ls, x.1)) ∧ Seen v n s x.2
  accs : s.destroyed = false → ∀ a ∈ s.acc, a.stamp = ⟨0, 1⟩ ∨ a.stamp.le s.lm ∨ (∃ t, s.holder = some t ∧ a.stamp.le (s.vc t)) ∨
    (Dec v s.data ∧ s.entered ≠ [] ∧ Own v n s.data a)
  own : s.destroyed = false → ∀ a ∈ s.acc, a.stamp.le s.rc ∨ (s.creating = true ∧ a.stamp.le (s.vc 0)) ∨ (∃ u ∈ s.runners, a.stamp.le (s.vc u)) ∨
    ∃ u, x = some u ∧ a.stamp.le (s.vc u)

theorem Inv.init : Inv v n none (init n) where
  dinv := .init
  runIff := by simp [When.init]
  nodup := by simp [When.init]
  gone := by simp [When.init]
  know0 := by simp [When.init, tick, upd]
  know := by simp [When.init]
  att := by simp [When.init]
  res := by simp [When.init]
  cont := by simp [When.init]
  inj := by simp [When.init]
  ent := by simp [When.init]
  hold := by simp [When.init]
  dec := by simp [When.init]
  made := by simp [When.init]
  accs := by
    intro _ a ha
    obtain ⟨l, -, rfl⟩ := List.mem_map.mp ha
    exact .inl rfl
  own := by
    intro _ a ha
    obtain ⟨l, -, rfl⟩ := List.mem_map.mp ha
    exact .inr (.inl ⟨rfl, by simp [When.init, Stamp.le, tick, upd]⟩)

variable {x : Option Nat}

/-- Clocks may only grow. -/
theorem Inv.mono (I : Inv v n x s) {vc' : Nat → Clock} (h : ∀ u, leq (s.vc u) (vc' u)) : Inv v n x { s with vc := vc' } where
  dinv := I.dinv
  runIff := I.runIff
  nodup := I.nodup
  gone := I.gone
  know0 := Nat.le_trans I.know0 (h 0 0)
  know := fun t ht => Nat.le_trans (I.know t ht) (h t 0)
  att := I.att
  res := I.res
  cont := by
    intro t i ok hp
    obtain ⟨h1, h2, h3, st, h4, h5⟩ := I.cont t i ok hp
    exact ⟨h1, h2, h3, st, h4, h5.mono (h t)⟩
  inj := I.inj
  ent := by
    intro y hy
    obtain ⟨h1, st, h2, h3⟩ := I.ent y hy
    refine ⟨h1, st, h2, ?_⟩
    rcases h3 with h3 | ⟨t, h3, h4⟩
    · exact .inl h3
    · exact .inr ⟨t, h3, h4.mono (h t)⟩
  hold := I.hold
  dec := by
    intro t ht
    obtain ⟨h1, h2, h3, h4, h5, h6⟩ := I.dec t ht
    refine ⟨h1, h2, h3, h4, ?_, fun a ha hc => (h6 a ha hc).mono (h t)⟩
    intro i hi
    obtain ⟨ok, st, g1, g2⟩ := h5 i hi
    exact ⟨ok, st, g1, g2.mono (h t)⟩
  made := I.made
  accs := by
    intro hd a ha
    rcases I.accs hd a ha with g | g | ⟨t, g1, g2⟩ | g
    · exact .inl g
    · exact .inr (.inl g)
    · exact .inr (.inr (.inl ⟨t, g1, g2.mono (h t)⟩))
    · exact .inr (.inr (.inr g))
  own := by
    intro hd a ha
    rcases I.own hd a ha with g | ⟨g1, g2⟩ | ⟨u, g1, g2⟩ | ⟨u, g1, g2⟩
    · exact .inl g
    · exact .inr (.inl ⟨g1, g2.mono (h 0)⟩)
    · exact .inr (.inr (.inl ⟨u, g1, g2.mono (h u)⟩))
    · exact .inr (.inr (.inr ⟨u, g1, g2.mono (h u)⟩))

/-- A share is given up. -/
theorem Inv.release (I : Inv v n (some t) s) (hd : s.destroyed = false) : ∃ s', release n s t = .ok s' ∧ Inv v n none s' := by
  have hrc : leq s.rc (join s.rc (s.vc t)) := leq_joinl _ _
  have hown : ∀ a ∈ s.acc, a.stamp.le (join s.rc (s.vc t)) ∨ (s.creating = true ∧ a.stamp.le (s.vc 0)) ∨ (∃ u ∈ s.runners, a.stamp.le (s.vc u)) := by
    intro a ha
    rcases I.own hd a ha with g | g | g | ⟨u, g1, g2⟩
    · exact .inl (g.mono hrc)
    · exact .inr (.inl g)
    · exact .inr (.inr g)
    · cases g1; exact .inl (g2.mono (leq_joinr _ _))
  simp only [When.release]
  split
  · refine ⟨_, rfl, I.dinv, I.runIff, I.nodup, I.gone, I.know0, I.know, I.att, I.res, I.cont, I.inj, I.ent, I.hold, I.dec, I.made, I.accs, ?_⟩
    intro _ a ha
    rcases hown a ha with g | g | g
    · exact .inl g
    · exact .inr (.inl g)
    · exact .inr (.inr (.inl g))
  · rename_i hc
    simp only [Bool.or_eq_true, Bool.not_eq_true', not_or, Bool.not_eq_true, Bool.not_eq_false, List.isEmpty_iff] at hc
    obtain ⟨⟨c1, c2⟩, c3⟩ := hc
    obtain ⟨c, new, g1, g2, g3⟩ := accesses_ok (s := { s with rc := join s.rc (s.vc t), vc := acquire s.vc t (join s.rc (s.vc t)), destroyed := true })
      (t := t) (ls := (locs n).map fun l => (l, true)) (by
        intro a ha _ _ _ _
        rcases hown a ha with g | ⟨g, -⟩ | ⟨u, g, -⟩
        · exact g.mono (acquire_leq _ _ _)
        · rw [c1] at g; cases g
        · rw [c3] at g; cases g)
    refine ⟨_, g1, ?_⟩
    have hpc : ∀ u, s.pc u = .none := by
      intro u
      by_contra hu
      have := (I.runIff u).mpr hu
      rw [c3] at this
      cases this
    have hvc : ∀ u, leq (s.vc u) (upd (acquire s.vc t (join s.rc (s.vc t))) t c u) := by
      intro u
      by_cases hu : u = t
      · subst hu; rw [upd_same]; exact (leq_acquire _ _ _ _).trans g2
      · rw [upd_ne _ _ hu]; exact leq_acquire _ _ _ _
    have J := I.mono hvc
    exact ⟨J.dinv, J.runIff, J.nodup, fun _ => ⟨c1, c2, c3⟩, J.know0, J.know, J.att, J.res, J.cont, J.inj, J.ent, J.hold,
      (fun u hu => by rw [hpc u] at hu; cases hu), J.made, by simp, by simp⟩

theorem leq_upd {vc : Nat → Clock} {t : Nat} {c : Clock} (h : leq (vc t) c) (u : Nat) : leq (vc u) (upd vc t c u) := by
  by_cases hu : u = t
  · subst hu; rw [upd_same]; exact h
  · rw [upd_ne _ _ hu]; exact leq.refl _

theorem Inv.alive (I : Inv v n x s) (h : s.pc t ≠ .none) : s.destroyed = false := by
  by_contra hc
  have := (I.gone (by rw [← Bool.not_eq_false]; exact hc)).2.2
  have h' := (I.runIff t).mpr h
  rw [this] at h'
  cases h'

/-- An argument is resolved. -/
theorem Inv.resolve (I : Inv v n none s) (h : s.resolved i = none) :
    Inv v n none { s with vc := tick s.vc t, resolved := upd s.resolved i (some (ok, ⟨t, s.vc t t + 1⟩)), rvc := upd s.rvc i (tick s.vc t t) } := by
  have J := I.mono (leq_tick s.vc t)
  have hne : ∀ j r, s.resolved j = some r → j ≠ i := by rintro j r e rfl; rw [h] at e; cases e
  have hkeep : ∀ j r, s.resolved j = some r → upd s.resolved i (some (ok, (⟨t, s.vc t t + 1⟩ : Stamp))) j = some r :=
    fun j r e => by rw [upd_ne _ _ (hne j r e)]; exact e
  have hseen : ∀ c, Seen v n s c →
      Seen v n { s with vc := tick s.vc t, resolved := upd s.resolved i (some (ok, ⟨t, s.vc t t + 1⟩)), rvc := upd s.rvc i (tick s.vc t t) } c := by
    intro c hc j hj
    obtain ⟨ok', st, g1, g2⟩ := hc j hj
    exact ⟨ok', st, hkeep _ _ g1, g2⟩
  refine ⟨J.dinv, J.runIff, J.nodup, J.gone, J.know0, J.know, J.att, ?_, ?_, J.inj, ?_, J.hold, ?_, ?_, J.accs, J.own⟩
  · intro j ok' st e
    by_cases hj : j = i
    · subst hj
      simp only [upd_same, Option.some.injEq, Prod.mk.injEq] at e ⊢
      rw [← e.2]; exact tick_stamp _ _
    · simp only [upd_ne _ _ hj] at e ⊢; exact I.res j ok' st e
  · intro u j ok' hp
    obtain ⟨h1, h2, h3, st, h4, h5⟩ := J.cont u j ok' hp
    exact ⟨h1, h2, h3, st, hkeep _ _ h4, h5⟩
  · intro y hy
    obtain ⟨h1, st, h2, h3⟩ := J.ent y hy
    exact ⟨h1, st, hkeep _ _ h2, h3⟩
  · intro u hu
    obtain ⟨h1, h2, h3, h4, h5, h6⟩ := J.dec u hu
    exact ⟨h1, h2, h3, h4, hseen _ h5, h6⟩
  · intro hb
    obtain ⟨h1, h2, h3, h4, h5⟩ := J.made hb
    exact ⟨h1, h2, h3, h4, fun y hy => ⟨(h5 y hy).1, (h5 y hy).2.1, hseen _ (h5 y hy).2.2⟩⟩

/-- In the critical section a thread knows what was done in earlier ones. -/
theorem Inv.inside (I : Inv v n x s) (hd : s.destroyed = false) (hh : s.holder = none) (hk : 1 ≤ s.vc t 0) {a : Access} (ha : a ∈ s.acc) :
    a.stamp.le (acquire s.vc t s.lm t) ∨ (Dec v s.data ∧ s.entered ≠ [] ∧ Own v n s.data a) := by
  rcases I.accs hd a ha with g | g | ⟨u, g, -⟩ | g
  · left; rw [g]; exact Nat.le_trans hk (leq_acquire _ _ _ _ _)
  · exact .inl (g.mono (acquire_leq _ _ _))
  · rw [hh] at g; cases g
  · exact .inr g

/-- The future of a continuation is stored. -/
theorem Inv.holds (I : Inv v n none s) (hc : s.creating = true) (hh : s.holder = none) :
    ∃ s', ((accesses (lock s 0) 0 [(.hold i, true)]).bind fun s => .ok (unlock s 0)) = .ok s' ∧ Inv v n none s' := by
  have hd : s.destroyed = false := by
    by_contra hd
    have := (I.gone (by rw [← Bool.not_eq_false]; exact hd)).1
    rw [hc] at this; cases this
  obtain ⟨c, new, g1, g2, g3⟩ := accesses_ok (s := lock s 0) (t := 0) (ls := [(.hold i, true)]) (by
    intro a ha y hy e _
    simp only [List.mem_singleton] at hy
    subst hy
    rcases I.inside hd hh I.know0 ha with g | ⟨h1, h2, g⟩
    · exact g
    · exfalso
      obtain ⟨ls, b, k1, -, -, -, k2⟩ := I.dinv.exec h2 h1
      rcases g with g | ⟨ls', b', g, g'⟩
      · rw [g] at e; cases e
      · rw [k1] at g; cases g
        rcases k2 _ g' with ⟨j, k⟩ | k | k <;> rw [e] at k <;> cases k)
  rw [g1]
  refine ⟨_, rfl, ?_⟩
  have hvc : ∀ u, leq (s.vc u) (upd (acquire s.vc 0 s.lm) 0 c u) := fun u => (leq_acquire _ _ _ _).trans (leq_upd g2 u)
  have J := I.mono hvc
  have hlm : leq s.lm (join s.lm c) := leq_joinl _ _
  refine ⟨J.dinv, J.runIff, J.nodup, J.gone, J.know0, J.know, J.att, J.res, J.cont, J.inj, ?_, J.hold, ?_, J.made, ?_, ?_⟩
  · intro y hy
    obtain ⟨h1, st, h2, h3⟩ := J.ent y hy
    refine ⟨h1, st, h2, h3.imp (fun h => h.mono ?_) id⟩
    simp only [unlock, lock, upd_same]; exact hlm
  · intro u hu
    obtain ⟨h1, h2, h3, h4, h5, h6⟩ := J.dec u hu
    refine ⟨h1, h2, h3, h4, h5, ?_⟩
    intro a ha hcl
    rcases List.mem_append.mp ha with ha | ha
    · exfalso
      have e := (g3 a ha).1
      simp only [List.mem_singleton, Prod.mk.injEq] at e
      obtain ⟨ls, b, k1, -, -, -, k2⟩ := I.dinv.exec h2 h1
      rcases hcl with g | ⟨ls', b', g, y, g4, g5, -⟩
      · rw [e.1] at g; cases g
      · change exec v n s.data = _ at g
        rw [k1] at g; cases g
        rcases k2 _ g4 with ⟨j, k⟩ | k | k <;> rw [← g5, e.1] at k <;> cases k
    · exact h6 a ha hcl
  · intro _ a ha
    rcases List.mem_append.mp ha with ha | ha
    · refine .inr (.inl ((g3 a ha).2.mono ?_))
      simp only [unlock, lock, upd_same]; exact leq_joinr _ _
    · rcases J.accs hd a ha with g | g | g | g
      · exact .inl g
      · refine .inr (.inl (g.mono ?_))
        simp only [unlock, lock, upd_same]; exact hlm
      · exact .inr (.inr (.inl g))
      · exact .inr (.inr (.inr g))
  · intro _ a ha
    rcases List.mem_append.mp ha with ha | ha
    · refine .inr (.inl ⟨hc, (g3 a ha).2.mono ?_⟩)
      simp only [unlock, lock, upd_same]; exact leq.refl _
    · exact J.own hd a ha

/-- A continuation starts. -/
theorem Inv.start (I : Inv v n none s) {st : Stamp} {c : Clock} (hr : s.resolved i = some (ok, st)) (ha : s.attached i = some c) (hp : s.pc t = .none)
    (hs : i ∉ s.started) (hd : s.destroyed = false) :
    Inv v n none { s with vc := acquire (acquire s.vc t (s.rvc i)) t c, pc := upd s.pc t (.cont i ok), started := i :: s.started, runners := t :: s.runners } := by
  have J := I.mono (vc' := acquire (acquire s.vc t (s.rvc i)) t c) (fun u => (leq_acquire _ _ _ _).trans (leq_acquire _ _ _ _))
  have hpc : ∀ u p, p ≠ .cont i ok → upd s.pc t (.cont i ok) u = p → p ≠ .none → s.pc u = p := by
    intro u p h1 h2 _
    by_cases hu : u = t
    · subst hu; rw [upd_same] at h2; exact absurd h2.symm h1
    · rw [upd_ne _ _ hu] at h2; exact h2
  refine ⟨J.dinv, ?_, ?_, by simp [hd], J.know0, ?_, J.att, J.res, ?_, ?_, ?_, ?_, ?_, ?_, J.accs, ?_⟩
  · intro u
    by_cases hu : u = t
    · subst hu; simp [upd_same]
    · simp [upd_ne _ _ hu, hu, I.runIff u]
  · refine List.nodup_cons.mpr ⟨?_, I.nodup⟩
    intro h; exact (I.runIff t).mp h hp
  · intro u hu
    by_cases hut : u = t
    · subst hut
      exact Nat.le_trans (I.att i c ha).2 (acquire_leq _ _ _ _)
    · simp only [upd_ne _ _ hut] at hu; exact J.know u hu
  · intro u j ok' hu
    by_cases hut : u = t
    · subst hut
      simp only [upd_same, Pc.cont.injEq] at hu
      obtain ⟨rfl, rfl⟩ := hu
      refine ⟨(I.att i c ha).1, by simp, ?_, st, hr, ?_⟩
      · intro hm
        obtain ⟨y, hy, e⟩ := List.mem_map.mp hm
        exact hs (e ▸ (I.ent y hy).1)
      · exact ((I.res i ok st hr).mono (acquire_leq _ _ _)).mono (leq_acquire _ _ _ _)
    · simp only [upd_ne _ _ hut] at hu
      obtain ⟨h1, h2, h3⟩ := J.cont u j ok' hu
      exact ⟨h1, List.mem_cons_of_mem _ h2, h3⟩
  · intro u w j ok' ok'' hu hw
    by_cases hut : u = t <;> by_cases hwt : w = t
    · rw [hut, hwt]
    · subst hut
      simp only [upd_same, Pc.cont.injEq, upd_ne _ _ hwt] at hu hw
      obtain ⟨rfl, rfl⟩ := hu
      exact absurd (I.cont w _ _ hw).2.1 hs
    · subst hwt
      simp only [upd_same, Pc.cont.injEq, upd_ne _ _ hut] at hu hw
      obtain ⟨rfl, rfl⟩ := hw
      exact absurd (I.cont u _ _ hu).2.1 hs
    · simp only [upd_ne _ _ hut, upd_ne _ _ hwt] at hu hw
      exact I.inj u w j ok' ok'' hu hw
  · intro y hy
    obtain ⟨h1, h2⟩ := J.ent y hy
    exact ⟨List.mem_cons_of_mem _ h1, h2⟩
  · intro u hu
    have hut : u ≠ t := by rintro rfl; rcases I.hold _ hu with h | h <;> rw [hp] at h <;> cases h
    simp only [upd_ne _ _ hut]
    exact J.hold u hu
  · intro u hu
    obtain ⟨h1, h2, h3, h4, h5, h6⟩ := J.dec u (hpc u _ (by simp) hu (by simp))
    exact ⟨h1, h2, h3, fun w hw => h4 w (hpc w _ (by simp) hw (by simp)), h5, h6⟩
  · intro hb
    obtain ⟨h1, h2, h3, h4⟩ := J.made hb
    exact ⟨h1, h2, fun u hu => h3 u (hpc u _ (by simp) hu (by simp)), h4⟩
  · intro _ a ha
    rcases J.own hd a ha with g | g | ⟨u, g1, g2⟩ | g
    · exact .inl g
    · exact .inr (.inl g)
    · exact .inr (.inr (.inl ⟨u, List.mem_cons_of_mem _ g1, g2⟩))
    · exact .inr (.inr (.inr g))

/-- The accesses of a critical section. -/
theorem Inv.critical_acc (I : Inv v n none s) (hp : s.pc t = .cont i ok) (hh : s.holder = none) :
    ∃ c new, accesses (lock s t) t (When.sect v n s.data i ok).acc =
        .ok { s with vc := upd (acquire s.vc t s.lm) t c, acc := new ++ s.acc } ∧ leq (acquire s.vc t s.lm t) c ∧
      ∀ a ∈ new, (a.loc, a.write) ∈ (When.sect v n s.data i ok).acc ∧ a.stamp.le c := by
  obtain ⟨hi, -, hn, -⟩ := I.cont t i ok hp
  have hpn : s.pc t ≠ .none := by rw [hp]; simp
  refine accesses_ok (s := lock s t) ?_
  intro a ha y hy e hw
  rcases I.inside (I.alive hpn) hh (I.know t hpn) ha with g | ⟨h1, h2, g⟩
  · exact g
  · exfalso
    rcases g with g | ⟨ls, b, g, g'⟩
    · exact sect_acc hy (e ▸ g)
    · have := I.dinv.apart hi hn h1 g hy g' e.symm
      rcases hw with hw | hw
      · have h2 : a.write = false := this.2
        rw [h2] at hw; cases hw
      · rw [this.1] at hw; cases hw

/-- After a critical section. -/
theorem Inv.critical (I : Inv v n none s) (hp : s.pc t = .cont i ok) (hh : s.holder = none) {c lm' : Clock}
    {h' : Option Nat} {new : List Access}
    (g2 : leq (acquire s.vc t s.lm t) c) (g3 : ∀ a ∈ new, (a.loc, a.write) ∈ (When.sect v n s.data i ok).acc ∧ a.stamp.le c) (hlm : leq s.lm lm')
    (hl : (leq c lm' ∧ h' = none) ∨ (h' = some t ∧ (When.sect v n s.data i ok).run = true)) :
    Inv v n none { s with vc := upd (acquire s.vc t s.lm) t c, acc := new ++ s.acc, data := (When.sect v n s.data i ok).data, entered := s.entered ++ [(i, ok)], pc := upd s.pc t (if (When.sect v n s.data i ok).run then .decided else .leaving), lm := lm', holder := h' } := by
  obtain ⟨hi, hst, hn, st0, hr0, hs0⟩ := I.cont t i ok hp
  have hpn : s.pc t ≠ .none := by rw [hp]; simp
  have hd := I.alive hpn
  have hvc : ∀ u, leq (s.vc u) (upd (acquire s.vc t s.lm) t c u) := fun u => (leq_acquire _ _ _ _).trans (leq_upd g2 u)
  have J := I.mono hvc
  have D := I.dinv.sect (ok := ok) hi hn
  have hrun := I.dinv.run (ok := ok) hi hn
  have hlc : leq s.lm c := (acquire_leq _ _ _).trans g2
  -- what is known is known to `t`, or to the next one to lock
  have hto : ∀ b : Stamp, b.le c → b.le lm' ∨ ∃ u, h' = some u ∧ b.le (upd (acquire s.vc t s.lm) t c u) := by
    intro b hb
    rcases hl with ⟨hl, -⟩ | ⟨hl, -⟩
    · exact .inl (hb.mono hl)
    · exact .inr ⟨t, hl, by rw [upd_same]; exact hb⟩
  have hent : ∀ y ∈ s.entered ++ [(i, ok)], ∃ st, s.resolved y.1 = some (y.2, st) ∧ st.le c := by
    intro y hy
    rcases List.mem_append.mp hy with hy | hy
    · obtain ⟨-, st, h1, h2⟩ := I.ent y hy
      refine ⟨st, h1, ?_⟩
      rcases h2 with h2 | ⟨u, h2, -⟩
      · exact h2.mono hlc
      · rw [hh] at h2; cases h2
    · simp only [List.mem_singleton] at hy
      subst hy
      refine ⟨st0, hr0, ?_⟩
      have := hs0.mono (hvc t)
      rwa [upd_same] at this
  have hdec : ∀ u, upd s.pc t (if (When.sect v n s.data i ok).run then Pc.decided else Pc.leaving) u = .decided →
      (u = t ∧ (When.sect v n s.data i ok).run = true) ∨ (u ≠ t ∧ s.pc u = .decided) := by
    intro u hu
    by_cases hut : u = t
    · subst hut
      rw [upd_same] at hu
      split at hu
      · rename_i h; exact .inl ⟨rfl, h⟩
      · cases hu
    · rw [upd_ne _ _ hut] at hu; exact .inr ⟨hut, hu⟩
  -- nothing is in the way of the result once it is decided
  have hkeep : Dec v s.data → (When.sect v n s.data i ok).run = false ∧ Dec v (When.sect v n s.data i ok).data ∧
      When.exec v n (When.sect v n s.data i ok).data = When.exec v n s.data ∧ uses v n (When.sect v n s.data i ok).data = uses v n s.data := by
    intro hD
    have h1 : (When.sect v n s.data i ok).run = false := by
      by_contra hc
      exact (hrun.1 (by rw [← Bool.not_eq_false]; exact hc)).1 hD
    exact ⟨h1, (hrun.2 h1).mpr hD, I.dinv.stable hi hn hD⟩
  refine ⟨D, ?_, J.nodup, J.gone, J.know0, ?_, J.att, J.res, ?_, ?_, ?_, ?_, ?_, ?_, ?_, ?_⟩
  · intro u
    by_cases hut : u = t
    · subst hut
      rw [I.runIff]
      simp only [upd_same]
      constructor
      · intro _; split <;> simp
      · intro _; exact hpn
    · simp only [upd_ne _ _ hut]; exact I.runIff u
  · intro u hu
    by_cases hut : u = t
    · subst hut; exact J.know u hpn
    · simp only [upd_ne _ _ hut] at hu; exact J.know u hu
  · intro u j ok' hu
    have hut : u ≠ t := by
      rintro rfl
      simp only [upd_same] at hu
      split at hu <;> cases hu
    simp only [upd_ne _ _ hut] at hu
    obtain ⟨h1, h2, h3, h4⟩ := J.cont u j ok' hu
    refine ⟨h1, h2, ?_, h4⟩
    rw [List.map_append, List.mem_append]
    rintro (h | h)
    · exact h3 h
    · simp only [List.map_cons, List.map_nil, List.mem_singleton] at h
      subst h
      exact hut (I.inj u t j ok' ok hu hp)
  · intro u w j ok' ok'' hu hw
    have hut : u ≠ t := by rintro rfl; simp only [upd_same] at hu; split at hu <;> cases hu
    have hwt : w ≠ t := by rintro rfl; simp only [upd_same] at hw; split at hw <;> cases hw
    simp only [upd_ne _ _ hut, upd_ne _ _ hwt] at hu hw
    exact I.inj u w j ok' ok'' hu hw
  · intro y hy
    obtain ⟨st, h1, h2⟩ := hent y hy
    refine ⟨?_, st, h1, hto st h2⟩
    rcases List.mem_append.mp hy with hy | hy
    · exact (I.ent y hy).1
    · simp only [List.mem_singleton] at hy; subst hy; exact hst
  · intro u hu
    rcases hl with ⟨-, hl⟩ | ⟨hl, hr⟩
    · simp only [hl] at hu; cases hu
    · simp only [hl, Option.some.injEq] at hu
      subst hu
      left; simp [upd_same, hr]
  · intro u hu
    rcases hdec u hu with ⟨rfl, hr⟩ | ⟨hut, hu'⟩
    · obtain ⟨n1, n2⟩ := hrun.1 hr
      refine ⟨n2, by simp, ?_, ?_, ?_, ?_⟩
      · by_contra hb; exact n1 (I.made hb).1
      · intro w hw
        rcases hdec w hw with ⟨rfl, -⟩ | ⟨-, hw'⟩
        · rfl
        · exact absurd (I.dec w hw').1 n1
      · intro j hj
        obtain ⟨ls, b, -, k, -⟩ := D.exec (by simp) n2
        obtain ⟨y, hy, rfl⟩ := List.mem_map.mp (k j hj)
        obtain ⟨st, h1, h2⟩ := hent y hy
        exact ⟨y.2, st, h1, by simp only [upd_same]; exact h2⟩
      · intro a ha _
        simp only [upd_same]
        rcases List.mem_append.mp ha with ha | ha
        · exact (g3 a ha).2
        · rcases I.inside hd hh (I.know _ hpn) ha with g | ⟨g, -⟩
          · exact g.mono g2
          · exact absurd g n1
    · obtain ⟨h1, h2, h3, h4, h5, h6⟩ := J.dec u hu'
      obtain ⟨k1, k2, k3, k4⟩ := hkeep h1
      refine ⟨k2, by simp, h3, ?_, ?_, ?_⟩
      · intro w hw
        rcases hdec w hw with ⟨-, hr⟩ | ⟨-, hw'⟩
        · rw [k1] at hr; cases hr
        · exact h4 w hw'
      · intro j hj
        simp only [k4] at hj
        exact h5 j hj
      · intro a ha hc
        rcases List.mem_append.mp ha with ha | ha
        · exfalso
          have hm := (g3 a ha).1
          rcases hc with hc | ⟨ls, b, hc1, y, hc2, hc3, hc4⟩
          · exact sect_acc hm hc
          · simp only [k3] at hc1
            have := I.dinv.apart hi hn h1 hc1 hm hc2 hc3
            rcases hc4 with hc4 | hc4
            · have h7 : a.write = false := this.1
              rw [h7] at hc4; cases hc4
            · rw [this.2] at hc4; cases hc4
        · refine h6 a ha ?_
          rcases hc with hc | ⟨ls, b, hc1, hc2⟩
          · exact .inl hc
          · exact .inr ⟨ls, b, by simpa only [k3] using hc1, hc2⟩
  · intro hb
    obtain ⟨h1, h2, h3, h4, h5⟩ := J.made hb
    obtain ⟨k1, k2, k3, k4⟩ := hkeep h1
    refine ⟨k2, by simp, ?_, h4, ?_⟩
    · intro u hu
      rcases hdec u hu with ⟨-, hr⟩ | ⟨-, hu'⟩
      · rw [k1] at hr; cases hr
      · exact h3 u hu'
    · intro y hy
      obtain ⟨m1, m2, m3⟩ := h5 y hy
      refine ⟨m1, by simpa only [k3] using m2, ?_⟩
      intro j hj
      simp only [k4] at hj
      exact m3 j hj
  · intro _ a ha
    rcases List.mem_append.mp ha with ha | ha
    · rcases hto _ (g3 a ha).2 with g | g
      · exact .inr (.inl g)
      · exact .inr (.inr (.inl g))
    · rcases I.accs hd a ha with g | g | ⟨u, g, -⟩ | ⟨h1, h2, g⟩
      · exact .inl g
      · exact .inr (.inl (g.mono hlm))
      · rw [hh] at g; cases g
      · obtain ⟨k1, k2, k3, k4⟩ := hkeep h1
        refine .inr (.inr (.inr ⟨k2, by simp, ?_⟩))
        rcases g with g | ⟨ls, b, g, g'⟩
        · exact .inl g
        · exact .inr ⟨ls, b, by simpa only [k3] using g, g'⟩
  · intro _ a ha
    rcases List.mem_append.mp ha with ha | ha
    · exact .inr (.inr (.inl ⟨t, (I.runIff t).mpr hpn, by simp only [upd_same]; exact (g3 a ha).2⟩))
    · exact J.own hd a ha

theorem access_ok {l : Loc} {w : Bool} (h : ∀ a ∈ s.acc, a.loc = l → (a.write = true ∨ w = true) → a.stamp.le (s.vc t)) :
    access s t l w = .ok { s with vc := tick s.vc t, acc := ⟨l, w, ⟨t, s.vc t t + 1⟩⟩ :: s.acc } := by
  unfold access
  rw [if_neg]
  intro hc
  simp only [List.any_eq_true, Bool.and_eq_true, decide_eq_true_eq, Bool.or_eq_true] at hc
  obtain ⟨a, ha, ⟨h1, h2⟩, h3⟩ := hc
  exact h3 (h a ha h1 h2)

/-- After `_f()` has made its accesses. -/
theorem Inv.make (I : Inv v n none s) (hp : s.pc t = .decided) {c : Clock} {new : List Access} {bg : List (Bool × Clock)} {bz : Bool}
    (g2 : leq (s.vc t) c) (g3 : ∀ a ∈ new, Own v n s.data a ∧ a.stamp.le c)
    (hb : bg = [] ∨ ∃ ls b, exec v n s.data = some (ls, b) ∧ bg = [(b, c)]) :
    Inv v n none { s with vc := upd s.vc t c, acc := new ++ s.acc, begun := bg, busy := bz, pc := upd s.pc t .making } := by
  have hpn : s.pc t ≠ .none := by rw [hp]; simp
  have hd := I.alive hpn
  have J := I.mono (leq_upd g2)
  obtain ⟨h1, h2, h3, h4, h5, h6⟩ := I.dec t hp
  have hpc : ∀ u p, p ≠ .making → upd s.pc t Pc.making u = p → u ≠ t ∧ s.pc u = p := by
    intro u p e1 e2
    by_cases hu : u = t
    · subst hu; rw [upd_same] at e2; exact absurd e2.symm e1
    · rw [upd_ne _ _ hu] at e2; exact ⟨hu, e2⟩
  refine ⟨J.dinv, ?_, J.nodup, J.gone, J.know0, ?_, J.att, J.res, ?_, ?_, J.ent, ?_, ?_, ?_, ?_, ?_⟩
  · intro u
    by_cases hut : u = t
    · subst hut; simp only [upd_same]; rw [I.runIff]; simp [hpn]
    · simp only [upd_ne _ _ hut]; exact I.runIff u
  · intro u hu
    by_cases hut : u = t
    · subst hut; exact J.know u hpn
    · simp only [upd_ne _ _ hut] at hu; exact J.know u hu
  · intro u j ok hu; exact J.cont u j ok (hpc u _ (by simp) hu).2
  · intro u w j ok ok' hu hw
    exact I.inj u w j ok ok' (hpc u _ (by simp) hu).2 (hpc w _ (by simp) hw).2
  · intro u hu
    by_cases hut : u = t
    · subst hut; right; simp [upd_same]
    · simp only [upd_ne _ _ hut]; exact I.hold u hu
  · intro u hu
    have := hpc u _ (by simp) hu
    exact absurd (h4 u this.2) this.1
  · intro hbg
    refine ⟨h1, h2, ?_, ?_, ?_⟩
    · intro u hu
      have := hpc u _ (by simp) hu
      exact absurd (h4 u this.2) this.1
    · rcases hb with rfl | ⟨ls, b, -, rfl⟩
      · exact absurd rfl hbg
      · rfl
    · intro y hy
      rcases hb with rfl | ⟨ls, b, he, rfl⟩
      · cases hy
      · simp only [List.mem_singleton] at hy
        subst hy
        refine ⟨Nat.le_trans (I.know t hpn) (g2 0), ⟨ls, he⟩, ?_⟩
        intro j hj
        obtain ⟨ok, st, k1, k2⟩ := h5 j hj
        exact ⟨ok, st, k1, k2.mono g2⟩
  · intro _ a ha
    rcases List.mem_append.mp ha with ha | ha
    · exact .inr (.inr (.inr ⟨h1, h2, (g3 a ha).1⟩))
    · exact J.accs hd a ha
  · intro _ a ha
    rcases List.mem_append.mp ha with ha | ha
    · exact .inr (.inr (.inl ⟨t, (I.runIff t).mpr hpn, by simp only [upd_same]; exact (g3 a ha).2⟩))
    · exact J.own hd a ha

/-- The function that makes the result returns; `_guard` is unlocked if it was locked. -/
theorem Inv.made' (I : Inv v n none s) (hp : s.pc t = .making) {lm' : Clock} {h' : Option Nat}
    (hl : (s.holder = some t ∧ lm' = join s.lm (s.vc t) ∧ h' = none) ∨ (s.holder ≠ some t ∧ lm' = s.lm ∧ h' = s.holder)) :
    Inv v n none { s with busy := false, pc := upd s.pc t .leaving, lm := lm', holder := h' } := by
  have hpn : s.pc t ≠ .none := by rw [hp]; simp
  have hpc : ∀ u p, p ≠ .leaving → upd s.pc t Pc.leaving u = p → u ≠ t ∧ s.pc u = p := by
    intro u p e1 e2
    by_cases hu : u = t
    · subst hu; rw [upd_same] at e2; exact absurd e2.symm e1
    · rw [upd_ne _ _ hu] at e2; exact ⟨hu, e2⟩
  have hto : ∀ b : Stamp, (b.le s.lm ∨ ∃ u, s.holder = some u ∧ b.le (s.vc u)) → b.le lm' ∨ ∃ u, h' = some u ∧ b.le (s.vc u) := by
    intro b hb
    rcases hl with ⟨e1, e2, e3⟩ | ⟨e1, e2, e3⟩
    · left
      rcases hb with hb | ⟨u, hb, hb'⟩
      · rw [e2]; exact hb.mono (leq_joinl _ _)
      · rw [e1] at hb; cases hb; rw [e2]; exact hb'.mono (leq_joinr _ _)
    · rw [e2, e3]; exact hb
  refine ⟨I.dinv, ?_, I.nodup, I.gone, I.know0, ?_, I.att, I.res, ?_, ?_, ?_, ?_, ?_, ?_, ?_, I.own⟩
  · intro u
    by_cases hut : u = t
    · subst hut; simp only [upd_same]; rw [I.runIff]; simp [hpn]
    · simp only [upd_ne _ _ hut]; exact I.runIff u
  · intro u hu
    by_cases hut : u = t
    · subst hut; exact I.know u hpn
    · simp only [upd_ne _ _ hut] at hu; exact I.know u hu
  · intro u j ok hu; exact I.cont u j ok (hpc u _ (by simp) hu).2
  · intro u w j ok ok' hu hw
    exact I.inj u w j ok ok' (hpc u _ (by simp) hu).2 (hpc w _ (by simp) hw).2
  · intro y hy
    obtain ⟨h1, st, h2, h3⟩ := I.ent y hy
    exact ⟨h1, st, h2, hto st h3⟩
  · intro u hu
    rcases hl with ⟨e1, e2, e3⟩ | ⟨e1, e2, e3⟩
    · rw [e3] at hu; cases hu
    · rw [e3] at hu
      have hut : u ≠ t := by rintro rfl; exact e1 hu
      simp only [upd_ne _ _ hut]; exact I.hold u hu
  · intro u hu
    obtain ⟨h1, h2, h3, h4, h5, h6⟩ := I.dec u (hpc u _ (by simp) hu).2
    exact ⟨h1, h2, h3, fun w hw => h4 w (hpc w _ (by simp) hw).2, h5, h6⟩
  · intro hb
    obtain ⟨h1, h2, h3, h4⟩ := I.made hb
    exact ⟨h1, h2, fun u hu => h3 u (hpc u _ (by simp) hu).2, h4⟩
  · intro hd a ha
    rcases I.accs hd a ha with g | g | g | g
    · exact .inl g
    · rcases hto _ (.inl g) with g | g
      · exact .inr (.inl g)
      · exact .inr (.inr (.inl g))
    · rcases hto _ (.inr g) with g | g
      · exact .inr (.inl g)
      · exact .inr (.inr (.inl g))
    · exact .inr (.inr (.inr g))

/-- The continuation returns. -/
theorem Inv.leave (I : Inv v n none s) (hp : s.pc t = .leaving) :
    Inv v n (some t) { s with pc := upd s.pc t .none, runners := s.runners.erase t } := by
  have hpn : s.pc t ≠ .none := by rw [hp]; simp
  have hd := I.alive hpn
  have hpc : ∀ u p, p ≠ .none → upd s.pc t Pc.none u = p → u ≠ t ∧ s.pc u = p := by
    intro u p e1 e2
    by_cases hu : u = t
    · subst hu; rw [upd_same] at e2; exact absurd e2.symm e1
    · rw [upd_ne _ _ hu] at e2; exact ⟨hu, e2⟩
  refine ⟨I.dinv, ?_, I.nodup.erase _, by simp [hd], I.know0, ?_, I.att, I.res, ?_, ?_, I.ent, ?_, ?_, ?_, I.accs, ?_⟩
  · intro u
    rw [I.nodup.mem_erase_iff, I.runIff]
    by_cases hut : u = t
    · subst hut; simp [upd_same]
    · simp [upd_ne _ _ hut, hut]
  · intro u hu
    have := (hpc u _ hu rfl).2
    exact I.know u (by rw [this]; exact hu)
  · intro u j ok hu; exact I.cont u j ok (hpc u _ (by simp) hu).2
  · intro u w j ok ok' hu hw
    exact I.inj u w j ok ok' (hpc u _ (by simp) hu).2 (hpc w _ (by simp) hw).2
  · intro u hu
    have hut : u ≠ t := by rintro rfl; rcases I.hold _ hu with h | h <;> rw [hp] at h <;> cases h
    simp only [upd_ne _ _ hut]; exact I.hold u hu
  · intro u hu
    obtain ⟨h1, h2, h3, h4, h5, h6⟩ := I.dec u (hpc u _ (by simp) hu).2
    exact ⟨h1, h2, h3, fun w hw => h4 w (hpc w _ (by simp) hw).2, h5, h6⟩
  · intro hb
    obtain ⟨h1, h2, h3, h4⟩ := I.made hb
    exact ⟨h1, h2, fun u hu => h3 u (hpc u _ (by simp) hu).2, h4⟩
  · intro _ a ha
    rcases I.own hd a ha with g | g | ⟨u, g1, g2⟩ | ⟨u, g, -⟩
    · exact .inl g
    · exact .inr (.inl g)
    · by_cases hut : u = t
      · subst hut; exact .inr (.inr (.inr ⟨u, rfl, g2⟩))
      · exact .inr (.inr (.inl ⟨u, I.nodup.mem_erase_iff.mpr ⟨hut, g1⟩, g2⟩))
    · cases g

/-- Every step is possible without a race, and keeps the invariant. -/
theorem inv_step (I : Inv v n none s) (a : Act) : step v n s a = .no ∨ ∃ s', step v n s a = .ok s' ∧ Inv v n none s' := by
  cases a with
  | work t => exact .inr ⟨_, rfl, I.mono (leq_tick _ _)⟩
  | sync t u => exact .inr ⟨_, rfl, I.mono (fun w => leq_acquire _ _ _ _)⟩
  | resolve t i ok =>
    simp only [step]
    split
    · rename_i h; exact .inr ⟨_, rfl, I.resolve h⟩
    · exact .inl rfl
  | attach i =>
    simp only [step]
    split
    · rename_i h
      refine .inr ⟨_, rfl, I.dinv, I.runIff, I.nodup, I.gone, I.know0, I.know, ?_, I.res, I.cont, I.inj, I.ent, I.hold, I.dec, I.made, I.accs, I.own⟩
      intro j c hj
      by_cases hji : j = i
      · subst hji
        simp only [upd_same, Option.some.injEq] at hj
        subst hj
        exact ⟨h.2.1, I.know0⟩
      · simp only [upd_ne _ _ hji] at hj; exact I.att j c hj
    · exact .inl rfl
  | hold i =>
    simp only [step]
    split
    · rename_i h; exact .inr (I.holds h.1 h.2.2)
    · exact .inl rfl
  | created =>
    simp only [step]
    split
    · rename_i h
      have hd : s.destroyed = false := by
        by_contra hd
        have := (I.gone (by rw [← Bool.not_eq_false]; exact hd)).1
        rw [h] at this; cases this
      refine .inr (Inv.release (s := { s with creating := false }) (t := 0) ?_ hd)
      refine ⟨I.dinv, I.runIff, I.nodup, by simp [hd], I.know0, I.know, I.att, I.res, I.cont, I.inj, I.ent, I.hold, I.dec, I.made, I.accs, ?_⟩
      intro _ a ha
      rcases I.own hd a ha with g | ⟨-, g⟩ | g | ⟨u, g, -⟩
      · exact .inl g
      · exact .inr (.inr (.inr ⟨0, rfl, g⟩))
      · exact .inr (.inr (.inl g))
      · cases g
    · exact .inl rfl
  | start t i =>
    simp only [step]
    split
    · rename_i hr ha
      split
      · rename_i h; exact .inr ⟨_, rfl, I.start hr ha h.1 h.2.1 h.2.2⟩
      · exact .inl rfl
    · exact .inl rfl
  | next t =>
    simp only [step]
    cases hp : s.pc t with
    | none => exact .inl rfl
    | cont i ok =>
      simp only
      split
      · rename_i hh
        obtain ⟨c, new, g1, g2, g3⟩ := I.critical_acc hp hh
        rw [g1]
        simp only [Out.bind]
        right
        split
        · rename_i hv
          exact ⟨_, rfl, I.critical hp hh g2 g3 (leq.refl _) (.inr ⟨rfl, hv.2.2⟩)⟩
        · refine ⟨_, rfl, ?_⟩
          simp only [unlock, upd_same]
          exact I.critical (h' := s.holder) hp hh g2 g3 (leq_joinl _ _) (.inl ⟨leq_joinr _ _, hh⟩)
      · exact .inl rfl
    | decided =>
      simp only
      obtain ⟨h1, h2, h3, h4, h5, h6⟩ := I.dec t hp
      rw [access_ok (fun a ha e _ => h6 a ha (.inl e))]
      simp only [Out.bind]
      have htask : ∀ a ∈ [(⟨.task, true, ⟨t, s.vc t t + 1⟩⟩ : Access)], Own v n s.data a ∧ a.stamp.le (tick s.vc t t) := by
        intro a ha
        simp only [List.mem_singleton] at ha
        subst ha
        exact ⟨.inl rfl, tick_stamp _ _⟩
      right
      split
      · obtain ⟨ls, b, k1, -, -, -, k2⟩ := I.dinv.exec h2 h1
        simp only [k1]
        obtain ⟨c, new, g1, g2, g3⟩ := accesses_ok (s := { s with vc := tick s.vc t, acc := ⟨.task, true, ⟨t, s.vc t t + 1⟩⟩ :: s.acc }) (t := t) (ls := ls) (by
          intro a ha y hy e1 e2
          rcases List.mem_cons.mp ha with rfl | ha
          · exact tick_stamp _ _
          · exact (h6 a ha (.inr ⟨ls, b, k1, y, hy, e1, e2⟩)).mono (leq_tick _ _ _))
        rw [g1]
        refine ⟨_, rfl, ?_⟩
        have := I.make hp (c := c) (new := new ++ [⟨.task, true, ⟨t, s.vc t t + 1⟩⟩]) (bg := [(b, c)]) (bz := true)
          ((leq_tick _ _ _).trans g2) (by
            intro a ha
            rcases List.mem_append.mp ha with ha | ha
            · exact ⟨.inr ⟨ls, b, k1, (g3 a ha).1⟩, (g3 a ha).2⟩
            · exact ⟨(htask a ha).1, (htask a ha).2.mono g2⟩) (.inr ⟨ls, b, k1, rfl⟩)
        simpa only [h3, tick, upd_upd, upd_same, List.nil_append, List.append_assoc, List.singleton_append] using this
      · refine ⟨_, rfl, ?_⟩
        have := I.make hp (new := [⟨.task, true, ⟨t, s.vc t t + 1⟩⟩]) (bg := s.begun) (bz := s.busy) (leq_tick s.vc t t) htask (.inl h3)
        simpa only [tick, upd_same, List.singleton_append] using this
    | making =>
      simp only
      right
      split
      · rename_i hh
        exact ⟨_, rfl, I.made' hp (.inl ⟨hh, rfl, rfl⟩)⟩
      · rename_i hh
        exact ⟨_, rfl, I.made' hp (.inr ⟨hh, rfl, rfl⟩)⟩
    | leaving => exact .inr ((I.leave hp).release (I.alive (by rw [hp]; simp)))
  | drop t =>
    simp only [step]
    split
    · rename_i h
      have hd : s.destroyed = false := by
        by_contra hd
        have := (I.gone (by rw [← Bool.not_eq_false]; exact hd)).2.1
        rw [h.1] at this; cases this
      refine .inr (Inv.release (s := { s with task := false }) ?_ hd)
      refine ⟨I.dinv, I.runIff, I.nodup, by simp [hd], I.know0, I.know, I.att, I.res, I.cont, I.inj, I.ent, I.hold, I.dec, I.made, I.accs, ?_⟩
      intro _ a ha
      rcases I.own hd a ha with g | g | g | ⟨u, g, -⟩
      · exact .inl g
      · exact .inr (.inl g)
      · exact .inr (.inr (.inl g))
      · cases g
    · exact .inl rfl

theorem Reachable.inv (h : Reachable v n s) : Inv v n none s := by
  induction h with
  | init => exact .init
  | step _ hs ih =>
    rename_i a _
    rcases inv_step ih a with g | ⟨s', g, I⟩
    · rw [g] at hs; cases hs
    · rw [g] at hs; cases hs; exact I

/-! ## C85 -/

/-- C85. No data race on the members of the context, its destruction included, and no undefined behaviour when the result is made, in all variants, for every number of arguments and in
every execution. -/
theorem c85_no_race (h : Reachable v n s) (a : Act) : step v n s a ≠ .race ∧ step v n s a ≠ .ub := by
  rcases inv_step h.inv a with g | ⟨s', g, -⟩ <;> rw [g] <;> simp

/-- C85. The result is made at most once, and the call of `when_all` or `when_any` happens before. -/
theorem c85_once (h : Reachable v n s) : s.begun.length ≤ 1 ∧ ∀ b c, (b, c) ∈ s.begun → Stamp.le ⟨0, 1⟩ c := by
  have I := h.inv
  by_cases hb : s.begun = []
  · simp [hb]
  · obtain ⟨-, -, -, h4, h5⟩ := I.made hb
    exact ⟨by omega, fun b c hm => (h5 _ hm).1⟩

/-- C85. `when_all`: all arguments got a result, and each of them happens before the call of the function; or some argument got an error, which happens before
the result is made. -/
theorem c85_when_all (h : Reachable v n s) (hv : v = .packAll ∨ v = .rangeAll) {b : Bool} {c : Clock} (hb : (b, c) ∈ s.begun) :
    (b = true → ∀ i, i < n → ∃ st, s.resolved i = some (true, st) ∧ st.le c) ∧
    (b = false → ∃ i st, i < n ∧ s.resolved i = some (false, st) ∧ st.le c) := by
  have I := h.inv
  have hv : v.all = true := by rcases hv with rfl | rfl <;> rfl
  obtain ⟨h1, h2, -, -, h5⟩ := I.made (List.ne_nil_of_mem hb)
  obtain ⟨-, ⟨ls, k1⟩, k2⟩ := h5 _ hb
  obtain ⟨ls', b', e1, e2, e3, -, -⟩ := I.dinv.exec h2 h1
  rw [k1] at e1
  simp only [Option.some.injEq, Prod.mk.injEq] at e1
  obtain ⟨-, rfl⟩ := e1
  have e3 := e3 hv
  constructor
  · intro hb' i hi
    have he := e3.1 hb'
    have hu : i ∈ uses v n s.data := by simp [uses, hv, he, hi]
    obtain ⟨ok, st, g1, g2⟩ := k2 i hu
    obtain ⟨y, hy, rfl⟩ := List.mem_map.mp (e2 i hu)
    have := (I.dinv.all hv).1 he y hy
    obtain ⟨-, st', g3, -⟩ := I.ent y hy
    rw [g1, this] at g3
    simp only [Option.some.injEq, Prod.mk.injEq] at g3
    exact ⟨st, by rw [g1, g3.1], g2⟩
  · intro hb'
    obtain ⟨i, hi⟩ := Option.ne_none_iff_exists'.mp (e3.2 hb')
    obtain ⟨ok, st, g1, g2⟩ := k2 i (by simp [uses, hv, hi])
    have hm := (I.dinv.all hv).2.2.2.2.1 i hi
    obtain ⟨-, st', g3, -⟩ := I.ent _ hm
    simp only at g3
    rw [g1] at g3
    simp only [Option.some.injEq, Prod.mk.injEq] at g3
    exact ⟨i, st, I.dinv.lt _ hm, by rw [g1, g3.1], g2⟩

/-- C85. `when_any`: the argument given to the function got a result, which happens before the call; or all arguments got errors, which happen before the result
is made. -/
theorem c85_when_any (h : Reachable v n s) (hv : v = .packAny ∨ v = .packAnyVoid ∨ v = .rangeAny) {b : Bool} {c : Clock} (hb : (b, c) ∈ s.begun) :
    (b = true → ∃ i st, i < n ∧ s.data.index = some i ∧ s.resolved i = some (true, st) ∧ st.le c) ∧
    (b = false → ∀ i, i < n → ∃ st, s.resolved i = some (false, st) ∧ st.le c) := by
  have I := h.inv
  have hv : v.all = false := by rcases hv with rfl | rfl | rfl <;> rfl
  obtain ⟨h1, h2, -, -, h5⟩ := I.made (List.ne_nil_of_mem hb)
  obtain ⟨-, ⟨ls, k1⟩, k2⟩ := h5 _ hb
  obtain ⟨ls', b', e1, e2, -, e3, -⟩ := I.dinv.exec h2 h1
  rw [k1] at e1
  simp only [Option.some.injEq, Prod.mk.injEq] at e1
  obtain ⟨-, rfl⟩ := e1
  have e3 := e3 hv
  constructor
  · intro hb'
    obtain ⟨i, hi⟩ := Option.ne_none_iff_exists'.mp (e3.1 hb')
    obtain ⟨ok, st, g1, g2⟩ := k2 i (by simp [uses, hv, hi])
    have hm := (I.dinv.any hv).2.2.1 i hi
    obtain ⟨-, st', g3, -⟩ := I.ent _ hm
    simp only at g3
    rw [g1] at g3
    simp only [Option.some.injEq, Prod.mk.injEq] at g3
    exact ⟨i, st, I.dinv.lt _ hm, hi, by rw [g1, g3.1], g2⟩
  · intro hb' i hi
    have he := e3.2 hb'
    have hu : i ∈ uses v n s.data := by simp [uses, hv, he, hi]
    obtain ⟨ok, st, g1, g2⟩ := k2 i hu
    obtain ⟨y, hy, rfl⟩ := List.mem_map.mp (e2 i hu)
    have := (I.dinv.any hv).2.1 he y hy
    obtain ⟨-, st', g3, -⟩ := I.ent y hy
    rw [g1, this] at g3
    simp only [Option.some.injEq, Prod.mk.injEq] at g3
    exact ⟨st, by rw [g1, g3.1], g2⟩

/-! Concrete runs. -/

/-- Perform the actions in turn. -/
def run (v : Variant) (n : Nat) : List Act → Option St
  | [] => some (init n)
  | a :: as => match run v n as with
    | some s => match step v n s a with
      | .ok s' => some s'
      | _ => none
    | none => none

theorem run_reachable {as : List Act} (h : run v n as = some s) : Reachable v n s := by
  induction as generalizing s with
  | nil => cases h; exact .init
  | cons a as ih =>
    simp only [run] at h
    split at h
    · rename_i s' hs
      split at h
      · rename_i s'' hs'
        cases h
        exact .step (ih hs) hs'
      · cases h
    · cases h

/-- Two arguments, resolved by threads 1 and 2, which also run the continuations; 2 is the last one (the actions are listed from last to first). -/
def two (ok : Bool) : List Act :=
  [.drop 2, .next 2, .next 2, .next 2, .next 2, .next 1, .next 1, .created, .hold 1, .hold 0, .start 2 1, .start 1 0, .attach 1, .attach 0, .resolve 2 1 ok, .resolve 1 0 ok]

example : ∃ s, run .packAll 2 (two true) = some s ∧ s.begun.map (·.1) = [true] ∧ s.destroyed = true := ⟨_, rfl, rfl, rfl⟩

example : ∃ s, run .rangeAll 2 (two true) = some s ∧ s.begun.map (·.1) = [true] ∧ s.destroyed = true := ⟨_, rfl, rfl, rfl⟩

example : ∃ s, run .packAny 2 (two false) = some s ∧ s.begun.map (·.1) = [false] ∧ s.destroyed = true := ⟨_, rfl, rfl, rfl⟩

example : ∃ s, run .packAnyVoid 2 (two false) = some s ∧ s.begun.map (·.1) = [false] ∧ s.destroyed = true := ⟨_, rfl, rfl, rfl⟩

example : ∃ s, run .rangeAny 2 (two false) = some s ∧ s.begun.map (·.1) = [false] ∧ s.destroyed = true := ⟨_, rfl, rfl, rfl⟩

/-- The first result or error decides: thread 1 makes the result, and thread 2 finds it made. -/
def first (ok : Bool) : List Act :=
  [.drop 1, .next 2, .next 2, .next 1, .next 1, .next 1, .next 1, .created, .hold 1, .hold 0, .start 2 1, .start 1 0, .attach 1, .attach 0, .resolve 2 1 (!ok), .resolve 1 0 ok]

example : ∃ s, run .packAll 2 (first false) = some s ∧ s.begun.map (·.1) = [false] ∧ s.destroyed = true := ⟨_, rfl, rfl, rfl⟩

example : ∃ s, run .rangeAll 2 (first false) = some s ∧ s.begun.map (·.1) = [false] ∧ s.destroyed = true := ⟨_, rfl, rfl, rfl⟩

example : ∃ s, run .packAny 2 (first true) = some s ∧ s.begun.map (·.1) = [true] ∧ s.data.index = some 0 := ⟨_, rfl, rfl, rfl⟩

example : ∃ s, run .rangeAny 2 (first true) = some s ∧ s.begun.map (·.1) = [true] ∧ s.data.index = some 0 := ⟨_, rfl, rfl, rfl⟩

/-- Without the lock the two threads race: the accesses of the second one are not ordered after those of the first. -/
example : ∃ s, run .packAll 2 [.start 2 1, .start 1 0, .created, .hold 1, .hold 0, .attach 1, .attach 0, .resolve 2 1 true, .resolve 1 0 true] = some s ∧
    (match accesses s 1 (sect .packAll 2 s.data 0 true).acc with
     | .ok s' => match accesses s' 2 (sect .packAll 2 s.data 1 true).acc with
       | .race => true
       | _ => false
     | _ => false) = true := ⟨_, rfl, rfl⟩

end Verif.Sync.When
