import Verif.Future.Handle

/-!
# C92: reading a future does not disturb the others
-/

namespace Verif.Handle

/-- Shared state `s` has outcome `o`. A value may have been moved out if every future that is left is spent. -/
def Fits (h : List H) (p : Nat) (s : Shared) : Oc → Prop
  | .pending => s = {}
  | .exc e => s = { exc := some e, ready := true }
  | .val n => s.ready = true ∧ s.exc = none ∧
      (s.result = some (.val n) ∨ s.result = some .moved ∧ ∀ x : Nat, h[x]? ≠ some (H.ref p))

/-- The relation between a program's futures and what they should be. -/
structure R (k : Kind) (W : World) (S : Spec) : Prop where
  h : W.h = S.h.map H.ptr
  len : W.sh.length = S.oc.length
  fits : ∀ p o s, S.oc[p]? = some o → W.sh[p]? = some s → Fits S.h p s o
  rng : ∀ (x : Nat) v p, S.h[x]? = some v → v.ptr = some p → p < S.oc.length
  inj : k = .moveOnly → ∀ (x y : Nat) v w p, S.h[x]? = some v → S.h[y]? = some w → v.ptr = some p → w.ptr = some p →
    x = y
  out : W.out = S.out

theorem R.get {k : Kind} {W : World} {S : Spec} (r : R k W S) (x : Nat) : W.h[x]? = (S.h[x]?).map H.ptr := by
  rw [r.h, List.getElem?_map]

theorem R.length {k : Kind} {W : World} {S : Spec} (r : R k W S) : W.h.length = S.h.length := by
  rw [r.h, List.length_map]

/-- Two places, two occurrences. -/
theorem two_le_count {l : List (Option Nat)} {a : Option Nat} : ∀ {x y : Nat}, x < y → l[x]? = some a → l[y]? = some a →
    2 ≤ l.count a := by
  induction l with
  | nil => intro x y _ hx; simp at hx
  | cons b l ih =>
    intro x y hxy hx hy
    cases y with
    | zero => omega
    | succ y =>
      cases x with
      | zero =>
        simp at hx hy
        have : a ∈ l := List.mem_of_getElem? hy
        have := List.count_pos_iff.2 this
        rw [hx, List.count_cons_self]; omega
      | succ x =>
        have := ih (x := x) (y := y) (by omega) (by simpa using hx) (by simpa using hy)
        rw [List.count_cons]; omega

/-- If the use count is one, no other future refers to the shared state. -/
theorem R.alone {k : Kind} {W : World} {S : Spec} (r : R k W S) {x y p : Nat} {v w : H} (hu : unique W p = true)
    (hx : S.h[x]? = some v) (hy : S.h[y]? = some w) (hv : v.ptr = some p) (hw : w.ptr = some p) : y = x := by
  have ex : W.h[x]? = some (some p) := by rw [r.get, hx]; simp [hv]
  have ey : W.h[y]? = some (some p) := by rw [r.get, hy]; simp [hw]
  have hc : W.h.count (some p) = 1 := by simpa [unique, useCount] using hu
  rcases Nat.lt_trichotomy x y with h | h | h
  · have := two_le_count h ex ey; omega
  · exact h.symm
  · have := two_le_count h ey ex; omega

/-- Only the futures change. -/
theorem R.handles {k : Kind} {W : World} {S : Spec} (r : R k W S) {hw : List (Option Nat)} {hs : List H}
    (e : hw = hs.map H.ptr)
    (href : ∀ (x : Nat) p, hs[x]? = some (.ref p) → ∃ y : Nat, S.h[y]? = some (.ref p))
    (hptr : ∀ (x : Nat) v p, hs[x]? = some v → v.ptr = some p → ∃ (y : Nat) (w : H), S.h[y]? = some w ∧ w.ptr = some p)
    (hinj : k = .moveOnly → ∀ (x y : Nat) v w p, hs[x]? = some v → hs[y]? = some w → v.ptr = some p → w.ptr = some p →
      x = y) :
    R k { W with h := hw } { S with h := hs } := by
  refine ⟨e, r.len, fun p o s ho hs' => ?_, fun x v p hx hp => ?_, hinj, r.out⟩
  · have := r.fits p o s ho hs'
    cases o with
    | pending => exact this
    | exc => exact this
    | val n =>
      obtain ⟨h1, h2, h3⟩ := this
      refine ⟨h1, h2, h3.imp id fun ⟨h4, h5⟩ => ⟨h4, fun x hx => ?_⟩⟩
      obtain ⟨y, hy⟩ := href x p hx
      exact h5 y hy
  · obtain ⟨y, w, hy, hw⟩ := hptr x v p hx hp
    exact r.rng y w p hy hw

theorem R.say {k : Kind} {W : World} {S : Spec} (r : R k W S) (o : Out) : R k (emit W o) (say S o) :=
  ⟨r.h, r.len, r.fits, r.rng, r.inj, by simp [emit, Handle.say, r.out]⟩

/-- A new shared state. -/
theorem R.make {k : Kind} {W : World} {S S' : Spec} (r : R k W S) {x : Nat} {s : Shared} {o : Oc}
    (hf : ∀ h p, Fits h p s o) (hs : specMake S x o = some S') :
    ∃ W', Handle.make W x s = some W' ∧ R k W' S' := by
  simp only [specMake] at hs
  split at hs <;> cases hs
  rename_i hx
  refine ⟨_, by simp only [Handle.make, r.length, hx, if_true]; rfl, ?_⟩
  have key : ∀ (y : Nat) v, (S.h.set x (.ref S.oc.length))[y]? = some v →
      (y = x ∧ v = .ref S.oc.length) ∨ (y ≠ x ∧ S.h[y]? = some v) := by
    intro y v hy
    rw [List.getElem?_set] at hy
    split at hy
    · rename_i e; subst e; simp at hy; exact Or.inl ⟨rfl, hy.symm⟩
    · rename_i e; exact Or.inr ⟨fun h => e h.symm, hy⟩
  constructor
  · simp [List.map_set, r.h, r.len, H.ptr]
  · simp [r.len]
  · intro p o' s' ho hs'
    rw [List.getElem?_append] at ho hs'
    rw [r.len] at hs'
    split at ho
    · rename_i hp
      rw [if_pos hp] at hs'
      have := r.fits p o' s' ho hs'
      cases o' with
      | pending => exact this
      | exc => exact this
      | val n =>
        obtain ⟨h1, h2, h3⟩ := this
        refine ⟨h1, h2, h3.imp id fun ⟨h4, h5⟩ => ⟨h4, fun y hy => ?_⟩⟩
        rcases key y _ hy with ⟨-, e⟩ | ⟨-, e⟩
        · cases e; omega
        · exact h5 y e
    · rename_i hp
      rw [if_neg hp] at hs'
      have : p - S.oc.length = 0 := by
        have := (List.getElem?_eq_some_iff.1 ho).1
        simp at this; omega
      rw [this] at ho hs'
      simp at ho hs'
      subst ho; subst hs'
      exact hf _ _
  · intro y v p hy hp
    rcases key y v hy with ⟨-, rfl⟩ | ⟨-, e⟩
    · simp [H.ptr] at hp; subst hp; simp
    · have := r.rng y v p e hp; simp; omega
  · intro hk y z v w p hy hz hv hw
    rcases key y v hy with ⟨h1, rfl⟩ | ⟨h1, e1⟩ <;> rcases key z w hz with ⟨h2, rfl⟩ | ⟨h2, e2⟩
    · omega
    · have := r.rng z w p e2 hw; simp [H.ptr] at hv; omega
    · have := r.rng y v p e1 hv; simp [H.ptr] at hw; omega
    · exact r.inj hk y z v w p e1 e2 hv hw
  · exact r.out

/-- A shared state is resolved. -/
theorem R.resolve {k : Kind} {W : World} {S : Spec} (r : R k W S) {p : Nat} {s : Shared} {o : Oc}
    (hf : Fits S.h p s o) :
    R k { W with sh := W.sh.set p s } { S with oc := S.oc.set p o } := by
  refine ⟨r.h, by simp [r.len], fun q o' s' ho hs' => ?_, fun x v q hx hq => ?_, r.inj, r.out⟩
  · simp only [List.getElem?_set, r.len] at ho hs'
    split at ho
    · rename_i e; subst e
      rw [if_pos rfl] at hs'
      split at ho <;> cases ho; rename_i hl
      rw [if_pos hl] at hs'; cases hs'
      exact hf
    · rename_i e; rw [if_neg e] at hs'; exact r.fits q o' s' ho hs'
  · simpa using r.rng x v q hx hq

theorem R.pending {k : Kind} {W : World} {S : Spec} (r : R k W S) {p : Nat} {o : Oc} (ho : S.oc[p]? = some o) :
    ∃ s, W.sh[p]? = some s ∧ Fits S.h p s o := by
  have hl : p < W.sh.length := by rw [r.len]; exact (List.getElem?_eq_some_iff.1 ho).1
  exact ⟨W.sh[p], by simp [hl], r.fits p o _ ho (by simp [hl])⟩

/-- Looking at a future that is not spent. -/
theorem R.ref {k : Kind} {W : World} {S : Spec} (r : R k W S) {x p : Nat} {o : Oc} (h : specRef S x = some (p, o)) :
    S.h[x]? = some (.ref p) ∧ S.oc[p]? = some o ∧ ∃ s, deref W x = some (p, s) ∧ W.sh[p]? = some s ∧ Fits S.h p s o := by
  simp only [specRef] at h
  split at h
  · rename_i q hq
    cases ho : S.oc[q]? with
    | none => rw [ho] at h; simp at h
    | some o' =>
      rw [ho] at h; simp at h; obtain ⟨rfl, rfl⟩ := h
      obtain ⟨s, hs, hf⟩ := r.pending ho
      refine ⟨hq, ho, s, ?_, hs, hf⟩
      simp [deref, r.get, hq, H.ptr, hs]
  · cases h

theorem set_same {α : Type} {l : List α} {i : Nat} {a : α} (h : l[i]? = some a) : l.set i a = l := by
  obtain ⟨hi, rfl⟩ := List.getElem?_eq_some_iff.1 h
  simp

/-- Nothing is changed by a reading that leaves the shared state as it is. -/
theorem R.seen {k : Kind} {W : World} {S : Spec} (r : R k W S) {p : Nat} {s : Shared} (hs : W.sh[p]? = some s) (o : Out) :
    R k (emit { W with sh := W.sh.set p s } o) (Handle.say S o) := by
  rw [set_same hs]; exact r.say o

/-- A value is moved out, and the only future that was left is spent or emptied. -/
theorem R.movedOut {k : Kind} {W : World} {S : Spec} (r : R k W S) {x p n : Nat} {s' : Shared} {v : H}
    (hx : S.h[x]? = some (.ref p)) (ho : S.oc[p]? = some (.val n))
    (hs' : s'.ready = true ∧ s'.exc = none ∧ (s'.result = some (.val n) ∨ s'.result = some .moved))
    (hal : s'.result = some .moved → ∀ (y : Nat) w, S.h[y]? = some w → w.ptr = some p → y = x)
    (hv : v = .spent p ∨ v = .empty) :
    R k { W with h := W.h.set x v.ptr, sh := W.sh.set p s' } { S with h := S.h.set x v } := by
  have key : ∀ (y : Nat) w, (S.h.set x v)[y]? = some w → (y = x ∧ w = v) ∨ (y ≠ x ∧ S.h[y]? = some w) := by
    intro y w hy
    rw [List.getElem?_set] at hy
    split at hy
    · rename_i e; subst e
      split at hy <;> cases hy
      exact Or.inl ⟨rfl, rfl⟩
    · rename_i e; exact Or.inr ⟨fun h => e h.symm, hy⟩
  have hp := (List.getElem?_eq_some_iff.1 ho).1
  constructor
  · simp [List.map_set, r.h]
  · simp [r.len]
  · intro q o' t ho' ht
    change S.oc[q]? = some o' at ho'
    change (W.sh.set p s')[q]? = some t at ht
    rw [List.getElem?_set] at ht
    split at ht
    · rename_i e; subst e
      rw [ho] at ho'; cases ho'
      split at ht <;> cases ht
      obtain ⟨h1, h2, h3⟩ := hs'
      refine ⟨h1, h2, h3.imp id fun h4 => ⟨h4, fun y hy => ?_⟩⟩
      rcases key y _ hy with ⟨-, e⟩ | ⟨h5, e⟩
      · rcases hv with rfl | rfl <;> cases e
      · exact h5 (hal h4 y _ e rfl)
    · have := r.fits q o' t ho' ht
      cases o' with
      | pending => exact this
      | exc => exact this
      | val m =>
        obtain ⟨h1, h2, h3⟩ := this
        refine ⟨h1, h2, h3.imp id fun ⟨h4, h5⟩ => ⟨h4, fun y hy => ?_⟩⟩
        rcases key y _ hy with ⟨-, e⟩ | ⟨-, e⟩
        · rcases hv with rfl | rfl <;> cases e
        · exact h5 y e
  · intro y w q hy hq
    rcases key y w hy with ⟨-, rfl⟩ | ⟨-, e⟩
    · rcases hv with rfl | rfl <;> simp [H.ptr] at hq
      subst hq; exact hp
    · exact r.rng y w q e hq
  · intro hk y z w u q hy hz hw hu
    have aux : ∀ (z : Nat) u, z ≠ x → S.h[z]? = some u → u.ptr = some q → v.ptr = some q → False := by
      intro a b ha e he hvq
      rcases hv with rfl | rfl <;> simp [H.ptr] at hvq
      subst hvq
      exact ha (r.inj hk a x b (.ref p) p e hx he rfl)
    rcases key y w hy with ⟨h1, rfl⟩ | ⟨h1, e1⟩ <;> rcases key z u hz with ⟨h2, rfl⟩ | ⟨h2, e2⟩
    · omega
    · exact (aux z u h2 e2 hu hw).elim
    · exact (aux y w h1 e1 hw hu).elim
    · exact r.inj hk y z w u q e1 e2 hw hu
  · exact r.out

/-- The shared state that an outcome has as long as it has not been moved out. -/
def sharedOf : Oc → Shared
  | .pending => {}
  | .val n => { result := some (.val n), ready := true }
  | .exc e => { exc := some e, ready := true }

theorem Fits.ref {h : List H} {x p : Nat} {s : Shared} {o : Oc} (f : Fits h p s o) (hx : h[x]? = some (.ref p)) :
    s = sharedOf o := by
  cases o with
  | pending => exact f
  | exc => exact f
  | val n =>
    obtain ⟨h1, h2, h3⟩ := f
    rcases h3 with h3 | ⟨-, h3⟩
    · cases s; simp_all [sharedOf]
    · exact (h3 x hx).elim

theorem Fits.ready {h : List H} {p : Nat} {s : Shared} {o : Oc} (f : Fits h p s o) :
    s.ready = decide (o ≠ .pending) := by
  cases o with
  | pending => cases f; rfl
  | exc => cases f; simp
  | val n => simp [f.1]

/-- Reading a value from `x`, which gives it up. -/
theorem R.taken {k : Kind} {W : World} {S : Spec} (r : R k W S) {x p n : Nat} (u : Bool)
    (hx : S.h[x]? = some (.ref p)) (ho : S.oc[p]? = some (.val n))
    (hu : u = true → k = .moveOnly ∨ unique W p = true) (v : H) (hv : v = .spent p ∨ v = .empty) :
    R k { W with h := W.h.set x v.ptr,
                 sh := W.sh.set p (if u then { sharedOf (.val n) with result := some .moved } else sharedOf (.val n)) }
      { S with h := S.h.set x v } := by
  refine r.movedOut hx ho ?_ ?_ hv
  · cases u <;> simp [sharedOf]
  · intro hm y w hy hw
    have : u = true := by cases u <;> simp [sharedOf] at hm ⊢
    rcases hu this with h | h
    · exact r.inj h y x w (.ref p) p hy hx hw rfl
    · exact r.alone h hx hy rfl hw

theorem map_ptr_same {l : List H} {x : Nat} {v w : H} (h : l[x]? = some v) (e : w.ptr = v.ptr) :
    (l.map H.ptr).set x w.ptr = l.map H.ptr := by
  apply set_same; simp [h, e]

/-- `get_try` and `get_ready` of a future that is given up. -/
theorem R.takenSpent {k : Kind} {W : World} {S : Spec} (r : R k W S) {x p n : Nat} (u : Bool)
    (hx : S.h[x]? = some (.ref p)) (ho : S.oc[p]? = some (.val n))
    (hu : u = true → k = .moveOnly ∨ unique W p = true) (o : Out) :
    R k (emit { W with
          sh := W.sh.set p (if u then { sharedOf (.val n) with result := some .moved } else sharedOf (.val n)) } o)
      (Handle.say { S with h := S.h.set x (.spent p) } o) := by
  have := (r.taken u hx ho hu (.spent p) (Or.inl rfl)).say o
  have e : W.h.set x (H.spent p).ptr = W.h := by rw [r.h]; exact map_ptr_same hx rfl
  rw [e] at this; exact this

theorem getReadyR_val (k : Kind) (u : Bool) (n : Nat) : getReadyR k u (sharedOf (.val n)) =
    some (.ok (.val n), if decide (k = .moveOnly ∨ u = true) then
      { sharedOf (.val n) with result := some .moved } else sharedOf (.val n)) := by
  by_cases h : k = .moveOnly ∨ u = true <;> simp [getReadyR, getReady, sharedOf, h]

theorem getReadyR_exc (k : Kind) (u : Bool) (e : Nat) : getReadyR k u (sharedOf (.exc e)) =
    some (.error e, sharedOf (.exc e)) := by
  by_cases h : k = .moveOnly ∨ u = true <;> simp [getReadyR, getReady, sharedOf, h]

theorem getTryR_val (k : Kind) (u : Bool) (n : Nat) : getTryR k u (sharedOf (.val n)) =
    some (.ok (some (.val n)), if decide (k = .moveOnly ∨ u = true) then
      { sharedOf (.val n) with result := some .moved } else sharedOf (.val n)) := by
  by_cases h : k = .moveOnly ∨ u = true
  · simp [getTryR, sharedOf, h]
  · have h1 : k ≠ .moveOnly := fun e => h (Or.inl e)
    have h2 : u = false := by cases u <;> simp_all
    simp [getTryR, getTry, sharedOf, h1, h2]

theorem getTryR_exc (k : Kind) (u : Bool) (e : Nat) : getTryR k u (sharedOf (.exc e)) =
    some (.error e, sharedOf (.exc e)) := by
  by_cases h : k = .moveOnly ∨ u = true <;> simp [getTryR, getTry, sharedOf, h]

theorem getTryR_pending (k : Kind) (u : Bool) : getTryR k u (sharedOf .pending) =
    some (.ok none, sharedOf .pending) := by
  by_cases h : k = .moveOnly ∨ u = true <;> simp [getTryR, getTry, sharedOf, h]

theorem getTry_eq (k : Kind) (s : Shared) : getTry k s = getTryR k false s := by
  by_cases h : k = .moveOnly <;> simp [getTryR, getTry, h]

theorem optOut_eq {k : Kind} (hk : k ≠ .mono) (v : Option Nat) :
    optOut k (v.map .val) = tryOut k (match v with | none => .pending | some n => .val n) := by
  by_cases h : k = .void
  · cases v <;> simp [optOut, tryOut, h]
  · cases v <;> simp [optOut, tryOut, h, hk]

/-- `get_try`, in both ways: `u`, the value is moved out. -/
theorem R.try_ {k : Kind} (hk : k ≠ .mono) {W : World} {S : Spec} (r : R k W S) {x p : Nat} {o : Oc} (u : Bool)
    (hr : specRef S x = some (p, o)) (hu : u = true → unique W p = true) :
    ∃ s, deref W x = some (p, s) ∧
      (∃ W', show_ W p (optOut k) (getTryR k u s) = some W' ∧ R k W' (Handle.say (spend S x p o) (tryOut k o))) ∧
      (k ≠ .moveOnly → u = false →
        ∃ W', show_ W p (optOut k) (getTryR k u s) = some W' ∧ R k W' (Handle.say S (tryOut k o))) := by
  obtain ⟨hx, ho, s, hd, hs, hf⟩ := r.ref hr
  have e := hf.ref hx
  subst e
  refine ⟨_, hd, ?_, ?_⟩
  · cases o with
    | pending =>
      rw [getTryR_pending]
      refine ⟨_, rfl, ?_⟩
      rw [show optOut k none = tryOut k .pending from optOut_eq hk none]
      exact r.seen hs _
    | exc e => rw [getTryR_exc]; exact ⟨_, rfl, r.seen hs _⟩
    | val n =>
      rw [getTryR_val]
      refine ⟨_, rfl, ?_⟩
      rw [show optOut k (some (.val n)) = tryOut k (.val n) from optOut_eq hk (some n)]
      exact r.takenSpent _ hx ho (fun h => (of_decide_eq_true h).imp id hu) _
  · intro hm hu'
    subst hu'
    cases o with
    | pending =>
      rw [getTryR_pending]
      refine ⟨_, rfl, ?_⟩
      rw [show optOut k none = tryOut k .pending from optOut_eq hk none]
      exact r.seen hs _
    | exc e => rw [getTryR_exc]; exact ⟨_, rfl, r.seen hs _⟩
    | val n =>
      rw [getTryR_val]
      refine ⟨_, rfl, ?_⟩
      rw [show optOut k (some (.val n)) = tryOut k (.val n) from optOut_eq hk (some n)]
      simp only [hm, false_or, Bool.false_eq_true, decide_false, if_false]
      exact r.seen hs _

theorem ptr_empty : H.ptr .empty = none := rfl

theorem R.run {k : Kind} (hk : k ≠ .mono) {W : World} {S S' : Spec} (r : R k W S) {a : Op}
    (hs : specRun k S a = some S') : ∃ W', Handle.run k W a = some W' ∧ R k W' S' := by
  cases a with
  | make x => exact r.make (o := .pending) (fun _ _ => rfl) hs
  | makeReady x n => exact r.make (o := .val n) (fun _ _ => ⟨rfl, rfl, Or.inl rfl⟩) hs
  | makeExc x e =>
    cases e with
    | none => cases hs
    | some e => exact r.make (o := .exc e) (fun _ _ => rfl) hs
  | resolve p n =>
    simp only [specRun] at hs; split at hs <;> cases hs; rename_i ho
    obtain ⟨s, h1, hf⟩ := r.pending ho
    cases hf
    exact ⟨_, by simp only [Handle.run, h1]; rfl, r.resolve ⟨rfl, rfl, Or.inl rfl⟩⟩
  | fail p e =>
    simp only [specRun] at hs; split at hs <;> cases hs; rename_i ho
    obtain ⟨s, h1, hf⟩ := r.pending ho
    cases hf
    exact ⟨_, by simp only [Handle.run, h1], r.resolve rfl⟩
  | copy x y =>
    simp only [specRun] at hs; split at hs <;> try cases hs
    rename_i v hv
    split at hs <;> cases hs; rename_i hc
    refine ⟨_, by simp only [Handle.run, hc.1, if_false, copy, r.get, hv, Option.map_some, r.length, hc.2, if_true]; rfl, ?_⟩
    refine r.handles (by simp [r.h, List.map_set]) (fun z p hz => ?_) (fun z w p hz hw => ?_) (fun h => (hc.1 h).elim)
    · rw [List.getElem?_set] at hz; split at hz
      · rename_i e; subst e; simp [hc.2] at hz; subst hz; exact ⟨y, hv⟩
      · exact ⟨z, hz⟩
    · rw [List.getElem?_set] at hz; split at hz
      · rename_i e; subst e; simp [hc.2] at hz; subst hz; exact ⟨y, _, hv, hw⟩
      · exact ⟨z, _, hz, hw⟩
  | move x y =>
    simp only [specRun] at hs; split at hs <;> try cases hs
    rename_i v hv
    split at hs <;> cases hs; rename_i hc
    refine ⟨_, by simp only [Handle.run, move, r.get, hv, Option.map_some, r.length, hc, if_true]; rfl, ?_⟩
    have hyl := (List.getElem?_eq_some_iff.1 hv).1
    by_cases hxy : x = y
    · subst hxy
      rw [if_pos rfl]
      refine r.handles ?_ (fun z p hz => ⟨z, hz⟩) (fun z w p hz hw => ⟨z, w, hz, hw⟩) r.inj
      rw [r.h, List.set_set]; exact map_ptr_same hv rfl
    · rw [if_neg hxy]
      have key : ∀ (z : Nat) w, ((S.h.set x v).set y .empty)[z]? = some w →
          (z = y ∧ w = .empty) ∨ (z = x ∧ w = v) ∨ (z ≠ x ∧ z ≠ y ∧ S.h[z]? = some w) := by
        intro z w hz
        simp only [List.getElem?_set, List.length_set] at hz
        grind
      refine r.handles ?_ (fun z p hz => ?_) (fun z w p hz hw => ?_) (fun hm a b va vb p ha hb hva hvb => ?_)
      · rw [r.h, List.set_comm _ _ hxy]; simp [List.map_set, ptr_empty]
      · rcases key z _ hz with ⟨-, h⟩ | ⟨-, h⟩ | ⟨-, -, h⟩
        · cases h
        · subst h; exact ⟨y, hv⟩
        · exact ⟨z, h⟩
      · rcases key z _ hz with ⟨-, h⟩ | ⟨-, h⟩ | ⟨-, -, h⟩
        · subst h; cases hw
        · subst h; exact ⟨y, _, hv, hw⟩
        · exact ⟨z, _, h, hw⟩
      · have := r.inj hm
        rcases key a _ ha with ⟨h1, h⟩ | ⟨h1, h⟩ | ⟨h1, h1', h⟩ <;> rcases key b _ hb with ⟨h2, h'⟩ | ⟨h2, h'⟩ | ⟨h2, h2', h'⟩ <;>
          (try subst h) <;> (try subst h') <;> (try cases hva; done) <;> (try cases hvb; done)
        · omega
        · exact (h2' (this _ _ _ _ p h' hv hvb hva)).elim
        · exact (h1' (this _ _ _ _ p h hv hva hvb)).elim
        · exact this _ _ _ _ p h h' hva hvb
  | swap x y =>
    simp only [specRun] at hs; split at hs <;> try cases hs
    rename_i v w hv hw
    refine ⟨_, by simp only [Handle.run, swap, r.get, hv, hw, Option.map_some]; rfl, ?_⟩
    have hxl := (List.getElem?_eq_some_iff.1 hv).1
    have hyl := (List.getElem?_eq_some_iff.1 hw).1
    have key : ∀ (z : Nat) u, ((S.h.set x w).set y v)[z]? = some u →
        S.h[if z = y then x else if z = x then y else z]? = some u := by
      intro z u hz
      simp only [List.getElem?_set, List.length_set] at hz
      grind
    refine r.handles (by simp [r.h, List.map_set]) (fun z p hz => ⟨_, key z _ hz⟩)
      (fun z u p hz hu => ⟨_, _, key z _ hz, hu⟩) (fun hm a b va vb p ha hb hva hvb => ?_)
    have := r.inj hm _ _ _ _ p (key a _ ha) (key b _ hb) hva hvb
    grind
  | reset x =>
    simp only [specRun] at hs; split at hs <;> cases hs; rename_i hc
    refine ⟨_, by simp only [Handle.run, reset, r.length, hc, if_true]; rfl, ?_⟩
    have key : ∀ (z : Nat) w, (S.h.set x .empty)[z]? = some w → w = .empty ∨ S.h[z]? = some w := by
      intro z w hz; rw [List.getElem?_set] at hz; grind
    refine r.handles (by simp [r.h, List.map_set, ptr_empty]) (fun z p hz => ?_) (fun z w p hz hw => ?_)
      (fun hm a b va vb p ha hb hva hvb => ?_)
    · rcases key z _ hz with h | h
      · cases h
      · exact ⟨z, h⟩
    · rcases key z _ hz with h | h
      · subst h; cases hw
      · exact ⟨z, _, h, hw⟩
    · rcases key a _ ha with h | h
      · subst h; cases hva
      · rcases key b _ hb with h' | h'
        · subst h'; cases hvb
        · exact r.inj hm _ _ _ _ p h h' hva hvb
  | valid x =>
    simp only [specRun] at hs
    cases hv : S.h[x]? with
    | none => rw [hv] at hs; cases hs
    | some v =>
      rw [hv] at hs; cases hs
      refine ⟨_, by simp only [Handle.run, r.get, hv, Option.map_some]; rfl, ?_⟩
      have : v.ptr.isSome = decide (v ≠ .empty) := by cases v <;> simp [H.ptr]
      rw [this]; exact r.say _
  | eq x y =>
    simp only [specRun] at hs; split at hs <;> cases hs
    rename_i v w hv hw
    refine ⟨_, by simp only [Handle.run, r.get, hv, hw, Option.map_some]; rfl, ?_⟩
    have : (v.ptr == w.ptr) = decide (v.ptr = w.ptr) := by rw [Bool.eq_iff_iff]; simp
    rw [this]; exact r.say _
  | isReady x =>
    simp only [specRun] at hs; split at hs <;> try cases hs
    rename_i v hv
    split at hs
    · rename_i hp; cases hs
      exact ⟨_, by simp only [Handle.run, r.get, hv, Option.map_some, hp], r.say _⟩
    · rename_i p hp
      cases ho : S.oc[p]? with
      | none => rw [ho] at hs; cases hs
      | some o =>
        rw [ho] at hs; cases hs
        obtain ⟨s, h1, hf⟩ := r.pending ho
        refine ⟨_, by simp only [Handle.run, r.get, hv, Option.map_some, hp, h1]; rfl, ?_⟩
        rw [hf.ready]; exact r.say _
  | getTry x =>
    simp only [specRun] at hs
    cases hr : specRef S x with
    | none => rw [hr] at hs; cases hs
    | some po =>
      obtain ⟨p, o⟩ := po
      rw [hr] at hs; cases hs
      obtain ⟨s, hd, ⟨W1, h1, r1⟩, h2⟩ := r.try_ hk false hr (by simp)
      simp only [Handle.run, hd, getTry_eq]
      by_cases hm : k = .moveOnly
      · simp only [hm, if_true] at *; exact ⟨W1, h1, r1⟩
      · simp only [hm, if_false]; exact h2 hm rfl
  | getTryR x =>
    simp only [specRun] at hs
    cases hr : specRef S x with
    | none => rw [hr] at hs; cases hs
    | some po =>
      obtain ⟨p, o⟩ := po
      rw [hr] at hs; cases hs
      obtain ⟨s, hd, h1, -⟩ := r.try_ hk (unique W p) hr id
      simp only [Handle.run, hd]
      exact h1
  | getReady x =>
    simp only [specRun] at hs; split at hs <;> try cases hs
    rename_i hm
    have hm1 : k ≠ .moveOnly := fun h => hm (Or.inl h)
    have hm2 : k ≠ .void := fun h => hm (Or.inr h)
    split at hs <;> cases hs <;> rename_i hr <;> obtain ⟨hx, ho, s, hd, hs, hf⟩ := r.ref hr <;> have e := hf.ref hx <;>
      subst e
    · refine ⟨_, by simp only [Handle.run, hd, hm1, if_false]; rfl, ?_⟩
      simp only [readyOut, valueOut, hm2, hk, or_self, if_false]
      exact r.seen hs _
    · exact ⟨_, by simp only [Handle.run, hd, hm1, if_false]; rfl, r.seen hs _⟩
  | getReadyR x =>
    simp only [specRun] at hs
    split at hs <;> cases hs <;> rename_i hr <;> obtain ⟨hx, ho, s, hd, hs, hf⟩ := r.ref hr <;> have e := hf.ref hx <;>
      subst e
    · refine ⟨_, by simp only [Handle.run, hd, getReadyR_val]; rfl, ?_⟩
      have e : ∀ n, readyOut k false (.val n) = valueOut k n := by
        intro n; by_cases h : k = .void <;> simp [readyOut, valueOut, h, hk]
      rw [e]
      exact r.takenSpent _ hx ho (fun h => of_decide_eq_true h) _
    · exact ⟨_, by simp only [Handle.run, hd, getReadyR_exc]; rfl, r.seen hs _⟩
  | exception x =>
    simp only [specRun] at hs; split at hs <;> try cases hs
    rename_i v hv
    split at hs <;> try cases hs
    rename_i p hp
    split at hs <;> cases hs <;> rename_i ho <;> obtain ⟨s, h1, hf⟩ := r.pending ho
    · refine ⟨_, by simp only [Handle.run, deref, r.get, hv, Option.map_some, hp, h1, hf.1, if_true, hf.2.1], r.say _⟩
    · cases hf
      refine ⟨_, by simp only [Handle.run, deref, r.get, hv, Option.map_some, hp, h1, if_true], r.say _⟩
  | then_ x =>
    simp only [specRun] at hs; split at hs <;> try cases hs
    rename_i hm1
    split at hs <;> cases hs <;> rename_i hr <;> obtain ⟨hx, ho, s, hd, hs, hf⟩ := r.ref hr <;> have e := hf.ref hx <;>
      subst e
    · rename_i p n
      have hc : (useCount W p + 1 == 1) = false := by
        have : some p ∈ W.h := List.mem_of_getElem? (i := x) (by rw [r.get, hx]; rfl)
        have := List.count_pos_iff.2 this
        simp [useCount]; omega
      refine ⟨_, by simp only [Handle.run, hd, hm1, if_false, getReadyR_val, hc]; rfl, ?_⟩
      have e : args k (.val n) = valueArgs k n := by
        by_cases h : k = .void <;> simp [args, valueArgs, h, hk]
      simp only [e, false_or, Bool.false_eq_true, decide_false, if_false]
      exact r.seen hs _
    · exact ⟨_, by simp only [Handle.run, hd, hm1, if_false, getReadyR_exc]; rfl, r.seen hs _⟩
  | thenR x =>
    simp only [specRun] at hs
    split at hs <;> cases hs <;> rename_i hr <;> obtain ⟨hx, ho, s, hd, hs, hf⟩ := r.ref hr <;> have e := hf.ref hx <;>
      subst e
    · rename_i p n
      refine ⟨_, by simp only [Handle.run, hd, getReadyR_val]; rfl, ?_⟩
      have e : args k (.val n) = valueArgs k n := by
        by_cases h : k = .void <;> simp [args, valueArgs, h, hk]
      rw [← e]
      exact (r.taken _ hx ho (fun h => of_decide_eq_true h) .empty (Or.inr rfl)).say _
    · refine ⟨_, by simp only [Handle.run, hd, getReadyR_exc]; rfl, ?_⟩
      rw [set_same hs]
      have key : ∀ (z : Nat) w, (S.h.set x .empty)[z]? = some w → w = .empty ∨ S.h[z]? = some w := by
        intro z w hz; rw [List.getElem?_set] at hz; grind
      refine R.say (W := { W with h := W.h.set x none }) (r.handles (by simp [r.h, List.map_set, ptr_empty])
        (fun z p hz => ?_) (fun z w p hz hw => ?_) (fun hm a b va vb p ha hb hva hvb => ?_)) _
      · rcases key z _ hz with h | h
        · cases h
        · exact ⟨z, h⟩
      · rcases key z _ hz with h | h
        · subst h; cases hw
        · exact ⟨z, _, h, hw⟩
      · rcases key a _ ha with h | h
        · subst h; cases hva
        · rcases key b _ hb with h' | h'
          · subst h'; cases hvb
          · exact r.inj hm _ _ _ _ p h h' hva hvb

theorem R.exec {k : Kind} (hk : k ≠ .mono) {W : World} {S S' : Spec} (r : R k W S) {as : List Op}
    (hs : specExec k S as = some S') : ∃ W', Handle.exec k W as = some W' ∧ R k W' S' := by
  induction as generalizing W S with
  | nil => cases hs; exact ⟨W, rfl, r⟩
  | cons a as ih =>
    simp only [specExec] at hs
    cases ha : specRun k S a with
    | none => rw [ha] at hs; cases hs
    | some S1 =>
      rw [ha] at hs
      obtain ⟨W1, h1, r1⟩ := r.run hk ha
      simp only [Handle.exec, h1]
      exact ih r1 hs

theorem R.init (k : Kind) (n : Nat) : R k { h := List.replicate n none } { h := List.replicate n .empty } := by
  refine ⟨by simp [H.ptr], rfl, fun p o s h => by simp at h, fun x v p hx hp => ?_, fun _ x y v w p hx _ hp => ?_, rfl⟩ <;>
  · rw [List.getElem?_replicate] at hx
    split at hx <;> cases hx
    cases hp

/-- Every allowed history of any number of futures: what the program sees of a future is the outcome of the shared state it
refers to, however the other futures have been read, given up, copied, moved and reset; nothing undefined
happens. In particular a value is moved out of a shared state only if no future is left that could still be read, and
copies made before are not affected.

Missing: results of type `std::monostate` (`c92_monostate_counterexample`), `get_ready` without `std::move` for `void`
(`c92_void_counterexample`), reading twice without `std::move` a result that can only be moved
(`c92_move_only_counterexample`), null exceptions (`c92_null_exception_counterexample`), and reading again what has been
read with `std::move`. -/
theorem c92_handles_partial (k : Kind) (hk : k ≠ .mono) (n : Nat) (as : List Op) (S : Spec)
    (hs : specExec k { h := List.replicate n .empty } as = some S) :
    ∃ W, exec k { h := List.replicate n none } as = some W ∧ W.out = S.out ∧ W.h = S.h.map H.ptr := by
  obtain ⟨W, h1, r⟩ := (R.init k n).exec hk hs
  exact ⟨W, h1, r.out, r.h⟩

/-- After any allowed history, if two futures refer to the same value (of a type that can be copied), reading
one of them in any way does not change what the other gives, even when that is then read by moving. -/
theorem c92_others_kept (k : Kind) (hk : k = .copyable) (n : Nat) (as : List Op) (S : Spec)
    (hs : specExec k { h := List.replicate n .empty } as = some S) (x y p v : Nat) (hxy : x ≠ y)
    (hx : S.h[x]? = some (.ref p)) (hy : S.h[y]? = some (.ref p)) (ho : S.oc[p]? = some (.val v))
    (a : Op) (ha : a ∈ [.getTry x, .getTryR x, .getReady x, .getReadyR x, .then_ x, .thenR x]) :
    ∃ W, exec k { h := List.replicate n none } (as ++ [a, .getReadyR y]) = some W ∧
      W.out.getLast? = some (.value (.val v)) := by
  have hk' : k ≠ .mono := by simp [hk]
  obtain ⟨W, h1, r⟩ := (R.init k n).exec hk' hs
  have hyl := (List.getElem?_eq_some_iff.1 hy).1
  have key : ∃ S1, specRun k S a = some S1 ∧ specRef S1 y = some (p, .val v) := by
    have hr : specRef S x = some (p, .val v) := by simp [specRef, hx, ho]
    have hr' : specRef S y = some (p, .val v) := by simp [specRef, hy, ho]
    have hset : ∀ u, specRef { S with h := S.h.set x u } y = some (p, .val v) := by
      intro u; simp [specRef, hxy, hy, ho]
    simp only [List.mem_cons, List.not_mem_nil, or_false] at ha
    rcases ha with rfl | rfl | rfl | rfl | rfl | rfl <;> simp only [specRun, hr, hk, Option.map_some] <;>
      refine ⟨_, rfl, ?_⟩
    · exact hr'
    · exact hset _
    · exact hr'
    · exact hset _
    · exact hr'
    · exact hset _
  obtain ⟨S1, h2, h3⟩ := key
  obtain ⟨W1, h4, r1⟩ := r.run hk' h2
  obtain ⟨W2, h5, r2⟩ := r1.run hk' (a := .getReadyR y) (S' := say (spend S1 y p (.val v)) (valueOut k v))
    (by simp only [specRun, h3])
  refine ⟨W2, ?_, ?_⟩
  · have : ∀ (as bs : List Op) (W0 W1 : World), exec k W0 as = some W1 → exec k W0 (as ++ bs) = exec k W1 bs := by
      intro as bs
      induction as with
      | nil => intro W0 W1 h; cases h; rfl
      | cons c cs ih =>
        intro W0 W1 h
        simp only [exec, List.cons_append] at h ⊢
        split at h
        · cases h
        · exact ih _ _ h
    rw [this _ _ _ _ h1]
    simp [exec, h4, h5]
  · rw [r2.out]; simp [say, valueOut, hk]

example : specExec .copyable { h := List.replicate 3 .empty } [.makeReady 0 7, .copy 2 0] =
    some { h := [.ref 0, .empty, .ref 0], oc := [.val 7] } := rfl

def demo : List Op :=
  [.makeReady 0 7, .copy 1 0, .getReadyR 0, .getTry 1, .copy 2 1, .reset 0, .reset 2, .then_ 1, .thenR 1, .valid 1, .make 0,
   .isReady 0, .getTryR 0, .copy 1 0, .eq 0 1, .resolve 1 8, .isReady 1, .move 2 0, .getTryR 1, .getTryR 2, .makeExc 0 (some 5),
   .exception 0, .getTry 0, .thenR 0, .swap 0 2, .valid 0, .eq 0 1]

def demoOut : List Out :=
  [.value (.val 7), .opt (some (.val 7)), .args [.val 7], .args [.val 7], .bool false, .bool false, .opt none, .bool true,
   .bool true, .opt (some (.val 8)), .opt (some (.val 8)), .exc (some 5), .threw 5, .threw 5, .bool true, .bool true]

example : (specExec .copyable { h := List.replicate 3 .empty } demo).map (·.out) = some demoOut := by decide
example : (exec .copyable { h := List.replicate 3 none } demo).map (·.out) = some demoOut := by decide
example : (exec .void { h := List.replicate 2 none }
    [.makeReady 0 0, .copy 1 0, .getTry 1, .getReadyR 0, .then_ 1, .thenR 1]).map (·.out) =
    some [.bool true, .unit, .args [], .args []] := by decide
example : (exec .moveOnly { h := List.replicate 2 none }
    [.make 0, .getTry 0, .resolve 0 3, .move 1 0, .valid 0, .thenR 1]).map (·.out) =
    some [.opt none, .bool false, .args [.val 3]] := by decide

/-- A result of type `std::monostate` is taken for `void`: `get_try` gives a `bool`, `get_ready` nothing, and functions attached
with `then` get no argument (future.hpp:78-117). -/
theorem c92_monostate_counterexample :
    specExec .mono { h := [.empty] } [.makeReady 0 0, .getTry 0, .then_ 0, .getReadyR 0] = some
      { h := [.spent 0], oc := [.val 0], out := [.opt (some (.val 0)), .args [.val 0], .value (.val 0)] } ∧
    (exec .mono { h := [none] } [.makeReady 0 0, .getTry 0, .then_ 0, .getReadyR 0]).map (·.out) =
      some [.bool true, .args [], .unit] := by
  exact ⟨rfl, rfl⟩

/-- `get_ready()` of a `future<void>` is `void` only with `std::move`: otherwise `monostate_to_void` is given an lvalue, for which
`is_monostate_v` is false, and returns a `std::monostate` (future.hpp:78-97, 406, 843). -/
theorem c92_void_counterexample :
    (exec .void { h := [none] } [.makeReady 0 0, .getReady 0, .getReadyR 0]).map (·.out) = some [.mono, .unit] := by
  decide

/-- A result that can only be moved is moved out by the first `get_try`, though that is `const`; the second one gives an
optional with what is left of the value (future.hpp:546-558, 956). -/
theorem c92_move_only_counterexample (v : Nat) :
    (exec .moveOnly { h := [none] } [.makeReady 0 v, .getTry 0, .getTry 0]).map (·.out) =
      some [.opt (some (.val v)), .opt (some .moved)] := by
  rfl

/-- A future made with a null `std::exception_ptr` is ready, but `get_try` gives nothing, as if it were not; `get_ready` and
functions attached with `then` read a value that does not exist. -/
theorem c92_null_exception_counterexample (k : Kind) :
    (exec k { h := [none] } [.makeExc 0 none, .isReady 0, .getTryR 0]).map (·.out) =
      some [.bool true, if k = .void ∨ k = .mono then .bool false else .opt none] ∧
    exec k { h := [none] } [.makeExc 0 none, .getReadyR 0] = none ∧
    exec k { h := [none] } [.makeExc 0 none, .thenR 0] = none := by
  cases k <;> exact ⟨rfl, rfl, rfl⟩

/-- Reading again with `std::move`: an optional that has a value, which is what is left of the result; but only if
no other future refers to it. -/
theorem c92_twice_counterexample (v : Nat) :
    (exec .copyable { h := [none, none] } [.makeReady 0 v, .getTryR 0, .getTryR 0]).map (·.out) =
      some [.opt (some (.val v)), .opt (some .moved)] ∧
    (exec .copyable { h := [none, none] } [.makeReady 0 v, .copy 1 0, .getTryR 0, .getTryR 0]).map (·.out) =
      some [.opt (some (.val v)), .opt (some (.val v))] := by
  exact ⟨rfl, rfl⟩

end Verif.Handle
