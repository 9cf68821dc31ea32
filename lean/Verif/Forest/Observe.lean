import Verif.Forest.History

/-!
# What a user can observe of a forest

The property theorems are stated with these notions only: the full-order traversal of a forest, the value
read at a node, which forests exist.
-/

namespace Verif.Forest

variable {T : Type}

/-- The full-order traversal of the forest `t`: the loop `for (i = begin(); i != end(); ++i)`. -/
def order (W : World T) (t : Ptr) : Option (List Iter) := do
  let b ← begin_ W.heap t
  walk iterEq (incr W.heap) b (end_ t)

/-- The backward traversal: `for (i = end(); i != begin();) visit(--i)`. -/
def orderBack (W : World T) (t : Ptr) : Option (List Iter) := do
  let b ← begin_ W.heap t
  walkBack iterEq (decr W.heap) b (end_ t)

/-- The value read at a node. -/
abbrev World.value (W : World T) (p : Ptr) : Option T := valueAt W.heap p

/-- Outside `ts`, the same forests exist before and after, with the same traversals. -/
def SameForests (ts : List Ptr) (W W' : World T) : Prop :=
  ∀ t, t ∉ ts → (IsForest W' t ↔ IsForest W t) ∧ (IsForest W t → order W' t = order W t)

/-- Outside `ps`, the same nodes hold the same values. -/
def SameValues (ps : List Ptr) (W W' : World T) : Prop := ∀ p, p ∉ ps → W'.value p = W.value p

theorem Inv.order {W : World T} {A : AState T} (I : Inv W A) {t : Ptr} {w : List Iter}
    (hw : A.words t = some w) : order W t = some w := by
  have R := I.rep t w hw
  simp [Forest.order, R.begin_posOf, full_walk R]

theorem Inv.isForest_iff {W : World T} {A : AState T} (I : Inv W A) {t : Ptr} :
    IsForest W t ↔ ∃ w, A.words t = some w :=
  ⟨I.forest, fun ⟨w, hw⟩ => (I.rep t w hw).tail_live⟩

theorem Inv.words_of_order {W : World T} {A : AState T} (I : Inv W A) {t : Ptr} {w : List Iter}
    (hf : IsForest W t) (ho : Forest.order W t = some w) : A.words t = some w := by
  obtain ⟨v, hv⟩ := I.forest hf
  rw [I.order hv] at ho
  simp only [Option.some.injEq] at ho
  rw [hv, ho]

theorem sameForests_of_inv {W W' : World T} {A A' : AState T} (I : Inv W A) (I' : Inv W' A') {ts : List Ptr}
    (h : ∀ t, t ∉ ts → A'.words t = A.words t) : SameForests ts W W' := by
  intro t ht
  have e := h t ht
  refine ⟨by rw [I'.isForest_iff, I.isForest_iff, e], fun hf => ?_⟩
  obtain ⟨w, hw⟩ := I.isForest_iff.mp hf
  rw [I.order hw, I'.order (by rw [e]; exact hw)]

theorem sameValues_of_inv {W W' : World T} {A A' : AState T} (I : Inv W A) (I' : Inv W' A') {ps : List Ptr}
    (h : ∀ p, p ∉ ps → A'.val p = A.val p) : SameValues ps W W' := by
  intro p hp
  rw [World.value, World.value, I'.val, I.val, h p hp]

end Verif.Forest
