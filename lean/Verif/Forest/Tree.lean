import Verif.Forest.Observe

/-!
# Forests as values: lists of ordered trees

The specification of shape and values, used by the properties about copies, equality and the algorithms.
-/

namespace Verif.Forest

variable {T : Type}

/-- An ordered tree. -/
inductive Tree (α : Type) where
  | node (value : α) (children : List (Tree α))

/-- The flat form of a list of trees: a value opens a node, `none` closes it. -/
def enc {α : Type} : List (Tree α) → List (Option α)
  | [] => []
  | .node v cs :: ts => some v :: (enc cs ++ none :: enc ts)

/-- Apply a function to every value, keeping the shape. -/
def mapTrees {α β : Type} (f : α → β) : List (Tree α) → List (Tree β)
  | [] => []
  | .node v cs :: ts => .node (f v) (mapTrees f cs) :: mapTrees f ts

/-- The shape of a list of trees: all values forgotten. -/
def shapeOf {α : Type} (ts : List (Tree α)) : List (Tree Unit) := mapTrees (fun _ => ()) ts

/-- Number of nodes. -/
def countTrees {α : Type} : List (Tree α) → Nat
  | [] => 0
  | .node _ cs :: ts => 1 + countTrees cs + countTrees ts

/-- `Denotes val w ts`: the traversal `w` is that of the trees `ts`, when nodes hold the values `val`. -/
inductive Denotes (val : Ptr → Option T) : List Iter → List (Tree T) → Prop
  | nil : Denotes val [] []
  | cons (n : Ptr) {v : T} {b c : List Iter} {cs ts : List (Tree T)} : val n = some v →
      Denotes val b cs → Denotes val c ts →
      Denotes val (⟨n, .leading⟩ :: (b ++ ⟨n, .trailing⟩ :: c)) (.node v cs :: ts)

theorem enc_inj_aux {α : Type} : ∀ (ts us : List (Tree α)) (r r' : List (Option α)),
    enc ts ++ none :: r = enc us ++ none :: r' → ts = us ∧ r = r'
  | [], [], r, r', h => by simpa [enc] using h
  | [], .node v cs :: us, r, r', h => by simp [enc] at h
  | .node v cs :: ts, [], r, r', h => by simp [enc] at h
  | .node v cs :: ts, .node v' cs' :: us, r, r', h => by
    simp only [enc, List.cons_append, List.append_assoc, List.cons.injEq, Option.some.injEq] at h
    obtain ⟨rfl, h⟩ := h
    obtain ⟨rfl, h2⟩ := enc_inj_aux cs cs' _ _ h
    obtain ⟨rfl, rfl⟩ := enc_inj_aux ts us _ _ h2
    exact ⟨rfl, rfl⟩

/-- Flat forms of different trees differ. -/
theorem enc_inj {α : Type} {ts us : List (Tree α)} (h : enc ts = enc us) : ts = us :=
  (enc_inj_aux ts us [] [] (by rw [h])).1

theorem enc_map {α β : Type} (f : α → β) : ∀ ts : List (Tree α),
    enc (mapTrees f ts) = (enc ts).map (Option.map f)
  | [] => by simp [enc, mapTrees]
  | .node v cs :: ts => by simp [enc, mapTrees, enc_map f cs, enc_map f ts]

theorem enc_nested {α : Type} : ∀ (ts : List (Tree α)) (n : Nat) (r : List (Option α)),
    Nested n r → Nested n (enc ts ++ r)
  | [], n, r, h => by simpa [enc] using h
  | .node v cs :: ts, n, r, h => by
    simp only [enc, List.cons_append, List.append_assoc, Nested]
    exact enc_nested cs (n + 1) _ (by simp only [Nested]; exact enc_nested ts n r h)

theorem enc_opens {α : Type} : ∀ ts : List (Tree α), opens (enc ts) = countTrees ts
  | [] => by simp [enc, opens, countTrees]
  | .node v cs :: ts => by
    have h1 := enc_opens cs
    have h2 := enc_opens ts
    simp only [opens] at h1 h2
    simp [enc, opens, countTrees, h1, h2]; omega

theorem Denotes.content {val : Ptr → Option T} {w : List Iter} {ts : List (Tree T)} (h : Denotes val w ts) :
    content val w = enc ts := by
  induction h with
  | nil => simp [Forest.content, enc]
  | cons n hv _ _ ih1 ih2 =>
    simp only [Forest.content] at ih1 ih2
    simp [Forest.content, enc, hv, ih1, ih2]

theorem Denotes.balanced {val : Ptr → Option T} {w : List Iter} {ts : List (Tree T)} (h : Denotes val w ts) :
    Balanced w := by
  induction h with
  | nil => exact .nil
  | cons n _ _ _ ih1 ih2 => exact .cons n ih1 ih2

theorem Balanced.denotes {val : Ptr → Option T} {w : List Iter} (hb : Balanced w)
    (hv : ∀ x ∈ w, ∃ v, val x.node = some v) : ∃ ts, Denotes val w ts := by
  induction hb with
  | nil => exact ⟨[], .nil⟩
  | @cons n b c _ _ ihb ihc =>
    obtain ⟨v, hn⟩ := hv ⟨n, .leading⟩ (by simp)
    obtain ⟨cs, h1⟩ := ihb (fun x hx => hv x (by simp [hx]))
    obtain ⟨ts, h2⟩ := ihc (fun x hx => hv x (by simp [hx]))
    exact ⟨_, .cons n hn h1 h2⟩

theorem denotes_iff {val : Ptr → Option T} {w : List Iter} {ts : List (Tree T)} (hb : Balanced w)
    (hv : ∀ x ∈ w, ∃ v, val x.node = some v) : Denotes val w ts ↔ content val w = enc ts := by
  constructor
  · exact Denotes.content
  · intro h
    obtain ⟨us, hu⟩ := hb.denotes hv
    rw [hu.content] at h
    rw [← enc_inj h]; exact hu

theorem Denotes.unique {val : Ptr → Option T} {w : List Iter} {ts us : List (Tree T)}
    (h1 : Denotes val w ts) (h2 : Denotes val w us) : ts = us :=
  enc_inj (by rw [← h1.content, ← h2.content])

theorem Denotes.shape {val : Ptr → Option T} {w : List Iter} {ts : List (Tree T)} (h : Denotes val w ts) :
    Denotes (fun _ => some ()) w (shapeOf ts) := by
  induction h with
  | nil => simp only [shapeOf, mapTrees]; exact Denotes.nil
  | cons n _ _ _ ih1 ih2 =>
    simp only [shapeOf, mapTrees] at ih1 ih2 ⊢
    exact .cons n rfl ih1 ih2

theorem Denotes.congr {val val' : Ptr → Option T} {w : List Iter} {ts : List (Tree T)} (h : Denotes val w ts)
    (he : ∀ x ∈ w, val' x.node = val x.node) : Denotes val' w ts := by
  induction h with
  | nil => exact .nil
  | @cons n v b c cs ts hv _ _ ih1 ih2 =>
    refine .cons n ?_ (ih1 fun x hx => he x (by simp [hx])) (ih2 fun x hx => he x (by simp [hx]))
    rw [← hv]; exact he ⟨n, .leading⟩ (by simp)

theorem Denotes.append {val : Ptr → Option T} {w v : List Iter} {ts us : List (Tree T)}
    (h1 : Denotes val w ts) (h2 : Denotes val v us) : Denotes val (w ++ v) (ts ++ us) := by
  induction h1 with
  | nil => simpa using h2
  | cons n hv hb _ _ ih =>
    have := Denotes.cons n hv hb ih
    simpa using this

theorem Denotes.count {val : Ptr → Option T} {w : List Iter} {ts : List (Tree T)} (h : Denotes val w ts) :
    (nodes w).length = countTrees ts := by
  induction h with
  | nil => simp [nodes, countTrees]
  | cons n _ _ _ ih1 ih2 =>
    simp only [nodes, List.length_map] at ih1 ih2
    simp [nodes, countTrees, ih1, ih2]; omega

/-- Edges of a traversal determine its shape. -/
theorem shape_eq_iff {val : Ptr → Option T} {v w : List Iter} {ts us : List (Tree T)}
    (h1 : Denotes val v ts) (h2 : Denotes val w us) : shape v = shape w ↔ shapeOf ts = shapeOf us := by
  have key : ∀ l : List Iter, Forest.content (fun _ => some ()) l =
      (shape l).map (fun e => if e = .leading then some () else none) := by
    intro l; simp [Forest.content, Forest.shape]
  constructor
  · intro h
    apply enc_inj
    rw [← h1.shape.content, ← h2.shape.content, key, key, h]
  · intro h
    have h3 : Forest.content (fun _ => some ()) v = Forest.content (fun _ => some ()) w := by
      rw [h1.shape.content, h2.shape.content, h]
    rw [key, key] at h3
    refine List.map_injective_iff.mpr ?_ h3
    intro a b hab
    cases a <;> cases b <;> simp_all

theorem Denotes.length {val : Ptr → Option T} {w : List Iter} {ts : List (Tree T)} (h : Denotes val w ts) :
    w.length = 2 * countTrees ts := by
  induction h with
  | nil => simp [countTrees]
  | cons n _ _ _ ih1 ih2 => simp [countTrees, ih1, ih2]; omega

theorem enc_append {α : Type} : ∀ ts us : List (Tree α), enc (ts ++ us) = enc ts ++ enc us
  | [], us => by simp [enc]
  | .node v cs :: ts, us => by simp [enc, enc_append ts us]

theorem enc_prefix_aux {α : Type} : ∀ (ts us : List (Tree α)) (r : List (Option α)), enc ts ++ r = enc us → ts <+: us
  | [], us, r, _ => List.nil_prefix
  | .node v cs :: ts, [], r, h => by simp [enc] at h
  | .node v cs :: ts, .node v' cs' :: us, r, h => by
    simp only [enc, List.cons_append, List.append_assoc, List.cons.injEq, Option.some.injEq] at h
    obtain ⟨rfl, h⟩ := h
    obtain ⟨rfl, h2⟩ := enc_inj_aux cs cs' _ _ h
    exact List.prefix_cons_iff.2 (Or.inr ⟨ts, rfl, enc_prefix_aux ts us r h2⟩)

theorem enc_prefix {α : Type} {ts us : List (Tree α)} : enc ts <+: enc us ↔ ts <+: us := by
  constructor
  · rintro ⟨r, h⟩; exact enc_prefix_aux ts us r h
  · rintro ⟨vs, rfl⟩; exact ⟨enc vs, (enc_append ts vs).symm⟩

/-- The edges of one traversal begin those of another if the trees do. -/
theorem shape_prefix_iff {val : Ptr → Option T} {v w : List Iter} {ts us : List (Tree T)}
    (h1 : Denotes val v ts) (h2 : Denotes val w us) : shape v <+: shape w ↔ shapeOf ts <+: shapeOf us := by
  have key : ∀ l : List Iter, Forest.content (fun _ => some ()) l =
      (shape l).map (fun e => if e = .leading then some () else none) := by
    intro l; simp [Forest.content, Forest.shape]
  rw [← enc_prefix, ← h1.shape.content, ← h2.shape.content, key, key]
  constructor
  · exact fun h => h.map _
  · rintro ⟨r, hr⟩
    obtain ⟨a, b, e, ha, -⟩ := List.map_eq_append_iff.1 hr.symm
    have : a = shape v := by
      refine List.map_injective_iff.mpr ?_ ha
      intro a b hab
      cases a <;> cases b <;> simp_all
    exact ⟨b, by rw [e, this]⟩

theorem Inv.denotes {W : World T} {A : AState T} (I : Inv W A) {t : Ptr} {w : List Iter}
    (hw : A.words t = some w) : ∃ ts, Denotes W.value w ts := by
  have R := I.rep t w hw
  refine R.balanced.denotes ?_
  intro x hx
  obtain ⟨n, v, h1, h2⟩ := R.live x hx
  exact ⟨v, by simp [World.value, valueAt, h1, h2]⟩

theorem Inv.denotes_of_content {W : World T} {A : AState T} (I : Inv W A) {t : Ptr} {a b c : List Iter}
    {ts : List (Tree T)} (hw : A.words t = some (a ++ (b ++ c))) (hb : Balanced b)
    (hc : Forest.content A.val b = enc ts) : Denotes W.value b ts := by
  have R := I.rep t _ hw
  refine (denotes_iff hb ?_).mpr ?_
  · intro x hx
    obtain ⟨n, v, h1, h2⟩ := R.live x (by simp [hx])
    exact ⟨v, by simp [World.value, valueAt, h1, h2]⟩
  · rw [← hc]
    exact content_congr (fun x _ => I.val x.node)

/-- A part of a well nested word whose content is properly nested is well nested itself. -/
theorem run_of_nested {val : Ptr → Option T} : ∀ {E : List Iter} {p s s' : List Ptr},
    (∀ x ∈ E, ∃ v, val x.node = some v) → run (p ++ s) E = some s' →
    Nested p.length (Forest.content val E) → run p E = some []
  | [], p, s, s', _, _, hN => by
    simp only [Forest.content, List.map_nil, Nested] at hN
    simp [run, List.eq_nil_of_length_eq_zero hN]
  | ⟨n, .leading⟩ :: E, p, s, s', hv, hr, hN => by
    obtain ⟨v, hn⟩ := hv ⟨n, .leading⟩ (by simp)
    have hn : val n = some v := hn
    simp only [run] at hr ⊢
    rw [content_cons_leading, hn, Nested] at hN
    exact run_of_nested (p := n :: p) (s := s) (fun x hx => hv x (by simp [hx])) (by simpa using hr)
      (by simpa using hN)
  | ⟨n, .trailing⟩ :: E, p, s, s', hv, hr, hN => by
    rw [content_cons_trailing rfl] at hN
    cases p with
    | nil => simp [Nested] at hN
    | cons q p =>
      simp only [List.length_cons, Nested] at hN
      simp only [run, List.cons_append] at hr ⊢
      split at hr
      · rename_i hq
        simp only [hq, if_true]
        exact run_of_nested (s := s) (fun x hx => hv x (by simp [hx])) hr hN
      · simp at hr

theorem Balanced.infix {val : Ptr → Option T} {a E c : List Iter} (hB : Balanced (a ++ (E ++ c)))
    (hv : ∀ x ∈ E, ∃ v, val x.node = some v) (hN : Nested 0 (Forest.content val E)) : Balanced E := by
  rw [balanced_iff_run] at hB ⊢
  rw [run_append] at hB
  cases ha : Forest.run [] a with
  | none => simp [ha] at hB
  | some s =>
    simp only [ha, Option.bind_some, run_append] at hB
    cases hE : Forest.run s E with
    | none => simp [hE] at hB
    | some s' => exact run_of_nested (p := []) (s := s) hv (by simpa using hE) hN

end Verif.Forest
