import Verif.Forest.AdaptorLemmas

/-! # Lemmas about the filter iterator -/

namespace Verif.Forest

variable {T : Type} {h : Heap T} {t : Ptr}

/-- Removing the failing trees, tree by tree. -/
inductive Filtered (ok : Ptr → Prop) : List Iter → List Iter → Prop
  | nil : Filtered ok [] []
  | keep (n : Ptr) {b b' c c' : List Iter} : ok n → Filtered ok b b' → Filtered ok c c' →
      Filtered ok (⟨n, .leading⟩ :: (b ++ ⟨n, .trailing⟩ :: c))
        (⟨n, .leading⟩ :: (b' ++ ⟨n, .trailing⟩ :: c'))
  | drop (n : Ptr) {b c c' : List Iter} : ¬ ok n → Balanced b → Filtered ok c c' →
      Filtered ok (⟨n, .leading⟩ :: (b ++ ⟨n, .trailing⟩ :: c)) c'

theorem Balanced.filtered (ok : Ptr → Prop) {b : List Iter} (hb : Balanced b) :
    ∃ b', Filtered ok b b' := by
  classical
  induction hb with
  | nil => exact ⟨[], .nil⟩
  | cons n hb hc ihb ihc =>
    obtain ⟨b', h1⟩ := ihb
    obtain ⟨c', h2⟩ := ihc
    by_cases hn : ok n
    · exact ⟨_, .keep n hn h1 h2⟩
    · exact ⟨_, .drop n hn hb h2⟩

theorem Filtered.balanced {ok : Ptr → Prop} {b b' : List Iter} (hf : Filtered ok b b') : Balanced b := by
  induction hf with
  | nil => exact .nil
  | keep n _ _ _ ih1 ih2 => exact .cons n ih1 ih2
  | drop n _ hb _ ih => exact .cons n hb ih

theorem Filtered.subset {ok : Ptr → Prop} {b b' : List Iter} (hf : Filtered ok b b') : ∀ x ∈ b', x ∈ b := by
  induction hf with
  | nil => simp
  | keep n _ _ _ ih1 ih2 =>
    intro x hx
    simp only [List.mem_cons, List.mem_append] at hx ⊢
    rcases hx with hx | hx | hx | hx
    · exact Or.inl hx
    · exact Or.inr (Or.inl (ih1 _ hx))
    · exact Or.inr (Or.inr (Or.inl hx))
    · exact Or.inr (Or.inr (Or.inr (ih2 _ hx)))
  | drop n _ hb _ ih =>
    intro x hx
    simp [ih x hx]

/-- Suffixes of a word with the positions a forward filtered walk shows. -/
inductive FS (ok : Ptr → Prop) : List Iter → List Iter → Prop
  | nil : FS ok [] []
  | trail (n : Ptr) {r r'} : FS ok r r' → FS ok (⟨n, .trailing⟩ :: r) (⟨n, .trailing⟩ :: r')
  | keep (n : Ptr) {r r'} : ok n → FS ok r r' → FS ok (⟨n, .leading⟩ :: r) (⟨n, .leading⟩ :: r')
  | drop (n : Ptr) {b r r'} : ¬ ok n → Balanced b → FS ok r r' →
      FS ok (⟨n, .leading⟩ :: (b ++ ⟨n, .trailing⟩ :: r)) r'

/-- Prefixes of a word with the positions a backward filtered walk shows. -/
inductive PS (ok : Ptr → Prop) : List Iter → List Iter → Prop
  | nil : PS ok [] []
  | lead (n : Ptr) {r r'} : PS ok r r' → PS ok (r ++ [⟨n, .leading⟩]) (r' ++ [⟨n, .leading⟩])
  | keep (n : Ptr) {r r'} : ok n → PS ok r r' → PS ok (r ++ [⟨n, .trailing⟩]) (r' ++ [⟨n, .trailing⟩])
  | drop (n : Ptr) {b r r'} : ¬ ok n → Balanced b → PS ok r r' →
      PS ok (r ++ (⟨n, .leading⟩ :: b) ++ [⟨n, .trailing⟩]) r'

theorem Filtered.fs {ok : Ptr → Prop} {b b' : List Iter} (hf : Filtered ok b b') :
    ∀ {r r'}, FS ok r r' → FS ok (b ++ r) (b' ++ r') := by
  induction hf with
  | nil => intro r r' h; simpa using h
  | keep n hn _ _ ih1 ih2 =>
    intro r r' h
    have := FS.keep n hn (ih1 (FS.trail n (ih2 h)))
    simpa using this
  | drop n hn hb _ ih =>
    intro r r' h
    have := FS.drop n hn hb (ih h)
    simpa using this

theorem Filtered.ps {ok : Ptr → Prop} {b b' : List Iter} (hf : Filtered ok b b') :
    ∀ {r r'}, PS ok r r' → PS ok (r ++ b) (r' ++ b') := by
  induction hf with
  | nil => intro r r' h; simpa using h
  | keep n hn _ _ ih1 ih2 =>
    intro r r' h
    have := ih2 (PS.keep n hn (ih1 (PS.lead n h)))
    simpa using this
  | drop n hn hb _ ih =>
    intro r r' h
    have := ih (PS.drop n hn hb h)
    simpa using this

theorem FS.nil_left {ok : Ptr → Prop} {r' : List Iter} (hf : FS ok [] r') : r' = [] := by
  cases hf; rfl

theorem PS.nil_left {ok : Ptr → Prop} {r r' : List Iter} (hf : PS ok r r') (hr : r = []) : r' = [] := by
  cases hf with
  | nil => rfl
  | lead n _ => simp at hr
  | keep n _ _ => simp at hr
  | drop n _ _ _ => simp at hr

/-- The predicate of the filter on nodes. -/
def okNode (h : Heap T) (p : T → Bool) (n : Ptr) : Prop := ∃ v, valueAt h n = some v ∧ p v = true

theorem Rep.deref_some {w : List Iter} (R : Rep h t w) {x : Iter} (hx : x ∈ w) : ∃ v, h.deref x = some v := by
  obtain ⟨n, v, h1, h2⟩ := R.live x hx
  exact ⟨v, by simp [Heap.deref, h1, h2]⟩

theorem okNode_of_deref {p : T → Bool} {x : Iter} {v : T} (hv : h.deref x = some v) :
    okNode h p x.node ↔ p v = true := by
  have : valueAt h x.node = some v := hv
  simp [okNode, this]

theorem skipForward_eq {p : T → Bool} {r r' : List Iter} (hf : FS (okNode h p) r r') :
    ∀ {a : List Iter}, Rep h t (a ++ r) → skipForward h p (posOf t r) (end_ t) = some (posOf t r') := by
  induction hf with
  | nil => intro a R; rw [posOf_nil, skipForward]; simp [end_]
  | trail n _ _ => intro a R; rw [posOf_cons, posOf_cons, skipForward]; simp
  | @keep n r r' hn _ _ =>
    intro a R
    obtain ⟨v, hv⟩ := R.deref_some (x := ⟨n, .leading⟩) (by simp)
    have hp := (okNode_of_deref hv).mp hn
    rw [posOf_cons, posOf_cons, skipForward]
    simp [end_, hv, hp]
  | @drop n b r r' hn hb _ ih =>
    intro a R
    obtain ⟨v, hv⟩ := R.deref_some (x := ⟨n, .leading⟩) (by simp)
    have hp : p v = false := by
      rw [← Bool.not_eq_true]; exact fun h' => hn ((okNode_of_deref hv).mpr h')
    have R1 : Rep h t ((a ++ (⟨n, .leading⟩ :: b) ++ [⟨n, .trailing⟩]) ++ r) := by simpa using R
    have hi := R1.incr_split
    rw [priorOf_concat] at hi
    rw [posOf_cons, skipForward]
    simp [end_, hv, hp, Iter.trailingOf, hi]
    exact ih R1

theorem filterIncr_chain {p : T → Bool} {f : Iter} {r r' : List Iter} (hf : FS (okNode h p) r r') :
    ∀ {a : List Iter}, Rep h t (a ++ r) →
      List.IsChain (fun x y => filterIncr h p ⟨x, true, f, end_ t⟩ = some ⟨y, true, f, end_ t⟩)
        (r' ++ [end_ t]) := by
  have step : ∀ {a : List Iter} {x : Iter} {r r' : List Iter}, Rep h t (a ++ x :: r) →
      FS (okNode h p) r r' → ∀ y ∈ (r' ++ [end_ t]).head?,
      filterIncr h p ⟨x, true, f, end_ t⟩ = some ⟨y, true, f, end_ t⟩ := by
    intro a x r r' R hfs y hy
    have hy' : posOf t r' = y := by
      cases r' with
      | nil => simpa [posOf] using hy
      | cons z r' => simpa [posOf] using hy
    have R1 : Rep h t ((a ++ [x]) ++ r) := by simpa using R
    have hi := R1.incr_split
    rw [priorOf_concat] at hi
    have hs := skipForward_eq hfs R1
    have hx : x ≠ end_ t := R.ne_end (by simp)
    simp [filterIncr, hx, hi, hs, hy']
  induction hf with
  | nil => intro a R; simp
  | trail n hf ih =>
    intro a R
    rw [List.cons_append, List.isChain_cons]
    exact ⟨step R hf, ih (a := a ++ [⟨n, .trailing⟩]) (by simpa using R)⟩
  | keep n hn hf ih =>
    intro a R
    rw [List.cons_append, List.isChain_cons]
    exact ⟨step R hf, ih (a := a ++ [⟨n, .leading⟩]) (by simpa using R)⟩
  | @drop n b r r' hn hb _ ih =>
    intro a R
    exact ih (a := a ++ (⟨n, .leading⟩ :: b) ++ [⟨n, .trailing⟩]) (by simpa using R)

theorem Rep.begin_leading {w : List Iter} (R : Rep h t w) {x : Iter} (hx : x ∈ w) (he : x.edge = .trailing) :
    posOf t w ≠ x := by
  have hB := R.balanced
  cases hB with
  | nil => simp at hx
  | cons n hb hc =>
    rw [posOf_cons]
    rintro rfl
    simp at he

theorem skipBackward_eq {p : T → Bool} {w : List Iter} {r r' : List Iter} (hf : PS (okNode h p) r r') :
    ∀ {c : List Iter}, Rep h t (r ++ c) → w = r ++ c →
      skipBackward h p (posOf t w) (priorOf t r) = some (priorOf t r') := by
  induction hf with
  | nil => intro c R hw; rw [skipBackward]; simp [priorOf, root]
  | lead n _ _ => intro c R hw; rw [priorOf_concat, priorOf_concat, skipBackward]; simp
  | @keep n r r' hn _ _ =>
    intro c R hw
    obtain ⟨v, hv⟩ := R.deref_some (x := ⟨n, .trailing⟩) (by simp)
    have hp := (okNode_of_deref hv).mp hn
    have hb : posOf t w ≠ ⟨n, .trailing⟩ := by subst hw; exact R.begin_leading (by simp) rfl
    rw [priorOf_concat, priorOf_concat, skipBackward]
    simp [hb, hv, hp]
  | @drop n b r r' hn hb _ ih =>
    intro c R hw
    obtain ⟨v, hv⟩ := R.deref_some (x := ⟨n, .trailing⟩) (by simp)
    have hp : p v = false := by
      rw [← Bool.not_eq_true]; exact fun h' => hn ((okNode_of_deref hv).mpr h')
    have hb' : posOf t w ≠ ⟨n, .trailing⟩ := by subst hw; exact R.begin_leading (by simp) rfl
    have R1 : Rep h t (r ++ (⟨n, .leading⟩ :: b ++ [⟨n, .trailing⟩] ++ c)) := by simpa using R
    have hd := R1.decr_split
    rw [List.cons_append, List.cons_append, posOf_cons] at hd
    rw [priorOf_concat, skipBackward]
    simp [hb', hv, hp, Iter.leadingOf, hd]
    exact ih R1 (by simp [hw])

theorem filterDecr_step {p : T → Bool} {w a a' c : List Iter} (hf : PS (okNode h p) a a') (ha : a' ≠ [])
    (R : Rep h t (a ++ c)) (hw : w = a ++ c) :
    filterDecr h p ⟨posOf t c, true, posOf t w, end_ t⟩ =
      some ⟨priorOf t a', true, posOf t w, end_ t⟩ := by
  have hane : a ≠ [] := by
    rintro rfl
    exact ha (PS.nil_left hf rfl)
  have hs := skipBackward_eq hf R hw
  have hd := R.decr_split
  have hne : posOf t c ≠ posOf t w := by
    subst hw
    have R' : Rep h t ([] ++ (a ++ c)) := by simpa using R
    exact fun h' => posOf_ne R' hane h'.symm
  simp [filterDecr, hne, hd, hs]

theorem isChain_concat {α : Type*} {R : α → α → Prop} {l : List α} {y : α} :
    List.IsChain R (l ++ [y]) ↔ List.IsChain R l ∧ ∀ x ∈ l.getLast?, R x y := by
  rw [List.isChain_append]
  simp

theorem filterDecr_chain {p : T → Bool} {w : List Iter} {r r' : List Iter} (hf : PS (okNode h p) r r') :
    ∀ {c : List Iter}, Rep h t (r ++ c) → w = r ++ c →
      List.IsChain (fun x y => filterDecr h p ⟨y, true, posOf t w, end_ t⟩ =
        some ⟨x, true, posOf t w, end_ t⟩) r' := by
  have step : ∀ {a a' : List Iter} {y : Iter} {c : List Iter}, Rep h t (a ++ y :: c) → w = a ++ y :: c →
      PS (okNode h p) a a' → ∀ x ∈ a'.getLast?,
      filterDecr h p ⟨y, true, posOf t w, end_ t⟩ = some ⟨x, true, posOf t w, end_ t⟩ := by
    intro a a' y c R hw hps x hx
    have hne : a' ≠ [] := by rintro rfl; simp at hx
    have := filterDecr_step hps hne R hw
    rw [posOf_cons] at this
    rw [this]
    obtain ⟨a'', z, rfl⟩ := (List.eq_nil_or_concat a').resolve_left hne
    rw [List.concat_eq_append] at hx ⊢
    simp at hx
    rw [priorOf_concat, hx]
  induction hf with
  | nil => intro c R hw; simp
  | @lead n r r' hf ih =>
    intro c R hw
    rw [isChain_concat]
    exact ⟨ih (c := ⟨n, .leading⟩ :: c) (by simpa using R) (by simpa using hw),
      step (c := c) (by simpa using R) (by simpa using hw) hf⟩
  | @keep n r r' hn hf ih =>
    intro c R hw
    rw [isChain_concat]
    exact ⟨ih (c := ⟨n, .trailing⟩ :: c) (by simpa using R) (by simpa using hw),
      step (c := c) (by simpa using R) (by simpa using hw) hf⟩
  | @drop n b r r' hn hb _ ih =>
    intro c R hw
    exact ih (c := ⟨n, .leading⟩ :: (b ++ ⟨n, .trailing⟩ :: c)) (by simpa using R) (by simpa using hw)

theorem filterDecr_chain_end {p : T → Bool} {w w' : List Iter} (hf : PS (okNode h p) w w') (R : Rep h t w) :
    List.IsChain (fun x y => filterDecr h p ⟨y, true, posOf t w, end_ t⟩ =
        some ⟨x, true, posOf t w, end_ t⟩) (w' ++ [end_ t]) := by
  rw [isChain_concat]
  refine ⟨filterDecr_chain hf (c := []) (by simpa using R) (by simp), ?_⟩
  intro x hx
  have hne : w' ≠ [] := by rintro rfl; simp at hx
  have := filterDecr_step (c := []) (w := w) hf hne (by simpa using R) (by simp)
  rw [posOf_nil] at this
  rw [this]
  obtain ⟨a'', z, rfl⟩ := (List.eq_nil_or_concat w').resolve_left hne
  rw [List.concat_eq_append] at hx ⊢
  simp at hx
  rw [priorOf_concat, hx]

/-! ## The structural filter is the filter by ancestors -/

theorem ancestor_self {b : List Iter} (hb : Balanced b) {n : Ptr} {e : Edge} (hn : (⟨n, e⟩ : Iter) ∈ b) :
    AncestorOrSelf b n n := by
  obtain ⟨a, s, c, he, -⟩ := hb.split hn
  exact ⟨a, s, c, he, Or.inl rfl⟩

theorem AncestorOrSelf.mem {b : List Iter} {m n : Ptr} (h : AncestorOrSelf b m n) :
    (⟨m, .leading⟩ : Iter) ∈ b ∧ (⟨n, .leading⟩ : Iter) ∈ b := by
  obtain ⟨a, s, c, rfl, h1⟩ := h
  rcases h1 with rfl | h1
  · simp
  · simp [h1]

/-- Ancestors in the concatenation of a balanced word with more text. -/
theorem ancestor_infix {a b c : List Iter} (hb : Balanced b) {n m : Ptr}
    (hN : (a ++ (b ++ c)).Nodup) (hm : (⟨m, .leading⟩ : Iter) ∈ b) (hn : (⟨n, .leading⟩ : Iter) ∈ b) :
    AncestorOrSelf (a ++ (b ++ c)) m n ↔ AncestorOrSelf b m n := by
  obtain ⟨b1, s, b2, rfl, hs⟩ := hb.split hm
  have e : a ++ (b1 ++ ⟨m, .leading⟩ :: (s ++ ⟨m, .trailing⟩ :: b2) ++ c) =
      (a ++ b1) ++ (⟨m, .leading⟩ :: (s ++ ⟨m, .trailing⟩ :: (b2 ++ c))) := by simp
  constructor
  · rintro ⟨u, s', v, he, h1⟩
    rw [e] at he hN
    obtain ⟨-, h2⟩ := append_cons_inj hN he
    have hN2 : (s ++ ⟨m, .trailing⟩ :: (b2 ++ c) : List Iter).Nodup := (List.nodup_append.mp hN).2.1.tail
    obtain ⟨h3, -⟩ := append_cons_inj hN2 h2
    exact ⟨b1, s, b2, rfl, by rw [h3]; exact h1⟩
  · rintro ⟨u, s', v, he, h1⟩
    refine ⟨a ++ u, s', v ++ c, ?_, h1⟩
    rw [he]; simp

theorem ancestor_cons {n : Ptr} {b c : List Iter} (hB1 : Balanced b) (hB2 : Balanced c)
    (hN : (⟨n, .leading⟩ :: (b ++ ⟨n, .trailing⟩ :: c) : List Iter).Nodup) :
    b.Nodup ∧ c.Nodup ∧
    (∀ m, AncestorOrSelf (⟨n, .leading⟩ :: (b ++ ⟨n, .trailing⟩ :: c)) m n → m = n) ∧
    (∀ k, (⟨k, .leading⟩ : Iter) ∈ b → ∀ m,
      AncestorOrSelf (⟨n, .leading⟩ :: (b ++ ⟨n, .trailing⟩ :: c)) m k ↔ m = n ∨ AncestorOrSelf b m k) ∧
    (∀ k, (⟨k, .leading⟩ : Iter) ∈ c → ∀ m,
      AncestorOrSelf (⟨n, .leading⟩ :: (b ++ ⟨n, .trailing⟩ :: c)) m k ↔ AncestorOrSelf c m k) := by
  have eb : (⟨n, .leading⟩ :: (b ++ ⟨n, .trailing⟩ :: c) : List Iter) =
    [⟨n, .leading⟩] ++ (b ++ (⟨n, .trailing⟩ :: c)) := by simp
  have ec : (⟨n, .leading⟩ :: (b ++ ⟨n, .trailing⟩ :: c) : List Iter) =
    (⟨n, .leading⟩ :: (b ++ [⟨n, .trailing⟩])) ++ (c ++ []) := by simp
  have hNb : b.Nodup := by rw [eb] at hN; exact hN.of_append_right.of_append_left
  have hNc : c.Nodup := by rw [ec] at hN; exact hN.of_append_right.of_append_left
  have hnb : (⟨n, .leading⟩ : Iter) ∉ b := fun hx => by
    rw [eb] at hN; exact disjoint_of_nodup hN (z := ⟨n, .leading⟩) (by simp) (by simp [hx])
  have hnc : (⟨n, .leading⟩ : Iter) ∉ c := fun hx => by
    rw [ec] at hN; exact disjoint_of_nodup hN (z := ⟨n, .leading⟩) (by simp) (by simp [hx])
  have hbc : ∀ x : Iter, x ∈ b → x ∈ c → False := fun x hx hx' => by
    rw [ec] at hN; exact disjoint_of_nodup hN (z := x) (by simp [hx]) (by simp [hx'])
  -- ancestors of `n`
  have hself : ∀ m, AncestorOrSelf (⟨n, .leading⟩ :: (b ++ ⟨n, .trailing⟩ :: c)) m n → m = n := by
    rintro m ⟨u, s, v, he, h3⟩
    rcases h3 with h3 | h3
    · exact h3.symm
    · exfalso
      cases u with
      | nil =>
        simp only [List.nil_append, List.cons.injEq, Iter.mk.injEq, and_true] at he
        obtain ⟨rfl, he⟩ := he
        have : (⟨n, .leading⟩ : Iter) ∈ b ++ ⟨n, .trailing⟩ :: c := by rw [he]; simp [h3]
        simp [hnb, hnc] at this
      | cons y u =>
        simp only [List.cons_append, List.cons.injEq] at he
        have : (⟨n, .leading⟩ : Iter) ∈ b ++ ⟨n, .trailing⟩ :: c := by rw [he.2]; simp [h3]
        simp [hnb, hnc] at this
  have hAb : ∀ k, (⟨k, .leading⟩ : Iter) ∈ b → ∀ m,
      AncestorOrSelf (⟨n, .leading⟩ :: (b ++ ⟨n, .trailing⟩ :: c)) m k ↔ m = n ∨ AncestorOrSelf b m k := by
    intro k hk m
    constructor
    · intro hA
      have hm := hA.mem.1
      simp only [List.mem_cons, List.mem_append, Iter.mk.injEq, and_true, reduceCtorEq, and_false,
        false_or] at hm
      rcases hm with hm | hm | hm
      · exact Or.inl hm
      · right; rw [eb] at hA hN; exact (ancestor_infix hB1 hN hm hk).mp hA
      · exfalso
        obtain ⟨u, s, v, he, h3⟩ := hA
        obtain ⟨c1, s', c2, hc, -⟩ := hB2.split hm
        have e2 : (⟨n, .leading⟩ :: (b ++ ⟨n, .trailing⟩ :: c) : List Iter) =
          (⟨n, .leading⟩ :: (b ++ ⟨n, .trailing⟩ :: c1)) ++ (⟨m, .leading⟩ :: (s' ++ ⟨m, .trailing⟩ :: c2)) := by
          rw [hc]; simp
        rw [e2] at he hN
        obtain ⟨-, h4⟩ := append_cons_inj hN he
        obtain ⟨h5, -⟩ := append_cons_inj (List.nodup_append.mp hN).2.1.tail h4
        rcases h3 with rfl | h3
        · exact hbc _ hk hm
        · exact hbc _ hk (by rw [hc, h5]; simp [h3])
    · rintro (rfl | hA)
      · exact ⟨[], b, c, rfl, Or.inr hk⟩
      · rw [eb] at hN ⊢; exact (ancestor_infix hB1 hN hA.mem.1 hk).mpr hA
  have hAc : ∀ k, (⟨k, .leading⟩ : Iter) ∈ c → ∀ m,
      AncestorOrSelf (⟨n, .leading⟩ :: (b ++ ⟨n, .trailing⟩ :: c)) m k ↔ AncestorOrSelf c m k := by
    intro k hk m
    constructor
    · intro hA
      have hm := hA.mem.1
      by_cases hmc : (⟨m, .leading⟩ : Iter) ∈ c
      · rw [ec] at hA hN; exact (ancestor_infix hB2 hN hmc hk).mp hA
      · exfalso
        have hmb : (⟨m, .leading⟩ : Iter) ∈ (⟨n, .leading⟩ :: (b ++ [⟨n, .trailing⟩]) : List Iter) := by
          simp only [List.mem_cons, List.mem_append] at hm ⊢; tauto
        obtain ⟨u, s, v, he, h3⟩ := hA
        obtain ⟨c1, s', c2, hc, -⟩ := (Balanced.tree n hB1).split hmb
        have e2 : (⟨n, .leading⟩ :: (b ++ ⟨n, .trailing⟩ :: c) : List Iter) =
          c1 ++ (⟨m, .leading⟩ :: (s' ++ ⟨m, .trailing⟩ :: (c2 ++ c))) := by
          rw [ec, hc]; simp
        rw [ec, hc] at hN
        rw [e2] at he
        have hN' : (c1 ++ (⟨m, .leading⟩ :: (s' ++ ⟨m, .trailing⟩ :: (c2 ++ c))) : List Iter).Nodup := by
          simpa using hN
        obtain ⟨-, h4⟩ := append_cons_inj hN' he
        obtain ⟨h5, -⟩ := append_cons_inj (List.nodup_append.mp hN').2.1.tail h4
        rcases h3 with rfl | h3
        · exact hmc hk
        · rw [← h5] at h3
          exact disjoint_of_nodup hN (z := ⟨k, .leading⟩) (by simp [h3]) (by simp [hk])
    · intro hA
      rw [ec] at hN ⊢; exact (ancestor_infix hB2 hN hA.mem.1 hk).mpr hA
  exact ⟨hNb, hNc, hself, hAb, hAc⟩

theorem shown_aux {ok : Ptr → Prop} {b b' : List Iter} (hf : Filtered ok b b') (hN : b.Nodup) :
    ∀ x, x ∈ b' ↔ x ∈ b ∧ ∀ m, AncestorOrSelf b m x.node → ok m := by
  induction hf with
  | nil => simp
  | @keep n b b' c c' hn h1 h2 ih1 ih2 =>
    have hB1 := h1.balanced
    have hB2 := h2.balanced
    obtain ⟨hNb, hNc, hself, hAb, hAc⟩ := ancestor_cons hB1 hB2 hN
    intro x
    simp only [List.mem_cons, List.mem_append, ih1 hNb, ih2 hNc]
    constructor
    · rintro (rfl | ⟨hx, h3⟩ | rfl | ⟨hx, h3⟩)
      · exact ⟨Or.inl rfl, fun m hm => by rw [hself m hm]; exact hn⟩
      · refine ⟨Or.inr (Or.inl hx), fun m hm => ?_⟩
        rcases (hAb _ (hB1.mem_edge hx .leading) m).mp hm with rfl | hm
        · exact hn
        · exact h3 m hm
      · exact ⟨Or.inr (Or.inr (Or.inl rfl)), fun m hm => by rw [hself m hm]; exact hn⟩
      · exact ⟨Or.inr (Or.inr (Or.inr hx)), fun m hm => h3 m ((hAc _ (hB2.mem_edge hx .leading) m).mp hm)⟩
    · rintro ⟨rfl | hx | rfl | hx, h3⟩
      · exact Or.inl rfl
      · exact Or.inr (Or.inl ⟨hx, fun m hm => h3 m ((hAb _ (hB1.mem_edge hx .leading) m).mpr (Or.inr hm))⟩)
      · exact Or.inr (Or.inr (Or.inl rfl))
      · exact Or.inr (Or.inr (Or.inr ⟨hx, fun m hm => h3 m ((hAc _ (hB2.mem_edge hx .leading) m).mpr hm)⟩))
  | @drop n b c c' hn hB1 h2 ih =>
    have hB2 := h2.balanced
    obtain ⟨hNb, hNc, hself, hAb, hAc⟩ := ancestor_cons hB1 hB2 hN
    have hAn : AncestorOrSelf (⟨n, .leading⟩ :: (b ++ ⟨n, .trailing⟩ :: c)) n n :=
      ⟨[], b, c, rfl, Or.inl rfl⟩
    intro x
    simp only [List.mem_cons, List.mem_append, ih hNc]
    constructor
    · rintro ⟨hx, h3⟩
      exact ⟨Or.inr (Or.inr (Or.inr hx)), fun m hm => h3 m ((hAc _ (hB2.mem_edge hx .leading) m).mp hm)⟩
    · rintro ⟨rfl | hx | rfl | hx, h3⟩
      · exact absurd (h3 n hAn) hn
      · exact absurd (h3 n ((hAb _ (hB1.mem_edge hx .leading) n).mpr (Or.inl rfl))) hn
      · exact absurd (h3 n hAn) hn
      · exact ⟨hx, fun m hm => h3 m ((hAc _ (hB2.mem_edge hx .leading) m).mpr hm)⟩

theorem Filtered.sublist {ok : Ptr → Prop} {b b' : List Iter} (hf : Filtered ok b b') : b'.Sublist b := by
  induction hf with
  | nil => exact List.Sublist.refl _
  | keep n _ _ _ ih1 ih2 => exact (ih1.append (ih2.cons_cons _)).cons_cons _
  | drop n _ hb _ ih => exact ((ih.cons _).trans (List.sublist_append_right _ _)).cons _

theorem Filtered.eq_shown {ok : Ptr → Prop} {b b' : List Iter} (hf : Filtered ok b b') (hN : b.Nodup) :
    b' = shown ok b := by
  have key := shown_aux hf hN
  have h1 : b' = b.filter (fun x => decide (x ∈ b')) := by
    have := hf.sublist
    clear key hf
    induction this with
    | slnil => rfl
    | @cons l1 l2 a hs ih =>
      have hN' := List.nodup_cons.mp hN
      have ha : a ∉ l1 := fun hx => hN'.1 (hs.subset hx)
      rw [List.filter_cons]
      simp only [ha, decide_false, Bool.false_eq_true, if_false]
      exact ih hN'.2
    | @cons_cons l1 l2 a hs ih =>
      have hN' := List.nodup_cons.mp hN
      rw [List.filter_cons]
      simp only [List.mem_cons, true_or, decide_true, if_true, List.cons.injEq, true_and]
      conv_lhs => rw [ih hN'.2]
      refine List.filter_congr ?_
      intro x hx
      have : x ≠ a := by rintro rfl; exact hN'.1 hx
      simp [this]
  rw [h1, shown]
  refine List.filter_congr ?_
  intro x hx
  rw [decide_eq_decide, key]
  simp [hx]

end Verif.Forest
