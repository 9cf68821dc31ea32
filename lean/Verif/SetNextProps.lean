import Verif.SetNext

/-!
# C64: linked lists
-/

namespace Verif.SetNext

variable {s : Links}

/-- **C64**, splicing: nodes linked with each other that are in no ring are inserted after `location`, in their order. -/
theorem c64_splice {location first : Nat} {l seg : List Nat} (h : Ring s location l) (hs : Segment s first seg)
    (hn : (location :: (first :: seg) ++ l).Nodup) :
    Ring (spliceNodeRange s location first (last first seg)) location (first :: seg ++ l) := by
  obtain ⟨hn0, hc⟩ := h
  have hlm := last_mem first seg
  have hll : last first seg ≠ location := fun e => by rw [e] at hlm; simp at hn hlm; grind
  have hfl : first ≠ location := by simp at hn; grind
  -- the segment
  have hseg : Segment (spliceNodeRange s location first (last first seg)) first seg := by
    have hnd : (first :: seg).Nodup := by simp [List.nodup_append] at hn ⊢; grind
    refine Segment.set (Segment.set hs ?_ ?_ hnd) ?_ ?_ hnd
    · intro z hz; left; rintro rfl; simp at hn hz; grind
    · simp at hnd; exact hnd.1
    · intro z _; exact Classical.em (z = last first seg) |>.symm.imp id id
    · cases l with
      | nil => rw [hc.1]; simp at hn; grind
      | cons y l => rw [hc.1]; simp [List.nodup_append] at hn; grind
  have hsuc : (spliceNodeRange s location first (last first seg)).next (last first seg) = s.next location := by
    simp [spliceNodeRange, setNext, upd]
  have hsuc' : (spliceNodeRange s location first (last first seg)).prev (s.next location) = last first seg := by
    simp [spliceNodeRange, setNext, upd]
  have hfirst : (spliceNodeRange s location first (last first seg)).next location = first := by
    simp [spliceNodeRange, setNext, upd, Ne.symm hll]
  have hfirst' : (spliceNodeRange s location first (last first seg)).prev first = location := by
    have : first ≠ s.next location := by
      cases l with
      | nil => rw [hc.1]; exact hfl
      | cons y l => rw [hc.1]; simp at hn; grind
    simp [spliceNodeRange, setNext, upd, this]
  refine ⟨by simpa using hn, hfirst, hfirst', ?_⟩
  change Chain _ first (seg ++ l) _
  rw [chain_iff]
  cases l with
  | nil =>
    rw [hc.1] at hsuc hsuc'
    rw [List.append_nil]
    exact ⟨hseg, hsuc, hsuc'⟩
  | cons y l =>
    obtain ⟨h4, h5, h6⟩ := hc
    rw [h4] at hsuc hsuc'
    rw [chain_iff] at h6
    have hym := last_mem y l
    have hne : last y l ≠ location ∧ last y l ≠ last first seg := by
      refine ⟨fun e => ?_, fun e => ?_⟩
      · rw [e] at hym; simp at hn hym; grind
      · rw [e] at hym; simp [List.nodup_append] at hn hlm hym; grind
    have hnd : (y :: l).Nodup := (List.nodup_cons.1 hn0).2
    have hl : Segment (spliceNodeRange s location first (last first seg)) y l := by
      refine Segment.set (Segment.set h6.1 ?_ ?_ hnd) ?_ ?_ hnd
      · intro z hz; left; rintro rfl; simp at hn hz; grind
      · simp [List.nodup_append] at hn; grind
      · intro z hz; left; rintro rfl; simp [List.nodup_append] at hn hz hlm; grind
      · rw [h4]; exact (List.nodup_cons.1 hnd).1
    refine ⟨segment_append hseg hl hsuc hsuc', ?_, ?_⟩
    · rw [last_append]
      simp [spliceNodeRange, setNext, upd, hne, h6.2.1]
    · rw [last_append]
      have h7 : location ≠ y := by simp at hn; grind
      simp [spliceNodeRange, setNext, upd, h4, h7, hfl.symm, h6.2.2]

/-- **C64**, skipping the next node: it is not in the ring any more. -/
theorem c64_skip_next {location x : Nat} {l : List Nat} (h : Ring s location (x :: l)) : Ring (skipNextNode s location) location l := by
  obtain ⟨hn, h1, h2, h3⟩ := h
  cases l with
  | nil => simp_all [Ring, Chain, skipNextNode, setNext, upd]
  | cons y l =>
    obtain ⟨h4, h5, h6⟩ := h3
    refine ⟨by simp at hn ⊢; grind, ?_, ?_, ?_⟩
    · simp [skipNextNode, setNext, upd, h1, h4]
    · simp [skipNextNode, setNext, upd, h1, h4]
    · rw [chain_iff] at h6 ⊢
      have hm := last_mem y l
      have hl : last y l ≠ location := fun e => by rw [e] at hm; simp at hn hm; grind
      refine ⟨h6.1.set ?_ ?_ ?_, ?_, ?_⟩
      · intro z hz; left; rintro rfl; simp at hn hz; grind
      · simp at hn; rw [h1, h4]; grind
      · simp at hn ⊢; grind
      · simp [skipNextNode, setNext, upd, hl, h6.2.1]
      · rw [skipNextNode, h1, h4]
        simp only [setNext, upd]
        rw [if_neg (by simp at hn; grind)]
        exact h6.2.2

/-- **C64**, skipping a node: it is not in the ring any more. -/
theorem c64_skip {x location : Nat} {l : List Nat} (h : Ring s x (location :: l)) : Ring (skipNode s location) x l := by
  have h1 := h.2.1
  have h2 := h.2.2.1
  have : skipNode s location = skipNextNode s x := by simp [skipNode, skipNextNode, h1, h2]
  rw [this]
  exact c64_skip_next h

/-- The two nodes the links of which change. -/
theorem Ring.other {a x y : Nat} {l : List Nat} (h : Ring s a l) (hx : x ∉ a :: l) (hy : y ∉ a :: l) : Ring (setNext s x y) a l := by
  refine ⟨h.1, ?_⟩
  have hm := last_mem a l
  have := chain_iff.1 h.2
  rw [chain_iff]
  refine ⟨this.1.set (fun z hz => .inl (by rintro rfl; exact hx hz)) (fun hl => hy (List.mem_cons_of_mem _ hl)) h.1, ?_, ?_⟩
  · simp only [setNext, upd]
    rw [if_neg (by rintro rfl; exact hx hm)]; exact this.2.1
  · simp only [setNext, upd]
    rw [if_neg (by rintro rfl; simp at hy)]; exact this.2.2

/-- **C64**, all these leave every other ring as it is. -/
theorem c64_others {a b x : Nat} {l m : List Nat} (h : Ring s a l) (hr : Ring s b (x :: m)) (hd : ∀ z ∈ a :: l, z ∉ b :: x :: m) :
    Ring (skipNextNode s b) a l ∧ Ring (skipNode s x) a l ∧
    ∀ first seg, (∀ z ∈ a :: l, z ∉ first :: seg) → Ring (spliceNodeRange s b first (last first seg)) a l := by
  have hd' : ∀ z ∈ b :: x :: m, z ∉ a :: l := fun z hz hz' => hd z hz' hz
  have h1 := hr.2.1
  have h2 := hr.2.2.1
  have h3 : s.next x ∈ b :: x :: m := by
    have := hr.2.2.2
    cases m with
    | nil => simp [this.1]
    | cons y m => simp [this.1]
  refine ⟨?_, ?_, fun first seg hf => ?_⟩
  · rw [skipNextNode, h1]
    exact h.other (hd' b (by simp)) (hd' _ h3)
  · rw [skipNode, h2]
    exact h.other (hd' b (by simp)) (hd' _ h3)
  · rw [spliceNodeRange]
    refine Ring.other (h.other (hd' b (by simp)) fun hz => hf _ hz (by simp)) (fun hz => hf _ hz (last_mem _ _)) ?_
    rw [h1]; exact hd' x (by simp)

/-- The rings 0-1-2 and 3-4-5-6, and the nodes 7 and 8 linked with each other. -/
def two : Links where
  next i := match i with | 0 => 1 | 1 => 2 | 2 => 0 | 3 => 4 | 4 => 5 | 5 => 6 | 6 => 3 | 7 => 8 | _ => 0
  prev i := match i with | 0 => 2 | 1 => 0 | 2 => 1 | 3 => 6 | 4 => 3 | 5 => 4 | 6 => 5 | 8 => 7 | _ => 0

/-- `c64_splice`, `c64_skip_next`, `c64_skip`, `c64_others` -/
example : Ring two 0 [1, 2] ∧ Ring two 3 [4, 5, 6] ∧ Segment two 7 [8] ∧ (0 :: (7 :: [8]) ++ [1, 2]).Nodup ∧
    (∀ z ∈ [3, 4, 5, 6], z ∉ [0, 1, 2]) := by
  simp [Ring, Chain, Segment, two]

example : Ring (spliceNodeRange two 0 7 8) 0 [7, 8, 1, 2] ∧ Ring (skipNode two 4) 3 [5, 6] :=
  ⟨c64_splice (seg := [8]) (by simp [Ring, Chain, two]) (by simp [Segment, two]) (by simp), c64_skip (by simp [Ring, Chain, two])⟩

end Verif.SetNext
