import Verif.Channel.Relay

/-!
# Invariants of channels with relays
-/

namespace Verif.Relay

/-- Relay `r` owns a sender of channel `c`. -/
def into (c : Nat) (r : Rl) : Bool := r.pc == .on && r.dst == c

/-! ## Senders are counted -/

/-- A sender of `ex` is being destroyed. -/
structure InvC (s : St) (ex : Option Nat) : Prop where
  um : ∀ c ∈ s.user, c < s.made
  rm : ∀ r ∈ s.rels, r.src < s.made ∧ r.dst < s.made
  cnt : ∀ c, (s.ch c).dead = false →
    (s.ch c).count = s.user.count c + s.rels.countP (into c) + (if ex = some c then 1 else 0)
  cls : ∀ c, c < s.made → (s.ch c).dead = false → ((s.ch c).closed = true ↔ (s.ch c).count = 0)
  new : ∀ c, s.made ≤ c → s.ch c = {}

theorem countP_set (p : Rl → Bool) (l : List Rl) (i : Nat) (a b : Rl) (h : l[i]? = some a) :
    (l.set i b).countP p + (if p a then 1 else 0) = l.countP p + (if p b then 1 else 0) := by
  induction l generalizing i with
  | nil => simp at h
  | cons x l ih =>
    cases i with
    | zero => simp at h; subst h; simp [List.countP_cons]; omega
    | succ i => simp at h; have := ih i h; simp [List.countP_cons]; omega

theorem mem_of_get {l : List Rl} {i : Nat} {x : Rl} (h : l[i]? = some x) : x ∈ l := List.mem_of_getElem? h

theorem into_feed (c a v : Nat) (r : Rl) : into c (feed a v r) = into c r := by
  simp only [feed]; split <;> rfl

theorem countP_feed (c a v : Nat) (l : List Rl) : (l.map (feed a v)).countP (into c) = l.countP (into c) := by
  induction l with
  | nil => rfl
  | cons x l ih => simp [List.countP_cons, ih, into_feed]

theorem InvC.remove {s s' : St} {c : Nat} (I : InvC s (some c)) (e : removeSender s c = .ok s') : InvC s' none := by
  simp only [removeSender] at e
  have hcnt := I.cnt
  split at e
  · rename_i hd
    cases e
    refine ⟨I.um, I.rm, fun d hdd => ?_, I.cls, I.new⟩
    have := hcnt d hdd
    by_cases h : c = d
    · subst h; rw [hd] at hdd; cases hdd
    · simpa [h] using this
  · split at e
    · cases e
    · rename_i hd h0
      cases e
      have hcm : c < s.made := by
        by_cases h : c < s.made
        · exact h
        · rw [I.new c (by omega)] at h0; exact absurd rfl h0
      refine ⟨I.um, I.rm, fun d hdd => ?_, fun d hdm hdd => ?_, fun d hdm => ?_⟩
      · by_cases h : d = c
        · subst h; have := hcnt d (by simpa using hd); simp [upd] at this ⊢; omega
        · have h' : ¬ c = d := fun h' => h h'.symm
          have := hcnt d (by simpa [upd, h] using hdd); simpa [upd, h, h'] using this
      · by_cases h : d = c
        · subst h
          have := (I.cls d hdm (by simpa using hd))
          have hcl : (s.ch d).closed = false := by
            cases hc : (s.ch d).closed
            · rfl
            · exact absurd (this.1 hc) h0
          simp [upd, hcl]
        · have := I.cls d hdm (by simpa [upd, h] using hdd); simpa [upd, h] using this
      · have h : d ≠ c := by simp at hdm; omega
        simpa [upd, h] using I.new d hdm

theorem InvC.remove_ub {s : St} {c : Nat} (I : InvC s (some c)) : removeSender s c ≠ .ub := by
  simp only [removeSender]
  split
  · simp
  · rename_i hd
    have := I.cnt c (by simpa using hd)
    split
    · simp at this; omega
    · simp

/-- Neither counts nor senders change. -/
theorem InvC.congr {s s' : St} {ex : Option Nat} (I : InvC s ex) (h1 : s'.made = s.made) (h2 : s'.user = s.user)
    (h3 : ∀ c, s'.rels.countP (into c) = s.rels.countP (into c))
    (h3' : ∀ r ∈ s'.rels, ∃ r' ∈ s.rels, r.src = r'.src ∧ r.dst = r'.dst)
    (h4 : ∀ c, (s'.ch c).count = (s.ch c).count ∧ (s'.ch c).closed = (s.ch c).closed ∧
      ((s'.ch c).dead = false → (s.ch c).dead = false)) (h5 : ∀ c, s.made ≤ c → s'.ch c = s.ch c) : InvC s' ex := by
  refine ⟨?_, ?_, ?_, ?_, ?_⟩
  · rw [h1, h2]; exact I.um
  · intro r hr; obtain ⟨r', hr', h6, h7⟩ := h3' r hr; rw [h1, h6, h7]; exact I.rm r' hr'
  · intro c hc; rw [(h4 c).1, h2, h3]; exact I.cnt c ((h4 c).2.2 hc)
  · intro c hc hd; rw [(h4 c).1, (h4 c).2.1]; exact I.cls c (h1 ▸ hc) ((h4 c).2.2 hd)
  · intro c hc; rw [h1] at hc; rw [h5 c hc]; exact I.new c hc

theorem InvC.sendTo {s : St} (I : InvC s none) (f : Option Nat) {c : Nat} (hc : c < s.made) (v : Nat) :
    InvC (sendTo s f c v) none := by
  simp only [Relay.sendTo]
  split
  · exact I
  · refine I.congr rfl rfl (fun _ => rfl) (fun r hr => ⟨r, hr, rfl, rfl⟩) (fun d => ?_) (fun d hd => ?_)
    · by_cases h : d = c <;> simp [upd, h]
    · have : d ≠ c := by omega
      simp [upd, this]

/-- Relay `r` gives its sender up. -/
theorem InvC.off {s : St} (I : InvC s none) {r : Nat} {x y : Rl} (h : s.rels[r]? = some x) (hx : x.pc = .on)
    (hy : y.pc ≠ .on) (hs : y.src = x.src) (hd : y.dst = x.dst) : InvC { s with rels := s.rels.set r y } (some x.dst) := by
  refine ⟨I.um, fun z hz => ?_, fun c hc => ?_, I.cls, I.new⟩
  · rcases List.mem_or_eq_of_mem_set hz with hz | hz
    · exact I.rm z hz
    · subst hz; rw [hs, hd]; exact I.rm x (mem_of_get h)
  · have h1 := I.cnt c hc
    have h2 := countP_set (into c) s.rels r x y h
    have h3 : into c y = false := by simp [into, hy]
    have h4 : into c x = (x.dst == c) := by simp [into, hx]
    rw [h3, h4] at h2
    simp at h1 h2 ⊢
    omega

theorem InvC.step {s s' : St} (I : InvC s none) {a : Act} (e : step s a = .ok s') : InvC s' none := by
  cases a with
  | make =>
    cases e
    have hu : s.user.count s.made = 0 := List.count_eq_zero.2 fun h => by have := I.um _ h; omega
    have hr : s.rels.countP (into s.made) = 0 := List.countP_eq_zero.2 fun r h => by
      have := (I.rm r h).2; simp [into]; intro _; omega
    refine ⟨fun c hc => ?_, fun r hr => ?_, fun c hc => ?_, fun c hcm hc => ?_, fun c hc => ?_⟩
    · simp at hc ⊢; rcases hc with rfl | hc
      · omega
      · have := I.um c hc; omega
    · have := I.rm r hr; simp; omega
    · by_cases h : c = s.made
      · subst h; simp [upd, hu, hr]
      · have h' : ¬ s.made = c := fun h' => h h'.symm
        have := I.cnt c (by simpa [upd, h] using hc)
        simpa [upd, h, List.count_cons, h'] using this
    · by_cases h : c = s.made
      · subst h; simp [upd]
      · have := I.cls c (by simp at hcm; omega) (by simpa [upd, h] using hc)
        simpa [upd, h] using this
    · simp at hc
      have h : c ≠ s.made := by omega
      simpa [upd, h] using I.new c (by omega)
  | copy c =>
    simp only [Relay.step] at e
    split at e
    · cases e
    · rename_i hm
      have hm : c ∈ s.user := Classical.byContradiction hm
      have hcm := I.um c hm
      split at e <;> cases e <;> rename_i hd
      · refine ⟨fun d h => ?_, I.rm, fun d h => ?_, I.cls, I.new⟩
        · simp at h; rcases h with rfl | h
          · exact hcm
          · exact I.um d h
        · have hne : ¬ c = d := fun h' => by subst h'; simp [hd] at h
          have := I.cnt d h
          simpa [List.count_cons, hne] using this
      · have hpos : 0 < s.user.count c := List.count_pos_iff.2 hm
        refine ⟨fun d h => ?_, I.rm, fun d h => ?_, fun d h1 h2 => ?_, fun d h => ?_⟩
        · simp at h; rcases h with rfl | h
          · exact hcm
          · exact I.um d h
        · by_cases hdc : d = c
          · subst hdc; have := I.cnt d (by simpa using hd); simp [upd] at this ⊢; omega
          · have h' : ¬ c = d := fun h' => hdc h'.symm
            have := I.cnt d (by simpa [upd, hdc] using h)
            simpa [upd, hdc, List.count_cons, h'] using this
        · by_cases hdc : d = c
          · subst hdc
            have h3 := I.cls d hcm (by simpa using hd)
            have h4 := I.cnt d (by simpa using hd)
            cases hc : (s.ch d).closed
            · simp [upd, hc]
            · have := h3.1 hc; simp at h4; omega
          · have := I.cls d h1 (by simpa [upd, hdc] using h2)
            simpa [upd, hdc] using this
        · have hdc : d ≠ c := by simp at h; omega
          simpa [upd, hdc] using I.new d h
  | drop c =>
    simp only [Relay.step] at e
    split at e
    · cases e
    · rename_i hm
      have hm : c ∈ s.user := Classical.byContradiction hm
      refine InvC.remove (s := { s with user := s.user.erase c }) (c := c) ⟨fun d h => I.um d (List.mem_of_mem_erase h), I.rm, fun d h => ?_, I.cls, I.new⟩ e
      have := I.cnt d h
      have hpos : 0 < s.user.count c := List.count_pos_iff.2 hm
      by_cases hdc : c = d
      · subst hdc; simp [List.count_erase_self] at this ⊢; omega
      · have h' : ¬ d = c := fun h' => hdc h'.symm
        simpa [hdc, List.count_erase_of_ne h'] using this
  | send c v =>
    simp only [Relay.step] at e
    split at e
    · cases e
    · rename_i hm
      cases e
      exact I.sendTo none (I.um c (Classical.byContradiction hm)) v
  | ready a =>
    simp only [Relay.step] at e
    split at e <;> cases e
    rename_i h
    refine I.congr rfl rfl (fun _ => rfl) (fun r hr => ⟨r, hr, rfl, rfl⟩) (fun d => ?_) (fun d hd => ?_)
    · by_cases h : d = a <;> simp [upd, h]
    · have : d ≠ a := by omega
      simp [upd, this]
  | die a =>
    simp only [Relay.step] at e
    split at e <;> cases e
    rename_i h
    refine I.congr rfl rfl (fun _ => rfl) (fun r hr => ⟨r, hr, rfl, rfl⟩) (fun d => ?_) (fun d hd => ?_)
    · by_cases h : d = a <;> simp [upd, h]
    · have : d ≠ a := by omega
      simp [upd, this]
  | relay a c =>
    simp only [Relay.step] at e
    split at e <;> cases e
    rename_i h
    obtain ⟨h1, h2, h3, h4⟩ := h
    refine ⟨fun d hd => I.um d (List.mem_of_mem_erase hd), fun r hr => ?_, fun d hd => ?_, I.cls, I.new⟩
    · simp at hr; rcases hr with hr | rfl
      · exact I.rm r hr
      · exact ⟨h1, I.um c h4⟩
    · have := I.cnt d hd
      have hpos : 0 < s.user.count c := List.count_pos_iff.2 h4
      by_cases hdc : c = d
      · subst hdc; simp [List.count_erase_self, into] at this ⊢; omega
      · have h' : ¬ d = c := fun h' => hdc h'.symm
        simpa [hdc, List.count_erase_of_ne h', into] using this
  | dropRelay r =>
    simp only [Relay.step] at e
    split at e
    · rename_i x hx
      split at e
      · exact (I.off (y := { x with pc := .dropped, queue := [] }) hx (by assumption) (by simp) rfl rfl).remove e
      · cases e
    · cases e
  | run a =>
    simp only [Relay.step] at e
    split at e
    · rename_i h
      split at e <;> cases e
      refine I.congr rfl rfl (fun c => countP_feed c a _ _) (fun r hr => ?_) (fun d => ?_) (fun d hd => ?_)
      · simp at hr; obtain ⟨r', hr', rfl⟩ := hr
        refine ⟨r', hr', ?_⟩; simp only [feed]; split <;> simp
      · by_cases h : d = a <;> simp [upd, h]
      · have : d ≠ a := by omega
        simp [upd, this]
    · cases e
  | runRelay r =>
    simp only [Relay.step] at e
    split at e
    · rename_i x hx
      split at e <;> cases e
      rename_i v q hq
      refine InvC.sendTo (s := { s with rels := s.rels.set r { x with queue := q, passed := x.passed ++ [v] } }) ?_ _
        (I.rm x (mem_of_get hx)).2 _
      refine I.congr rfl rfl (fun c => ?_) (fun z hz => ?_) (fun d => by simp) (fun d hd => rfl)
      · have := countP_set (into c) s.rels r x { x with queue := q, passed := x.passed ++ [v] } hx
        have h : into c { x with queue := q, passed := x.passed ++ [v] } = into c x := rfl
        rw [h] at this; simp only; omega
      · rcases List.mem_or_eq_of_mem_set hz with hz | hz
        · exact ⟨z, hz, rfl, rfl⟩
        · subst hz; exact ⟨x, mem_of_get hx, rfl, rfl⟩
    · cases e
  | finish a =>
    simp only [Relay.step] at e
    split at e <;> cases e
    rename_i h
    refine I.congr rfl rfl (fun _ => rfl) (fun r hr => ⟨r, hr, rfl, rfl⟩) (fun d => ?_) (fun d hd => ?_)
    · by_cases h : d = a <;> simp [upd, h]
    · have : d ≠ a := by omega
      simp [upd, this]
  | finishRelay r =>
    simp only [Relay.step] at e
    split at e
    · rename_i x hx
      split at e
      · rename_i h
        exact (I.off (y := { x with pc := .ended }) hx h.1 (by simp) rfl rfl).remove e
      · cases e
    · cases e

theorem InvC.init : InvC {} none :=
  ⟨by simp, by simp, by simp, by simp, by simp⟩

theorem InvC.exec {s s' : St} (I : InvC s none) {as : List Act} (e : exec s as = some s') : InvC s' none := by
  induction as generalizing s with
  | nil => cases e; exact I
  | cons a as ih =>
    simp only [Relay.exec] at e
    split at e
    · rename_i s1 h1; exact ih (I.step h1) e
    · cases e

theorem Reachable.invC {s : St} (h : Reachable s) : InvC s none := by
  obtain ⟨as, e⟩ := h; exact InvC.init.exec e

theorem InvC.open_ {s : St} (I : InvC s none) {c : Nat} (hd : (s.ch c).dead = false)
    (h : c ∈ s.user ∨ ∃ r ∈ s.rels, r.pc = .on ∧ r.dst = c) : (s.ch c).closed = false := by
  have hm : c < s.made := by
    rcases h with h | ⟨r, hr, _, rfl⟩
    · exact I.um c h
    · exact (I.rm r hr).2
  have hpos : 0 < s.user.count c + s.rels.countP (into c) := by
    rcases h with h | ⟨r, hr, h1, h2⟩
    · have := List.count_pos_iff.2 h; omega
    · have : 0 < s.rels.countP (into c) := List.countP_pos_iff.2 ⟨r, hr, by simp [into, h1, h2]⟩
      omega
  have h1 := I.cnt c hd
  have h2 := I.cls c hm hd
  cases hc : (s.ch c).closed
  · rfl
  · have := h2.1 hc; simp at h1; omega

/-! ## Messages -/

/-- What came from relay `r`. -/
def of (r : Nat) (l : List (Option Nat × Nat)) : List Nat := (l.filter (·.1 == some r)).map (·.2)

theorem of_append (r : Nat) (l : List (Option Nat × Nat)) (f : Option Nat) (v : Nat) :
    of r (l ++ [(f, v)]) = of r l ++ (if f = some r then [v] else []) := by
  simp only [of, List.filter_append, List.map_append]
  by_cases h : f = some r <;> simp [h]

structure InvM (s : St) : Prop where
  fin : ∀ c, (s.ch c).final = true → (s.ch c).closed = true
  finq : ∀ c, (s.ch c).final = true → (s.ch c).dead = false → (s.ch c).queue = []
  nrd : ∀ c, (s.ch c).ready = false → (s.ch c).handled = []
  arr : ∀ c, (s.ch c).arrived.map (·.2) = (s.ch c).handled ++ (s.ch c).queue
  off : ∀ r ∈ s.rels, r.pc ≠ .on → r.queue = []
  alv : ∀ r ∈ s.rels, r.pc = .on → (s.ch r.src).dead = false
  hnd : ∀ r ∈ s.rels, r.pc = .on → (s.ch r.src).handled = r.passed ++ r.queue
  drp : ∀ r ∈ s.rels, r.passed <+: (s.ch r.src).handled
  edd : ∀ r ∈ s.rels, r.pc = .ended → (s.ch r.src).final = true ∧ (s.ch r.src).handled = r.passed
  tag : ∀ i r, s.rels[i]? = some r → (s.ch r.dst).dead = false → of i (s.ch r.dst).arrived = r.passed
  tgn : ∀ i c, s.rels.length ≤ i → of i (s.ch c).arrived = []
  tgo : ∀ i r c, s.rels[i]? = some r → c ≠ r.dst → of i (s.ch c).arrived = []

/-- What is the same, or further, for the messages. -/
theorem InvM.congr {s s' : St} (I : InvM s) (h1 : s'.rels = s.rels)
    (h2 : ∀ c, (s'.ch c).final = (s.ch c).final ∧ ((s.ch c).closed = true → (s'.ch c).closed = true) ∧
      (s'.ch c).dead = (s.ch c).dead ∧ ((s.ch c).ready = true → (s'.ch c).ready = true) ∧
      (s'.ch c).queue = (s.ch c).queue ∧
      (s'.ch c).arrived = (s.ch c).arrived ∧ (s'.ch c).handled = (s.ch c).handled) : InvM s' := by
  obtain ⟨a1, a2, a3, a4, a5, a6, a7, a8, a9, a10, a11, a12⟩ := I
  refine ⟨?_, ?_, ?_, ?_, ?_, ?_, ?_, ?_, ?_, ?_, ?_, ?_⟩ <;> rw [h1] at * <;> grind

theorem InvM.remove {s s' : St} {c : Nat} (I : InvM s) (e : removeSender s c = .ok s') : InvM s' := by
  simp only [removeSender] at e
  split at e
  · cases e; exact I
  · split at e
    · cases e
    · cases e
      refine I.congr rfl fun d => ?_
      by_cases h : d = c
      · subst h; simp [upd]; intro h; simp [h]
      · simp [upd, h]

/-- The user sends. -/
theorem InvM.send {s : St} (I : InvM s) {c : Nat} (v : Nat) (ho : (s.ch c).dead = false → (s.ch c).final = false) :
    InvM (sendTo s none c v) := by
  simp only [Relay.sendTo]
  split
  · exact I
  · rename_i hd
    have hd : (s.ch c).dead = false := by simpa using hd
    have ho := ho hd
    obtain ⟨a1, a2, a3, a4, a5, a6, a7, a8, a9, a10, a11, a12⟩ := I
    refine ⟨?_, ?_, ?_, ?_, ?_, ?_, ?_, ?_, ?_, ?_, ?_, ?_⟩ <;> simp only [upd] <;> grind [of_append]

/-- Relay `r` becomes another. -/
theorem InvM.setRel {s : St} (I : InvM s) {r : Nat} {x y : Rl} (h : s.rels[r]? = some x) (hs : y.src = x.src)
    (hd : y.dst = x.dst) (hp : y.passed = x.passed) (h1 : y.pc ≠ .on) (h2 : y.queue = [])
    (h3 : y.pc = .ended → (s.ch x.src).final = true ∧ (s.ch x.src).handled = x.passed) :
    InvM { s with rels := s.rels.set r y } := by
  have hx := mem_of_get h
  have hm : ∀ z, z ∈ s.rels.set r y → z ∈ s.rels ∨ z = y := fun z hz => List.mem_or_eq_of_mem_set hz
  obtain ⟨a1, a2, a3, a4, a5, a6, a7, a8, a9, a10, a11, a12⟩ := I
  refine ⟨a1, a2, a3, a4, ?_, ?_, ?_, ?_, ?_, ?_, ?_, ?_⟩
  · intro z hz; rcases hm z hz with hz | rfl
    · exact a5 z hz
    · exact fun _ => h2
  · intro z hz hon; rcases hm z hz with hz | rfl
    · exact a6 z hz hon
    · exact absurd hon h1
  · intro z hz hon; rcases hm z hz with hz | rfl
    · exact a7 z hz hon
    · exact absurd hon h1
  · intro z hz; rcases hm z hz with hz | rfl
    · exact a8 z hz
    · rw [hp, hs]; exact a8 x hx
  · intro z hz he; rcases hm z hz with hz | rfl
    · exact a9 z hz he
    · rw [hp, hs]; exact h3 he
  · intro i z hz; simp only [List.getElem?_set] at hz
    split at hz
    · split at hz
      · cases hz; subst r; rw [hp, hd]; exact a10 i x h
      · cases hz
    · exact a10 i z hz
  · intro i c hi; exact a11 i c (by simpa using hi)
  · intro i z c hz; simp only [List.getElem?_set] at hz
    split at hz
    · split at hz
      · cases hz; subst r; rw [hd]; exact a12 i x c h
      · cases hz
    · exact a12 i z c hz

theorem feed_src (a v : Nat) (r : Rl) : (feed a v r).src = r.src ∧ (feed a v r).dst = r.dst ∧
    (feed a v r).passed = r.passed ∧ (feed a v r).pc = r.pc := by
  simp only [feed]; split <;> simp

theorem feed_queue (a v : Nat) (r : Rl) :
    (feed a v r).queue = if r.pc = .on ∧ r.src = a then r.queue ++ [v] else r.queue := by
  simp only [feed]; split <;> rfl

theorem InvM.step {s s' : St} (C : InvC s none) (I : InvM s) {a : Act} (e : step s a = .ok s') : InvM s' := by
  cases a with
  | make =>
    cases e
    have hn := C.new s.made (Nat.le_refl _)
    refine I.congr rfl fun c => ?_
    by_cases h : c = s.made
    · subst h; simp [upd, hn]
    · simp [upd, h]
  | copy c =>
    simp only [Relay.step] at e
    split at e
    · cases e
    · split at e <;> cases e
      · exact I.congr rfl fun c => by simp
      · refine I.congr rfl fun d => ?_
        by_cases h : d = c
        · subst h; simp [upd]
        · simp [upd, h]
  | drop c =>
    simp only [Relay.step] at e
    split at e
    · cases e
    · exact InvM.remove (s := { s with user := s.user.erase c }) (I.congr rfl fun c => by simp) e
  | send c v =>
    simp only [Relay.step] at e
    split at e
    · cases e
    · rename_i hm
      cases e
      refine I.send v fun hd => ?_
      have := C.open_ hd (.inl (Classical.byContradiction hm))
      cases hf : (s.ch c).final
      · rfl
      · rw [I.fin c hf] at this; cases this
  | ready a =>
    simp only [Relay.step] at e
    split at e <;> cases e
    refine I.congr rfl fun d => ?_
    by_cases h : d = a
    · subst h; simp [upd]
    · simp [upd, h]
  | die a =>
    simp only [Relay.step] at e
    split at e <;> cases e
    rename_i h
    obtain ⟨a1, a2, a3, a4, a5, a6, a7, a8, a9, a10, a11, a12⟩ := I
    refine ⟨?_, ?_, ?_, ?_, ?_, ?_, ?_, ?_, ?_, ?_, ?_, ?_⟩ <;> simp only [upd] <;> grind
  | relay a c =>
    simp only [Relay.step] at e
    split at e <;> cases e
    rename_i h
    obtain ⟨h1, h2, h3, h4⟩ := h
    have hh := I.nrd a h3
    obtain ⟨a1, a2, a3, a4, a5, a6, a7, a8, a9, a10, a11, a12⟩ := I
    have key : ∀ i r, (s.rels ++ [({ src := a, dst := c } : Rl)])[i]? = some r →
        s.rels[i]? = some r ∨ i = s.rels.length ∧ r = { src := a, dst := c } := by
      intro i r hr
      rw [List.getElem?_append] at hr
      split at hr
      · exact .inl hr
      · have : i - s.rels.length = 0 := by
          cases hi : i - s.rels.length with
          | zero => rfl
          | succ n => simp [hi] at hr
        rw [this] at hr; simp at hr
        exact .inr ⟨by omega, hr.symm⟩
    refine ⟨a1, a2, a3, a4, ?_, ?_, ?_, ?_, ?_, ?_, ?_, ?_⟩
    · intro r hr; simp at hr; rcases hr with hr | rfl
      · exact a5 r hr
      · simp
    · intro r hr; simp at hr; rcases hr with hr | rfl
      · exact a6 r hr
      · exact fun _ => h2
    · intro r hr; simp at hr; rcases hr with hr | rfl
      · exact a7 r hr
      · exact fun _ => by simpa using hh
    · intro r hr; simp at hr; rcases hr with hr | rfl
      · exact a8 r hr
      · simp
    · intro r hr; simp at hr; rcases hr with hr | rfl
      · exact a9 r hr
      · intro h; cases h
    · intro i r hr; rcases key i r hr with hr | ⟨rfl, rfl⟩
      · exact a10 i r hr
      · exact fun _ => a11 _ _ (Nat.le_refl _)
    · intro i d hi; exact a11 i d (by simp at hi; omega)
    · intro i r d hr; rcases key i r hr with hr | ⟨rfl, rfl⟩
      · exact a12 i r d hr
      · exact fun _ => a11 _ _ (Nat.le_refl _)
  | dropRelay r =>
    simp only [Relay.step] at e
    split at e
    · rename_i x hx
      split at e
      · exact (I.setRel (y := { x with pc := .dropped, queue := [] }) hx rfl rfl rfl (by simp) rfl (by simp)).remove e
      · cases e
    · cases e
  | run a =>
    simp only [Relay.step] at e
    split at e
    · rename_i h
      obtain ⟨h1, h2, h3⟩ := h
      split at e
      · cases e
      · rename_i v q hq
        cases e
        have hnf : (s.ch a).final = false := by
          cases hf : (s.ch a).final
          · rfl
          · rw [I.finq a hf h2] at hq; cases hq
        obtain ⟨a1, a2, a3, a4, a5, a6, a7, a8, a9, a10, a11, a12⟩ := I
        refine ⟨?_, ?_, ?_, ?_, ?_, ?_, ?_, ?_, ?_, ?_, ?_, ?_⟩ <;>
          (try simp only [upd, List.mem_map, List.length_map, List.getElem?_map])
        · grind
        · grind
        · grind
        · grind
        · rintro r ⟨r', hr', rfl⟩ hpc
          rw [(feed_src a v r').2.2.2] at hpc
          rw [feed_queue, if_neg (fun h => hpc h.1)]; exact a5 r' hr' hpc
        · rintro r ⟨r', hr', rfl⟩ hpc
          rw [(feed_src a v r').2.2.2] at hpc
          rw [(feed_src a v r').1]
          have := a6 r' hr' hpc
          split <;> simp_all
        · rintro r ⟨r', hr', rfl⟩ hpc
          rw [(feed_src a v r').2.2.2] at hpc
          rw [(feed_src a v r').1, (feed_src a v r').2.2.1, feed_queue]
          have := a7 r' hr' hpc
          split <;> simp_all
        · rintro r ⟨r', hr', rfl⟩
          rw [(feed_src a v r').1, (feed_src a v r').2.2.1]
          have := a8 r' hr'
          split
          · rename_i h; rw [h] at this; exact this.trans (List.prefix_append _ _)
          · exact this
        · rintro r ⟨r', hr', rfl⟩ hpc
          rw [(feed_src a v r').2.2.2] at hpc
          rw [(feed_src a v r').1, (feed_src a v r').2.2.1]
          have := a9 r' hr' hpc
          have hne : r'.src ≠ a := fun h => by rw [h, hnf] at this; cases this.1
          rw [if_neg hne]; exact this
        · intro i r hr
          cases hi : s.rels[i]? with
          | none => simp [hi] at hr
          | some r' =>
            simp [hi] at hr; subst hr
            rw [(feed_src a v r').2.1, (feed_src a v r').2.2.1]
            have := a10 i r' hi
            split <;> simp_all
        · intro i c hi
          have := a11 i c hi
          split <;> simp_all
        · intro i r c hr hc
          cases hi : s.rels[i]? with
          | none => simp [hi] at hr
          | some r' =>
            simp [hi] at hr; subst hr
            rw [(feed_src a v r').2.1] at hc
            have := a12 i r' c hi hc
            split <;> simp_all
    · cases e
  | runRelay r =>
    simp only [Relay.step] at e
    split at e
    · rename_i x hx
      split at e
      · cases e
      · rename_i v q hq
        cases e
        have hxm := mem_of_get hx
        have hon : x.pc = .on := Classical.byContradiction fun h => by rw [I.off x hxm h] at hq; cases hq
        have hdn : (s.ch x.dst).dead = false → (s.ch x.dst).final = false := fun hd => by
          have := C.open_ hd (.inr ⟨x, hxm, hon, rfl⟩)
          cases hf : (s.ch x.dst).final
          · rfl
          · rw [I.fin _ hf] at this; cases this
        have hh := I.hnd x hxm hon
        rw [hq] at hh
        have J : ∀ z, z ∈ s.rels.set r { x with queue := q, passed := x.passed ++ [v] } →
            z ∈ s.rels ∨ z = { x with queue := q, passed := x.passed ++ [v] } :=
          fun z hz => List.mem_or_eq_of_mem_set hz
        have K : ∀ i z, (s.rels.set r { x with queue := q, passed := x.passed ++ [v] })[i]? = some z →
            i ≠ r ∧ s.rels[i]? = some z ∨ i = r ∧ z = { x with queue := q, passed := x.passed ++ [v] } := by
          intro i z hz
          rw [List.getElem?_set] at hz
          split at hz
          · rename_i h
            split at hz
            · cases hz; exact .inr ⟨h.symm, rfl⟩
            · cases hz
          · rename_i h; exact .inl ⟨fun h' => h h'.symm, hz⟩
        obtain ⟨a1, a2, a3, a4, a5, a6, a7, a8, a9, a10, a11, a12⟩ := I
        have hlen : r < s.rels.length := (List.getElem?_eq_some_iff.1 hx).1
        have hon' : x.pc ≠ .ended := by rw [hon]; simp
        simp only [Relay.sendTo]
        split
        · rename_i hd
          refine ⟨a1, a2, a3, a4, ?_, ?_, ?_, ?_, ?_, ?_, ?_, ?_⟩
          · grind
          · grind
          · intro z hz; rcases J z hz with hz | rfl
            · exact a7 z hz
            · intro _; simpa using hh
          · intro z hz; rcases J z hz with hz | rfl
            · exact a8 z hz
            · exact ⟨q, by simpa using hh.symm⟩
          · grind
          · grind
          · grind
          · grind
        · rename_i hd
          have hd : (s.ch x.dst).dead = false := by simpa using hd
          have hf := hdn hd
          refine ⟨?_, ?_, ?_, ?_, ?_, ?_, ?_, ?_, ?_, ?_, ?_, ?_⟩ <;> simp only [upd]
          · grind
          · grind
          · grind
          · grind
          · grind
          · grind
          · intro z hz; rcases J z hz with hz | rfl
            · have := a7 z hz; grind
            · intro _; have : (s.ch x.src).handled = x.passed ++ [v] ++ q := by simpa using hh
              grind
          · intro z hz; rcases J z hz with hz | rfl
            · have := a8 z hz; grind
            · have : (x.passed ++ [v]) <+: (s.ch x.src).handled := ⟨q, by simpa using hh.symm⟩
              grind
          · grind
          · grind [of_append]
          · grind [of_append]
          · grind [of_append]
    · cases e
  | finish a =>
    simp only [Relay.step] at e
    split at e <;> cases e
    rename_i h
    obtain ⟨h1, h2, h3, h4, h5, h6⟩ := h
    obtain ⟨a1, a2, a3, a4, a5, a6, a7, a8, a9, a10, a11, a12⟩ := I
    refine ⟨?_, ?_, ?_, ?_, ?_, ?_, ?_, ?_, ?_, ?_, ?_, ?_⟩ <;> simp only [upd] <;> grind
  | finishRelay r =>
    simp only [Relay.step] at e
    split at e
    · rename_i x hx
      split at e
      · rename_i h
        obtain ⟨h1, h2, h3⟩ := h
        have hh := I.hnd x (mem_of_get hx) h1
        rw [h2] at hh
        exact (I.setRel (y := { x with pc := .ended }) hx rfl rfl rfl (by simp) h2
          fun _ => ⟨h3, by simpa using hh⟩).remove e
      · cases e
    · cases e

theorem InvM.init : InvM {} := by
  refine ⟨?_, ?_, ?_, ?_, ?_, ?_, ?_, ?_, ?_, ?_, ?_, ?_⟩ <;> simp [of]

theorem InvM.exec {s s' : St} (C : InvC s none) (I : InvM s) {as : List Act} (e : exec s as = some s') : InvM s' := by
  induction as generalizing s with
  | nil => cases e; exact I
  | cons a as ih =>
    simp only [Relay.exec] at e
    split at e
    · rename_i s1 h1; exact ih (C.step h1) (I.step C h1) e
    · cases e

theorem Reachable.invM {s : St} (h : Reachable s) : InvM s := by
  obtain ⟨as, e⟩ := h; exact InvM.init.exec InvC.init e

end Verif.Relay
