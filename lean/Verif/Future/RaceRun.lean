import Verif.Future.RaceStep

/-! # Resolving, moving out, and whole steps of `Verif.Race` -/

namespace Verif.Race

theorem Inv.wrote {s : St} (I : Inv s) {t : Nat} {v : Bool} {A : Access} (ht : s.pc t = .resolving v) (hl : A.le (s.vc t))
    (hw : A.write = true) (hn : A.loc ≠ .thens) :
    Inv { s with acc := A :: s.acc, value := v, pc := upd s.pc t .publishing } := by
  have htemp : s.temp = some t := (I.one t).1 (.inl ⟨v, ht⟩)
  have he := I.early (.inr ⟨t, v, ht⟩)
  have hu : useCount s ≠ 0 := by intro h; rw [useCount_zero] at h; rw [htemp] at h; simp at h
  have hall := he.2.resolve_left hu
  have hpc : ∀ x, upd s.pc t .publishing x = if x = t then .publishing else s.pc x := fun x => rfl
  have hnp : ∀ a, ¬ Pub s a := by
    rintro a ⟨-, ⟨g, -⟩ | ⟨-, r, g, -⟩⟩
    · rw [he.1] at g; cases g
    · have := (I.one r).1 (.inr (.inl g)); rw [htemp] at this; cases this; simp [ht] at g
  have hA : Pub { s with acc := A :: s.acc, value := v, pc := upd s.pc t .publishing } A :=
    ⟨hw, .inr ⟨he.1, t, by simp [hpc], hl⟩⟩
  have hP : ∀ c, Proper { s with acc := A :: s.acc, value := v, pc := upd s.pc t .publishing } c → Proper s c := by
    intro c h
    cases h with
    | obj h => exact .obj h
    | stored h => exact .stored h
    | taken h hr => exact .taken h hr
    | task h => exact .task h
  have hP' : ∀ c, Proper s c → Proper { s with acc := A :: s.acc, value := v, pc := upd s.pc t .publishing } c := by
    intro c h
    cases h with
    | obj h => exact .obj (s := { s with acc := A :: s.acc, value := v, pc := upd s.pc t .publishing }) h
    | stored h => exact .stored (s := { s with acc := A :: s.acc, value := v, pc := upd s.pc t .publishing }) h
    | taken h hr => exact .taken (s := { s with acc := A :: s.acc, value := v, pc := upd s.pc t .publishing }) h hr
    | task h => exact .task h
  refine { I with base := ?base, k0 := ?k0, k1 := ?k1, th := ?th, wr := ?wr, early := ?early, one := ?one, pub := ?pub, sub := ?sub, busy := ?busy, knows := ?knows, excl := ?excl, uniqT := ?uniqT, uniqK := ?uniqK }
  case base => intro c h; exact I.base c (h.imp (hP c) id)
  case k0 =>
    intro a ha
    simp only [List.mem_cons] at ha
    rcases ha with rfl | ha
    · exact .inr ⟨_, .inr ⟨t, htemp, rfl⟩, hl⟩
    · exact (I.k0 a ha).imp id fun ⟨c, h, h'⟩ => ⟨c, h.imp (hP' c) id, h'⟩
  case k1 =>
    intro a ha hn
    simp only [List.mem_cons] at ha
    rcases ha with rfl | ha
    · exact .inr (.inl hA)
    · exact .inl (hall a ha hn)
  case th =>
    intro a ha hn'
    simp only [List.mem_cons] at ha
    rcases ha with rfl | ha
    · exact absurd hn' hn
    · exact I.th a ha hn'
  case wr =>
    intro a ha hn _
    simp only [List.mem_cons] at ha
    rcases ha with rfl | ha
    · exact .inr (.inl hA)
    · exact .inl (hall a ha hn)
  case early =>
    intro h
    exfalso
    rcases h with h | ⟨x, w, h⟩
    · have := I.prod (by simp [htemp]); exact h this
    · simp only [hpc] at h
      split at h
      · cases h
      · have := (I.one x).1 (.inl ⟨w, h⟩); rw [htemp] at this; cases this; contradiction
  case one => intro x; have := I.one x; simp only [hpc]; grind
  case pub => intro x hx; exact he.1
  case sub => intro x hx; have := I.sub x; simp only [hpc] at hx; grind
  case busy => intro x b hx; have := I.busy x b; simp only [hpc] at hx; grind
  case knows => intro x b hx; have := I.knows x b; simp only [hpc] at hx; grind
  case excl => intro x hx; have := I.excl x; simp only [hpc] at hx; grind
  case uniqT =>
    intro x hx a ha hn
    simp only [hpc] at hx
    simp only [List.mem_cons] at ha
    split at hx
    · cases hx
    · rcases ha with rfl | ha
      · exact .inr hA
      · exact .inl ((I.uniqT x hx a ha hn).resolve_right (hnp a))
  case uniqK =>
    intro x hx
    simp only [hpc] at hx
    split at hx
    · cases hx
    · have := I.sees x (I.knows x true hx); rw [he.1] at this; cases this

theorem Inv.publish {s : St} (I : Inv s) {t : Nat} (ht : s.pc t = .publishing) (hm : leq (s.vc t) s.lm) (hm' : leq s.lm (s.vc t))
    (hr : leq (s.vc t) s.lr) :
    Inv { s with ready := true, taken := s.stored, stored := 0, pc := upd s.pc t .submitting } := by
  have htemp : s.temp = some t := (I.one t).1 (.inr (.inl ht))
  have hready := I.pub t ht
  have htk : s.taken = 0 := by
    cases h : s.taken with
    | zero => rfl
    | succ n => have := (I.taken (by omega)).1; rw [hready] at this; cases this
  have htasks : s.tasks = [] := by
    cases h : s.tasks with
    | nil => rfl
    | cons c l => have := I.tasks (by simp [h]); rw [hready] at this; cases this
  have hsees : ∀ x, s.sees x = true → False := fun x h => by have := I.sees x h; rw [hready] at this; cases this
  have hpc : ∀ x, upd s.pc t .submitting x = if x = t then .submitting else s.pc x := fun x => rfl
  have hpub : ∀ a, Pub s a → Pub { s with ready := true, taken := s.stored, stored := 0, pc := upd s.pc t .submitting } a := by
    rintro a ⟨hw, ⟨g, -⟩ | ⟨-, r, g, g'⟩⟩
    · rw [hready] at g; cases g
    · have := (I.one r).1 (.inr (.inl g)); rw [htemp] at this; cases this
      refine ⟨hw, .inl ⟨rfl, g'.mono hm, g'.mono hr, fun x h => (hsees x h).elim, fun _ r h => ?_, fun c h => ?_⟩⟩
      · have h : s.temp = some r := h
        rw [htemp] at h; cases h; exact g'
      · have h : c ∈ s.tasks := h
        rw [htasks] at h; cases h
  have C : Core { s with ready := true, taken := s.stored, stored := 0, pc := upd s.pc t .submitting } := by
    refine I.toCore.owners rfl rfl rfl rfl I.baseP (fun r h => .inl h) (fun r h => I.base _ (.inr ⟨r, h, rfl⟩)) ?_ ?_ hpub ?_ id fun _ => rfl
    · intro c h
      cases h with
      | obj h => exact ⟨_, .obj h, .refl _⟩
      | stored h => cases h
      | taken h hr =>
        have hr : s.temp = some _ := hr
        rw [htemp] at hr; cases hr; exact ⟨_, .stored h, hm'⟩
      | task h => exact ⟨_, .task h, .refl _⟩
    · intro c h
      refine .inl ?_
      cases h with
      | obj h => exact ⟨_, .obj h, .refl _⟩
      | stored h => exact ⟨_, .taken (s := { s with ready := true, taken := s.stored, stored := 0, pc := upd s.pc t .submitting }) h htemp, hm'⟩
      | taken h hr => omega
      | task h => exact ⟨_, .task h, .refl _⟩
    · intro h; rw [useCount_zero] at h; rw [htemp] at h; simp at h
  refine { I with toCore := C, single := ?single, early := ?early, one := ?one, pub := ?pub, sub := ?sub, taken := ?taken, tasks := ?tasks, sees := ?sees, stored := ?stored, busy := ?busy, knows := ?knows, excl := ?excl, uniqT := ?uniqT, uniqK := ?uniqK }
  case single => intro h; have := I.single h; simp only; omega
  case early =>
    intro h
    exfalso
    rcases h with h | ⟨x, w, h⟩
    · have := I.prod (by simp [htemp]); exact h this
    · simp only [hpc] at h
      split at h
      · cases h
      · have := (I.one x).1 (.inl ⟨w, h⟩); rw [htemp] at this; cases this; contradiction
  case one => intro x; have := I.one x; simp only [hpc]; grind
  case pub =>
    intro x hx
    simp only [hpc] at hx
    split at hx
    · cases hx
    · have := (I.one x).1 (.inr (.inl hx)); rw [htemp] at this; cases this; contradiction
  case sub => intro x hx; rfl
  case taken => intro h; exact ⟨rfl, by simp [htemp]⟩
  case tasks => intro _; rfl
  case sees => intro _ _; rfl
  case stored => intro h; cases h
  case busy => intro x b hx; have := I.busy x b; simp only [hpc] at hx; grind
  case knows => intro x b hx; have := I.knows x b; simp only [hpc] at hx; grind
  case excl => intro x hx; have := I.excl x; simp only [hpc] at hx; grind
  case uniqT =>
    intro x hx a ha hn
    simp only [hpc] at hx
    split at hx
    · cases hx
    · exact (I.uniqT x hx a ha hn).imp id (hpub a)
  case uniqK =>
    intro x hx a ha hn
    simp only [hpc] at hx
    split at hx
    · cases hx
    · exact I.uniqK x hx a ha hn

theorem Inv.submit {s : St} (I : Inv s) {t : Nat} (ht : s.pc t = .submitting) (h0 : s.taken ≠ 0) :
    Inv { s with taken := s.taken - 1, tasks := s.vc t :: s.tasks } := by
  have htemp : s.temp = some t := (I.one t).1 (.inr (.inr ht))
  have hr := I.sub t ht
  have hpub : ∀ a, Pub s a → Pub { s with taken := s.taken - 1, tasks := s.vc t :: s.tasks } a := by
    intro a h
    refine h.congr rfl rfl rfl rfl (fun _ h => .inr h) (fun h => by omega) (fun _ h _ => h) (fun c h => ?_) fun _ => id
    simp only [List.mem_cons] at h
    rcases h with rfl | h
    · exact .inr ⟨t, .refl _, .inr (.inr ⟨by omega, htemp⟩)⟩
    · exact .inl h
  have C : Core { s with taken := s.taken - 1, tasks := s.vc t :: s.tasks } := by
    refine I.toCore.owners rfl rfl rfl rfl I.baseP (fun r h => .inl h) (fun r h => I.base _ (.inr ⟨r, h, rfl⟩)) ?_ ?_ hpub ?_ id id
    · intro c h
      refine ⟨c, ?_, .refl _⟩
      cases h with
      | obj h => exact .obj h
      | stored h => exact .stored h
      | taken h hr => exact .taken (by omega) hr
      | task h =>
        simp only [List.mem_cons] at h
        rcases h with rfl | h
        · exact .taken (by omega) htemp
        · exact .task h
    · intro c h
      refine .inl ?_
      cases h with
      | obj h => exact ⟨_, .obj h, .refl _⟩
      | stored h => exact ⟨_, .stored h, .refl _⟩
      | taken h hr => rw [htemp] at hr; cases hr; exact ⟨_, .task (List.mem_cons_self ..), .refl _⟩
      | task h => exact ⟨_, .task (List.mem_cons_of_mem _ h), .refl _⟩
    · intro h; rw [useCount_zero] at h; omega
  refine { I with toCore := C, single := ?single, early := ?early, taken := ?taken, tasks := ?tasks, excl := ?excl, uniqT := ?uniqT }
  case single => intro h; have := I.single h; simp only [List.length_cons]; omega
  case early => intro h; have := (I.early h).1; rw [hr] at this; cases this
  case taken => intro _; exact I.taken (by omega)
  case tasks => intro _; exact hr
  case excl => intro x hx; have := (I.excl x hx).2.2.1; omega
  case uniqT => intro x hx a ha hn; exact (I.uniqT x hx a ha hn).imp id (hpub a)

/-! ## Moving out -/

/-- A thread without a part in the resolution goes to another point of its code. -/
theorem Inv.goto {s : St} (I : Inv s) {t : Nat} {p : Pc} (ht : s.pc t = .idle ∨ (∃ u, s.pc t = .trying u) ∨ ∃ u, s.pc t = .taking u)
    (hp : p = .idle ∨ (∃ u, p = .trying u) ∨ ∃ u, p = .taking u) (hb : p ≠ .idle → t ∈ s.objs)
    (hk : ∀ u, p = .taking u → s.sees t = true)
    (hx : p = .trying true ∨ p = .taking true → (∀ u ∈ s.objs, u = t) ∧ s.stored = 0 ∧ s.taken = 0 ∧ s.tasks = [])
    (h1 : p = .trying true → ∀ a ∈ s.acc, a.loc ≠ .thens → a.le (s.vc t) ∨ Pub s a)
    (h2 : p = .taking true → ∀ a ∈ s.acc, a.loc ≠ .thens → a.le (s.vc t)) : Inv { s with pc := upd s.pc t p } := by
  have hpc : ∀ x, upd s.pc t p x = if x = t then p else s.pc x := fun x => rfl
  have hne : s.pc t ≠ .publishing ∧ s.pc t ≠ .submitting ∧ ∀ v, s.pc t ≠ .resolving v := by grind
  have hne' : p ≠ .publishing ∧ p ≠ .submitting ∧ ∀ v, p ≠ .resolving v := by grind
  have hpub : ∀ a, Pub s a → Pub { s with pc := upd s.pc t p } a := by
    intro a h
    refine h.congr rfl rfl rfl rfl (fun _ h => .inr h) id (fun _ h _ => h) (fun c h => .inl h) fun r h => ?_
    simp only [hpc]; split
    · subst r; exact absurd h hne.1
    · exact h
  have C : Core { s with pc := upd s.pc t p } := by
    refine I.toCore.owners rfl rfl rfl rfl I.baseP (fun r h => .inl h) (fun r h => I.base _ (.inr ⟨r, h, rfl⟩)) ?_ ?_ hpub id id id
    · intro c h
      refine ⟨c, ?_, .refl _⟩
      cases h with
      | obj h => exact .obj h
      | stored h => exact .stored h
      | taken h hr => exact .taken h hr
      | task h => exact .task h
    · intro c h
      refine .inl ⟨c, ?_, .refl _⟩
      cases h with
      | obj h => exact .obj (s := { s with pc := upd s.pc t p }) h
      | stored h => exact .stored (s := { s with pc := upd s.pc t p }) h
      | taken h hr => exact .taken (s := { s with pc := upd s.pc t p }) h hr
      | task h => exact .task h
  refine { I with toCore := C, early := ?early, one := ?one, pub := ?pub, sub := ?sub, busy := ?busy, knows := ?knows, excl := ?excl, uniqT := ?uniqT, uniqK := ?uniqK }
  case early =>
    intro h
    refine I.early (h.imp id ?_)
    rintro ⟨x, v, h⟩
    simp only [hpc] at h
    split at h
    · exact absurd h (hne'.2.2 v)
    · exact ⟨x, v, h⟩
  case one => intro x; have := I.one x; simp only [hpc]; grind
  case pub => intro x hx; have := I.pub x; simp only [hpc] at hx; grind
  case sub => intro x hx; have := I.sub x; simp only [hpc] at hx; grind
  case busy =>
    intro x b hx
    have := I.busy x b
    simp only [hpc] at hx
    split at hx
    · subst x; exact hb (by rintro rfl; simp at hx)
    · exact this hx
  case knows => intro x b hx; have := I.knows x b; simp only [hpc] at hx; grind
  case excl =>
    intro x h
    simp only [hpc] at h
    split at h
    · subst x; exact hx h
    · exact I.excl x h
  case uniqT =>
    intro x h a ha hn
    simp only [hpc] at h
    split at h
    · subst x; exact (h1 h a ha hn).imp id (hpub a)
    · exact (I.uniqT x h a ha hn).imp id (hpub a)
  case uniqK =>
    intro x h a ha hn
    simp only [hpc] at h
    split at h
    · subst x; exact h2 h a ha hn
    · exact I.uniqK x h a ha hn

/-- The only owner knows all accesses, or will when it sees that the future is ready. -/
theorem Inv.sole {s : St} (I : Inv s) {t : Nat} (hm : t ∈ s.objs) (hu : useCount s = 1 ∨ s.copied = false)
    (hc : leq s.lc (s.vc t) ∨ s.copied = false) :
    ((∀ u ∈ s.objs, u = t) ∧ s.stored = 0 ∧ s.taken = 0 ∧ s.tasks = []) ∧
      ∀ a ∈ s.acc, a.loc ≠ .thens → a.le (s.vc t) ∨ Pub s a := by
  have hpos := List.length_pos_of_mem hm
  have e : (∀ u ∈ s.objs, u = t) ∧ s.stored = 0 ∧ s.taken = 0 ∧ s.tasks = [] := by
    have hu : s.objs.length + s.stored + s.taken + s.tasks.length ≤ 1 := by
      rcases hu with hu | hu
      · simp only [useCount] at hu; omega
      · exact I.single hu
    refine ⟨fun u h => ?_, by omega, by omega, List.eq_nil_of_length_eq_zero (by omega)⟩
    have h1 : s.objs.length = 1 := by omega
    obtain ⟨a, ha⟩ := List.length_eq_one_iff.1 h1
    rw [ha] at h hm
    simp only [List.mem_singleton] at h hm
    rw [h, hm]
  refine ⟨e, fun a ha hn => ?_⟩
  rcases I.k1 a ha hn with h | h | ⟨c, h, hl⟩ | ⟨h, h'⟩
  · refine .inl ?_
    have := I.base _ (.inl (.obj hm))
    obtain ⟨h1, h2⟩ := h
    simp only [Access.le, h1]
    omega
  · exact .inr h
  · refine .inl ?_
    cases h with
    | obj h => rw [e.1 _ h] at hl; exact hl
    | stored h => omega
    | taken h => omega
    | task h => simp [e.2.2.2] at h
  · rcases hc with hc | hc
    · exact .inl (h.mono hc)
    · rcases h' with h' | h'
      · rw [hc] at h'; cases h'
      · exact absurd (.obj hm) (h' _)

/-! ## Whole steps -/

/-- The state has been destroyed. -/
def Dead (s : St) : Prop := useCount s = 0 ∧ ∀ t, s.pc t = .idle

def Good : Out → Prop
  | .no => True
  | .race => False
  | .ok s => Inv s ∨ Dead s

/-- The clocks after thread `t` made an access. -/
def tick (s : St) (t : Nat) : Nat → Clock := upd s.vc t (upd (s.vc t) t (s.vc t t + 1))

theorem tick_le (s : St) (t x : Nat) : leq (s.vc x) (tick s t x) := by
  intro i
  simp only [tick, upd_eq]
  split
  · subst x; simp only [upd_eq]; split
    · subst i; omega
    · exact Nat.le_refl _
  · exact Nat.le_refl _

theorem tick_self (s : St) (t : Nat) (l : Loc) (w : Bool) : Access.le ⟨l, w, t, s.vc t t + 1⟩ (tick s t t) := by
  simp [Access.le, tick, upd_eq]

theorem access_ok {s : St} {t : Nat} {l : Loc} {w : Bool}
    (h : ∀ a ∈ s.acc, a.loc = l → a.write = true ∨ w = true → a.le (s.vc t)) :
    access s t l w = .ok { s with vc := tick s t, acc := ⟨l, w, t, s.vc t t + 1⟩ :: s.acc } := by
  rw [access, if_neg]
  · rfl
  · intro hr
    obtain ⟨a, ha, h'⟩ := List.any_eq_true.1 hr
    simp only [Bool.and_eq_true, Bool.or_eq_true, decide_eq_true_eq] at h'
    have := h a ha h'.1.1 h'.1.2
    simp only [Access.le] at this
    omega

theorem upd_le {s : St} {t : Nat} {c : Clock} (h : leq (s.vc t) c) (x : Nat) : leq (s.vc x) (upd s.vc t c x) := by
  simp only [upd_eq]; split
  · subst x; exact h
  · exact .refl _

theorem upd_self {α : Type} (f : Nat → α) (t : Nat) (c : α) : upd f t c t = c := by simp [upd_eq]

theorem Access.initial.le {a : Access} (h : a.initial) {c : Clock} (hc : 1 ≤ c 0) : a.le c := by
  obtain ⟨h1, h2⟩ := h
  simp only [Access.le, h1]
  omega

theorem access_all {s : St} {t : Nat} (h : ∀ a ∈ s.acc, a.le (s.vc t)) (l : Loc) (w : Bool) :
    ∃ s', access s t l w = .ok s' ∧ (∀ a ∈ s'.acc, a.le (s'.vc t)) ∧ useCount s' = useCount s ∧ s'.pc = s.pc := by
  refine ⟨_, access_ok fun a ha _ _ => h a ha, ?_, rfl, rfl⟩
  intro a ha
  simp only [List.mem_cons] at ha
  rcases ha with rfl | ha
  · exact tick_self s t l w
  · exact (h a ha).mono (tick_le s t t)

theorem Inv.read {s : St} (I : Inv s) {t : Nat} (hm : t ∈ s.objs) (hs : s.sees t = true) {l : Loc} (hn : l ≠ .thens) :
    access s t l false = .ok { s with vc := tick s t, acc := ⟨l, false, t, s.vc t t + 1⟩ :: s.acc } ∧
      Inv { s with vc := tick s t, acc := ⟨l, false, t, s.vc t t + 1⟩ :: s.acc } := by
  refine ⟨access_ok fun a ha hl hw => ?_, ?_⟩
  · rcases I.wr a ha (hl ▸ hn) (by simpa using hw) with h | ⟨-, ⟨-, -, -, h, -⟩ | ⟨h, -⟩⟩ | ⟨-, h⟩
    · exact h.le (I.base _ (.inl (.obj hm)))
    · exact h t hs
    · rw [I.sees t hs] at h; cases h
    · exact h _ (.obj hm)
  · exact (I.raise (vc := tick s t) (lm := s.lm) (lr := s.lr) (lc := s.lc) (tick_le s t) (.refl _) (.refl _)
      (.refl _)).addRead (t := t) hm (I.sees t hs) (tick_self s t l false) rfl hn

theorem Inv.move {s : St} (I : Inv s) {t : Nat} (hp : s.pc t = .taking true) {l : Loc} (hn : l ≠ .thens) :
    access s t l true = .ok { s with vc := tick s t, acc := ⟨l, true, t, s.vc t t + 1⟩ :: s.acc } ∧
      Inv { s with vc := tick s t, acc := ⟨l, true, t, s.vc t t + 1⟩ :: s.acc } := by
  refine ⟨access_ok fun a ha hl hw => I.uniqK t hp a ha (hl ▸ hn), ?_⟩
  exact (I.raise (vc := tick s t) (lm := s.lm) (lr := s.lr) (lc := s.lc) (tick_le s t) (.refl _) (.refl _)
      (.refl _)).addMove (t := t) hp (tick_self s t l true) hn

theorem Inv.take {s : St} (I : Inv s) {t : Nat} {w : Bool} (hm : t ∈ s.objs) (hs : s.sees t = true)
    (hw : w = true → s.pc t = .taking true) :
    ∃ s', Race.take s t w = .ok s' ∧ Inv s' ∧ s'.pc = s.pc ∧ s'.objs = s.objs := by
  obtain ⟨e, I'⟩ := I.read hm hs (l := .exception) (by simp)
  rw [Race.take, e]
  simp only [Out.bind]
  split
  · cases w with
    | false =>
      obtain ⟨e, I''⟩ := I'.read (t := t) hm hs (l := .result) (by simp)
      exact ⟨_, e, I'', rfl, rfl⟩
    | true =>
      obtain ⟨e, I''⟩ := I'.move (t := t) (hw rfl) (l := .result) (by simp)
      exact ⟨_, e, I'', rfl, rfl⟩
  · exact ⟨_, rfl, I', rfl, rfl⟩

/-- The destructor of an owner; the destruction of the state happens after everything else. -/
theorem Inv.release {s : St} {t : Nat} (I : Inv { s with vc := upd s.vc t (join (s.vc t) s.lc), lc := join (s.vc t) s.lc }) :
    Good (Race.release s t) := by
  rw [Race.release]
  split
  · rename_i hu
    have hu : useCount s = 0 := hu
    obtain ⟨g1, g2, g3, g4, g5⟩ := useCount_zero.1 hu
    have h : ∀ a ∈ s.acc, a.le (upd s.vc t (join (s.vc t) s.lc) t) := by
      intro a ha
      rw [upd_self]
      refine (I.k0 a ha).resolve_right ?_
      rintro ⟨c, h | ⟨r, h, -⟩, -⟩
      · cases h with
        | obj h => exact absurd (g1 ▸ h : _ ∈ ([] : List Nat)) (by simp)
        | stored h => exact absurd g2 (Nat.ne_of_gt h)
        | taken h => exact absurd g4 (Nat.ne_of_gt h)
        | task h => exact absurd (g5 ▸ h : _ ∈ ([] : List Clock)) (by simp)
      · exact absurd (g3 ▸ h : none = some r) (by simp)
    have hpc : ∀ x, s.pc x = .idle := by
      intro x
      have h1 := (I.one x)
      have h2 := I.busy x
      simp only [g1, g3] at h1 h2
      cases h : s.pc x <;> simp_all
    obtain ⟨s1, e1, h1, u1, p1⟩ := access_all (s := { s with vc := upd s.vc t (join (s.vc t) s.lc), lc := join (s.vc t) s.lc }) h .result true
    obtain ⟨s2, e2, h2, u2, p2⟩ := access_all h1 .exception true
    obtain ⟨s3, e3, h3, u3, p3⟩ := access_all h2 .thens true
    simp only [e1, e2, e3, Out.bind, Good]
    refine .inr ⟨?_, ?_⟩
    · rw [u3, u2, u1]; exact hu
    · rw [p3, p2, p1]; exact hpc
  · exact .inl I

theorem join_le {a b c : Clock} (h : leq a c) (h' : leq b c) : leq (join a b) c := fun i => Nat.max_le.2 ⟨h i, h' i⟩

theorem Inv.vcUp {s : St} (I : Inv s) {t : Nat} {c : Clock} (h : leq (s.vc t) c) : Inv { s with vc := upd s.vc t c } :=
  I.raise (lm := s.lm) (lr := s.lr) (lc := s.lc) (upd_le h) (.refl _) (.refl _) (.refl _)

theorem Inv.mutex {s : St} (I : Inv s) (t : Nat) : Inv (unlock (lock s t) t) :=
  I.raise (lr := s.lr) (lc := s.lc) (upd_le (leq_joinl _ _)) (leq_joinl _ _) (.refl _) (.refl _)

/-- What programs must not do: call `error()`, and, unless `use_count()` synchronises, move the result out of a future that once
had copies and now has none. -/
def Fine (acq mo : Bool) (s : St) : Act → Prop
  | .error _ => False
  | .rvalueTry _ | .rvalueReady _ => s.copied = false ∨ (mo = false ∧ (acq = true ∨ useCount s ≠ 1))
  | _ => True

theorem Dead.step {s : St} (D : Dead s) {acq mo : Bool} {a : Act} : Good (step acq mo s a) := by
  obtain ⟨hu, hp⟩ := D
  obtain ⟨g1, g2, g3, g4, g5⟩ := useCount_zero.1 hu
  cases a <;> simp only [Race.step, g1, g5, hp, hu, List.not_mem_nil, and_false, false_and, if_false, if_true, true_and, List.getElem?_nil] <;> try trivial
  all_goals (split <;> try trivial)
  all_goals exact .inr ⟨by simp [useCount, g2, g3, g4], hp⟩

theorem Inv.step {s : St} (I : Inv s) {acq mo : Bool} {a : Act} (hf : Fine acq mo s a) : Good (Race.step acq mo s a) := by
  cases a with
  | give t u =>
    simp only [Race.step]; split
    · rename_i h
      refine .inl ?_
      exact (I.vcUp (t := u) (c := join (s.vc u) (s.vc t)) (leq_joinl _ _)).give (t := t) (u := u) h.1 h.2.1 h.2.2
        (by simp only [upd_self]; simp only [upd_eq]; split
            · exact .refl _
            · exact leq_joinr _ _)
    · trivial
  | giveTask t u =>
    simp only [Race.step]; split
    · rename_i h
      refine .inl ?_
      exact (I.vcUp (t := u) (c := join (s.vc u) (s.vc t)) (leq_joinl _ _)).giveTask (t := t) (u := u) h.2.2
        (by simp only [upd_self]; simp only [upd_eq]; split
            · exact .refl _
            · exact leq_joinr _ _)
    · trivial
  | copy t =>
    simp only [Race.step]; split
    · rename_i h; exact .inl (I.copy h.2.1 h.2.2)
    · trivial
  | drop t =>
    simp only [Race.step]; split
    · rename_i h
      refine Inv.release ?_
      exact (I.raise (lm := s.lm) (lr := s.lr) (lc := join (s.vc t) s.lc) (upd_le (leq_joinl _ _)) (.refl _) (.refl _)
        (leq_joinr _ _)).drop (t := t) h.1 h.2 (by simp only [upd_self]; exact .refl _)
    · trivial
  | attach t mv =>
    simp only [Race.step]; split
    · rename_i h
      replace h := h.2
      cases mv
      · simp only [Bool.false_eq_true, if_false, if_true]
        split
        · rename_i hr
          have hr : s.ready = true := hr
          refine .inl ?_
          exact (I.mutex t).attachReady (t := t) (mv := false) h.1 h.2 hr
            (by simp only [unlock, lock, upd_self]; exact join_le (leq_joinr _ _) (.refl _))
        · rename_i hr
          have hr : s.ready = false := Bool.eq_false_iff.2 hr
          rw [access_ok]
          · refine .inl ?_
            have hv : ∀ x, leq (s.vc x) (tick (lock s t) t x) := fun x => (upd_le (leq_joinl _ _) x).trans (tick_le (lock s t) t x)
            have J := I.raise (lr := s.lr) (lc := s.lc) (lm := join s.lm (tick (lock s t) t t)) hv (leq_joinl _ _) (.refl _) (.refl _)
            have K := J.addThen (t := t) (A := ⟨.thens, true, t, (lock s t).vc t t + 1⟩) (.inl h.2) (tick_self _ _ _ _)
              ((tick_self (lock s t) t _ _).mono (leq_joinr _ _)) rfl
            exact K.attachStore (t := t) (mv := false) h.1 h.2 hr (leq_joinr _ _)
          · intro a ha hl _
            have hb := I.base _ (.inl (.obj h.2))
            show a.le (upd s.vc t (join (s.vc t) s.lm) t)
            rw [upd_self]
            rcases I.th a ha hl with g | g | g
            · exact g.le (Nat.le_trans hb (leq_joinl _ _ 0))
            · exact g.mono (leq_joinr _ _)
            · exact absurd g (Inv.use h.2)
      · simp only [Bool.false_eq_true, if_false, if_true]
        split
        · rename_i hr
          have hr : s.ready = true := hr
          refine .inl ?_
          exact (I.mutex t).attachReady (t := t) (mv := true) h.1 h.2 hr
            (by simp only [unlock, lock, upd_self]; exact join_le (leq_joinr _ _) (.refl _))
        · rename_i hr
          have hr : s.ready = false := Bool.eq_false_iff.2 hr
          rw [access_ok]
          · refine .inl ?_
            have hv : ∀ x, leq (s.vc x) (tick (lock s t) t x) := fun x => (upd_le (leq_joinl _ _) x).trans (tick_le (lock s t) t x)
            have J := I.raise (lr := s.lr) (lc := s.lc) (lm := join s.lm (tick (lock s t) t t)) hv (leq_joinl _ _) (.refl _) (.refl _)
            have K := J.addThen (t := t) (A := ⟨.thens, true, t, (lock s t).vc t t + 1⟩) (.inl h.2) (tick_self _ _ _ _)
              ((tick_self (lock s t) t _ _).mono (leq_joinr _ _)) rfl
            exact K.attachStore (t := t) (mv := true) h.1 h.2 hr (leq_joinr _ _)
          · intro a ha hl _
            have hb := I.base _ (.inl (.obj h.2))
            show a.le (upd s.vc t (join (s.vc t) s.lm) t)
            rw [upd_self]
            rcases I.th a ha hl with g | g | g
            · exact g.le (Nat.le_trans hb (leq_joinl _ _ 0))
            · exact g.mono (leq_joinr _ _)
            · exact absurd g (Inv.use h.2)
    · trivial
  | look t =>
    simp only [Race.step]; split
    · rename_i h
      refine .inl ?_
      refine (I.mutex t).see (t := t) (b := s.sees t || s.ready) ?_ ?_ ?_
      · intro h; rcases Bool.or_eq_true_iff.1 h with h | h
        · exact I.sees t h
        · exact h
      · intro h; rw [Bool.or_eq_true_iff]; exact .inl h
      · intro _; refine .inr (.inl ?_)
        simp only [unlock, lock, upd_self]
        exact join_le (leq_joinr _ _) (.refl _)
    · trivial
  | isReady t =>
    simp only [Race.step]; split
    · rename_i h
      split
      · rename_i hr
        refine .inl ?_
        refine (I.vcUp (t := t) (c := join (s.vc t) s.lr) (leq_joinl _ _)).see (t := t) (b := true) (fun _ => hr) (fun _ => rfl) fun _ => .inr (.inr ?_)
        simp only [upd_self]; exact leq_joinr _ _
      · exact .inl I
    · trivial
  | read t =>
    simp only [Race.step]; split
    · rename_i h
      replace h := h.2
      obtain ⟨s', e, I', -⟩ := I.take (w := false) h.2.1 h.2.2 (by simp)
      rw [e]; exact .inl I'
    · trivial
  | error t => exact hf.elim
  | rvalueTry t =>
    simp only [Race.step]; split
    · rename_i h
      refine .inl ?_
      have J : Inv { s with vc := if acq then upd s.vc t (join (s.vc t) s.lc) else s.vc } := by
        split
        · exact I.vcUp (leq_joinl _ _)
        · exact I
      have hs := fun hu : (mo || useCount s = 1) = true => J.sole (t := t) h.2 (by
          rcases hf with hf | ⟨hf, -⟩
          · exact .inr hf
          · subst hf; exact .inl (show useCount s = 1 by simpa using hu)) (by
        rcases hf with hf | ⟨hf, hf'⟩
        · exact .inr hf
        · subst hf
          rcases hf' with hf' | hf'
          · subst hf'; refine .inl ?_; simp only [if_true, upd_self]; exact leq_joinr _ _
          · exact absurd (by simpa using hu) hf')
      refine J.goto (t := t) (p := .trying (mo || decide (useCount s = 1))) (.inl h.1) (.inr (.inl ⟨_, rfl⟩)) (fun _ => h.2) ?_ ?_ ?_ ?_
      · intro u hu; cases hu
      · intro h'; refine (hs ?_).1; rcases h' with h' | h'
        · simpa using h'
        · cases h'
      · intro h'; exact (hs (by simpa using h')).2
      · intro h'; cases h'
    · trivial
  | rvalueReady t =>
    simp only [Race.step]; split
    · rename_i h
      refine .inl ?_
      have J : Inv { s with vc := if acq then upd s.vc t (join (s.vc t) s.lc) else s.vc } := by
        split
        · exact I.vcUp (leq_joinl _ _)
        · exact I
      have hs := fun hu : (mo || useCount s = 1) = true => J.sole (t := t) h.2.1 (by
          rcases hf with hf | ⟨hf, -⟩
          · exact .inr hf
          · subst hf; exact .inl (show useCount s = 1 by simpa using hu)) (by
        rcases hf with hf | ⟨hf, hf'⟩
        · exact .inr hf
        · subst hf
          rcases hf' with hf' | hf'
          · subst hf'; refine .inl ?_; simp only [if_true, upd_self]; exact leq_joinr _ _
          · exact absurd (by simpa using hu) hf')
      refine J.goto (t := t) (p := .taking (mo || decide (useCount s = 1))) (.inl h.1) (.inr (.inr ⟨_, rfl⟩)) (fun _ => h.2.1) ?_ ?_ ?_ ?_
      · intro u _; exact h.2.2
      · intro h'; refine (hs ?_).1; rcases h' with h' | h'
        · cases h'
        · simpa using h'
      · intro h'; cases h'
      · intro h' a ha hn
        rcases (hs (by simpa using h')).2 a ha hn with g | ⟨-, ⟨-, -, -, g, -⟩ | ⟨g, -⟩⟩
        · exact g
        · exact g t h.2.2
        · have : s.ready = false := g
          rw [I.sees t h.2.2] at this; cases this
    · trivial
  | resolve t v =>
    simp only [Race.step]; split
    · rename_i h
      split
      · exact .inl I.resolve0
      · rename_i hu; exact .inl (I.resolve h.1 h.2 hu)
    · trivial
  | start t i =>
    simp only [Race.step]
    split
    · rename_i c hi
      split
      · refine .inl ?_
        exact (I.vcUp (t := t) (c := join (s.vc t) c) (leq_joinl _ _)).start (t := t) (i := i) (c := c) hi (by simp only [upd_self]; exact leq_joinr _ _)
      · trivial
    · trivial
  | next t =>
    simp only [Race.step]
    split
    · trivial
    · rename_i v hp
      have htemp : s.temp = some t := (I.one t).1 (.inl ⟨v, hp⟩)
      have hb := I.base _ (.inr ⟨t, htemp, rfl⟩)
      have hu : useCount s ≠ 0 := by intro h; rw [useCount_zero] at h; rw [htemp] at h; simp at h
      have hall := (I.early (.inr ⟨t, v, hp⟩)).2.resolve_left hu
      have hn : (if v = true then Loc.result else .exception) ≠ .thens := by cases v <;> simp
      rw [access_ok fun a ha hl _ => (hall a ha (hl ▸ hn)).le hb]
      refine .inl ?_
      exact (I.raise (vc := tick s t) (lm := s.lm) (lr := s.lr) (lc := s.lc) (tick_le s t) (.refl _) (.refl _) (.refl _)).wrote (t := t)
        (v := v) (A := ⟨if v then .result else .exception, true, t, s.vc t t + 1⟩) hp (tick_self _ _ _ _) rfl hn
    · rename_i hp
      have htemp : s.temp = some t := (I.one t).1 (.inr (.inl hp))
      have hb := I.base _ (.inr ⟨t, htemp, rfl⟩)
      have hu : useCount s ≠ 0 := by intro h; rw [useCount_zero] at h; rw [htemp] at h; simp at h
      rw [access_ok]
      · refine .inl ?_
        have hv : ∀ x, leq (s.vc x) (tick (lock s t) t x) := fun x => (upd_le (leq_joinl _ _) x).trans (tick_le (lock s t) t x)
        have hv' : leq s.lm (tick (lock s t) t t) := by
          refine leq.trans ?_ (tick_le (lock s t) t t)
          show leq s.lm (upd s.vc t (join (s.vc t) s.lm) t)
          rw [upd_self]; exact leq_joinr _ _
        have J := I.raise (lr := join s.lr (tick (lock s t) t t)) (lc := s.lc) (lm := join s.lm (tick (lock s t) t t)) hv (leq_joinl _ _)
          (leq_joinl _ _) (.refl _)
        have K := J.addThen (t := t) (A := ⟨.thens, true, t, (lock s t).vc t t + 1⟩) (.inr htemp) (tick_self _ _ _ _)
          ((tick_self (lock s t) t _ _).mono (leq_joinr _ _)) rfl
        exact K.publish (t := t) hp (leq_joinr _ _) (join_le hv' (.refl _)) (leq_joinr _ _)
      · intro a ha hl _
        show a.le (upd s.vc t (join (s.vc t) s.lm) t)
        rw [upd_self]
        rcases I.th a ha hl with g | g | g
        · exact g.le (Nat.le_trans hb (leq_joinl _ _ 0))
        · exact g.mono (leq_joinr _ _)
        · exact absurd g hu
    · rename_i hp
      split
      · rename_i h0
        refine Inv.release ?_
        exact (I.raise (lm := s.lm) (lr := s.lr) (lc := join (s.vc t) s.lc) (upd_le (leq_joinl _ _)) (.refl _) (.refl _)
          (leq_joinr _ _)).dropTemp (t := t) hp h0 (by simp only [upd_self]; exact .refl _)
      · rename_i h0; exact .inl (I.submit hp h0)
    · rename_i u hp
      have hm := I.busy t u (.inl hp)
      have J := I.mutex t
      split
      · rename_i hr
        refine .inl ?_
        have hlm : leq (unlock (lock s t) t).lm ((unlock (lock s t) t).vc t) := by
          simp only [unlock, lock, upd_self]; exact join_le (leq_joinr _ _) (.refl _)
        have K := J.see (t := t) (b := true) (fun _ => hr) (fun _ => rfl) fun _ => .inr (.inl hlm)
        refine K.goto (t := t) (p := .taking u) (.inr (.inl ⟨u, hp⟩)) (.inr (.inr ⟨u, rfl⟩)) (fun _ => hm) (fun _ _ => upd_self ..) ?_ (by simp) ?_
        · intro h
          have : u = true := by simpa using h
          subst this
          exact I.excl t (.inl hp)
        · intro h a ha hn
          have : u = true := by simpa using h
          subst this
          rcases K.uniqT t hp a ha hn with g | ⟨-, ⟨-, -, -, g, -⟩ | ⟨g, -⟩⟩
          · exact g
          · exact g t (upd_self ..)
          · exact absurd (hr.symm.trans g) (by simp)
      · refine .inl ?_
        exact J.goto (t := t) (p := .idle) (.inr (.inl ⟨u, hp⟩)) (.inl rfl) (by simp) (by simp) (by simp) (by simp) (by simp)
    · rename_i u hp
      have hm := I.busy t u (.inr hp)
      obtain ⟨s', e, I', hp', -⟩ := I.take (w := u) hm (I.knows t u hp) (by rintro rfl; exact hp)
      rw [e]
      refine .inl ?_
      exact I'.goto (t := t) (p := .idle) (.inr (.inr ⟨u, by rw [hp']; exact hp⟩)) (.inl rfl) (by simp) (by simp) (by simp) (by simp) (by simp)

/-- Every action is `Fine` in the state in which it is taken. -/
def FineRun (acq mo : Bool) (s : St) : List Act → Prop
  | [] => True
  | a :: as => Fine acq mo s a ∧ ∀ s', Race.step acq mo s a = .ok s' → FineRun acq mo s' as

theorem Good.exec {s : St} (h : Inv s ∨ Dead s) {acq mo : Bool} {as : List Act} (hf : FineRun acq mo s as) : Good (exec acq mo s as) := by
  induction as generalizing s with
  | nil => exact h
  | cons a as ih =>
    obtain ⟨hf, hr⟩ := hf
    have g : Good (Race.step acq mo s a) := h.elim (fun I => I.step hf) fun D => D.step
    simp only [Race.exec]
    cases e : Race.step acq mo s a with
    | no => trivial
    | race => rw [e] at g; exact g
    | ok s' => rw [e] at g; exact ih g (hr s' e)

end Verif.Race
