import Verif.Future.RaceInv

/-! # The steps of `Verif.Race` keep the invariant -/

namespace Verif.Race

theorem useCount_zero {s : St} : useCount s = 0 ↔ s.objs = [] ∧ s.stored = 0 ∧ s.temp = none ∧ s.taken = 0 ∧ s.tasks = [] := by
  simp only [useCount]
  cases s.temp <;> cases s.objs <;> cases s.tasks <;> simp <;> omega

theorem Pub.congr {s s' : St} {a : Access} (h : Pub s a) (hvc : s'.vc = s.vc) (hlm : s'.lm = s.lm) (hlr : s'.lr = s.lr)
    (hr : s'.ready = s.ready) (hs : ∀ t, s'.sees t = true → (s.ready = true → a.le s.lm → a.le s.lr → a.le (s.vc t)) ∨ s.sees t = true)
    (ht : 0 < s'.taken → 0 < s.taken) (htemp : ∀ r, s'.temp = some r → 0 < s.taken → s.temp = some r)
    (hk : ∀ c ∈ s'.tasks, c ∈ s.tasks ∨ ∃ t, leq (s.vc t) c ∧ (s.sees t = true ∨ leq s.lm c ∨ (0 < s.taken ∧ s.temp = some t)))
    (hp : ∀ r, s.pc r = .publishing → s'.pc r = .publishing) : Pub s' a := by
  obtain ⟨hw, ⟨g1, g2, g3, g4, g5, g6⟩ | ⟨g1, r, g2, g3⟩⟩ := h
  · refine ⟨hw, .inl ⟨hr ▸ g1, hlm ▸ g2, hlr ▸ g3, fun t h => ?_, fun h r h' => ?_, fun c hc => ?_⟩⟩
    · rw [hvc]; rcases hs t h with h | h
      · exact h g1 g2 g3
      · exact g4 t h
    · rw [hvc]; exact g5 (ht h) r (htemp r h' (ht h))
    · rcases hk c hc with h | ⟨t, h, h' | h' | ⟨h', h''⟩⟩
      · exact g6 c h
      · exact (g4 t h').mono h
      · exact g2.mono h'
      · exact (g5 h' t h'').mono h
  · exact ⟨hw, .inr ⟨hr ▸ g1, r, hp r g2, hvc ▸ g3⟩⟩

theorem Inv.give {s : St} (I : Inv s) {t u : Nat} (ht : s.pc t = .idle) (hu : s.pc u = .idle) (hm : t ∈ s.objs)
    (hl : leq (s.vc t) (s.vc u)) :
    Inv { s with objs := u :: s.objs.erase t, sees := upd s.sees u (s.sees u || s.sees t) } := by
  have hlen := List.length_erase_of_mem hm
  have hpos : 0 < s.objs.length := List.length_pos_of_mem hm
  have hpub : ∀ a, Pub s a → Pub { s with objs := u :: s.objs.erase t, sees := upd s.sees u (s.sees u || s.sees t) } a := by
    intro a h
    refine h.congr rfl rfl rfl rfl (fun x hx => ?_) id (fun _ h _ => h) (fun c h => .inl h) fun _ => id
    simp only [upd_eq] at hx
    split at hx
    · subst x
      obtain ⟨-, ⟨g1, g2, g3, g4, g5, g6⟩ | ⟨g1, -⟩⟩ := h
      · cases h1 : s.sees u
        · simp [h1] at hx; exact .inl fun _ _ _ => (g4 t hx).mono hl
        · exact .inr rfl
      · exact .inl fun h => by rw [g1] at h; cases h
    · exact .inr hx
  have C : Core { s with objs := u :: s.objs.erase t, sees := upd s.sees u (s.sees u || s.sees t) } := by
    refine I.toCore.owners rfl rfl rfl rfl I.baseP (fun r h => .inl h) (fun r h => I.base _ (.inr ⟨r, h, rfl⟩)) ?_ ?_ hpub ?_ id id
    · intro c h
      cases h with
      | @obj x h =>
        simp only [List.mem_cons] at h
        rcases h with rfl | h
        · exact ⟨_, .obj hm, hl⟩
        · exact ⟨_, .obj (List.mem_of_mem_erase h), .refl _⟩
      | stored h => exact ⟨_, .stored h, .refl _⟩
      | taken h hr => exact ⟨_, .taken h hr, .refl _⟩
      | task h => exact ⟨_, .task h, .refl _⟩
    · intro c h
      refine .inl ?_
      cases h with
      | @obj x h =>
        by_cases e : x = t
        · subst e; exact ⟨_, .obj (t := u) (by simp), hl⟩
        · exact ⟨_, .obj (t := x) (by simp [List.mem_erase_of_ne e, h]), .refl _⟩
      | stored h => exact ⟨_, .stored h, .refl _⟩
      | taken h hr => exact ⟨_, .taken h hr, .refl _⟩
      | task h => exact ⟨_, .task h, .refl _⟩
    · intro h; rw [useCount_zero] at h; simp [h.1] at hm
  refine { I with toCore := C, single := ?single, early := ?early, sees := ?sees, busy := ?busy, knows := ?knows, excl := ?excl, uniqT := ?uniqT }
  case single => intro h; have := I.single h; simp only [List.length_cons]; omega
  case early =>
    intro h
    obtain ⟨h1, h2⟩ := I.early h
    refine ⟨h1, .inr (h2.resolve_left fun h => ?_)⟩
    rw [useCount_zero] at h; simp [h.1] at hm
  case sees => intro x hx; have := I.sees u; have := I.sees t; have := I.sees x; simp only [upd_eq] at hx; grind
  case busy =>
    intro x b hx
    have h1 := I.busy x b hx
    have : x ≠ t := by rintro rfl; simp [ht] at hx
    simp [List.mem_erase_of_ne this, h1]
  case knows => intro x b hx; have := I.knows x b hx; simp only [upd_eq]; grind
  case excl => intro x hx; have := (I.excl x hx).1 t hm; subst this; simp [ht] at hx
  case uniqT => intro x hx a ha hn; exact (I.uniqT x hx a ha hn).imp id (hpub a)

theorem Inv.use {s : St} {t : Nat} (hm : t ∈ s.objs) : useCount s ≠ 0 := by
  intro h; rw [useCount_zero] at h; simp [h.1] at hm

/-- While a thread that has a future object is idle no thread is about to move the value out. -/
theorem Inv.noMove {s : St} (I : Inv s) {t : Nat} (ht : s.pc t = .idle) (hm : t ∈ s.objs) (x : Nat) :
    s.pc x ≠ .trying true ∧ s.pc x ≠ .taking true := by
  constructor <;> intro h
  · have := (I.excl x (.inl h)).1 t hm; subst this; simp [ht] at h
  · have := (I.excl x (.inr h)).1 t hm; subst this; simp [ht] at h

theorem Inv.giveTask {s : St} (I : Inv s) {t u : Nat} (hp : s.producer = some t) (hl : leq (s.vc t) (s.vc u)) :
    Inv { s with producer := some u } := by
  have hpub : ∀ a, Pub s a → Pub { s with producer := some u } a := fun a h =>
    h.congr rfl rfl rfl rfl (fun _ h => .inr h) id (fun _ h _ => h) (fun c h => .inl h) fun _ => id
  have C : Core { s with producer := some u } := by
    refine I.toCore.owners rfl rfl rfl rfl (fun x h => ?_) (fun r h => .inl h) (fun r h => I.base _ (.inr ⟨r, h, rfl⟩)) ?_ ?_ hpub id id id
    · cases h; exact Nat.le_trans (I.baseP t hp) (hl 0)
    · intro c h
      refine ⟨c, ?_, .refl _⟩
      cases h with
      | obj h => exact .obj h
      | stored h => exact .stored h
      | taken h hr => exact .taken h hr
      | task h => exact .task h
    · intro c h
      refine .inl ⟨c, ?_, .refl _⟩
      cases h with
      | obj h => exact .obj (s := { s with producer := some u }) h
      | stored h => exact .stored (s := { s with producer := some u }) h
      | taken h hr => exact .taken (s := { s with producer := some u }) h hr
      | task h => exact .task h
  refine { I with toCore := C, early := ?early, prod := ?prod, uniqT := ?uniqT }
  case early => intro _; exact I.early (.inl (by simp [hp]))
  case prod => intro h; have := I.prod h; simp [hp] at this
  case uniqT => intro x hx a ha hn; exact (I.uniqT x hx a ha hn).imp id (hpub a)

theorem Inv.copy {s : St} (I : Inv s) {t : Nat} (ht : s.pc t = .idle) (hm : t ∈ s.objs) :
    Inv { s with objs := t :: s.objs, copied := true } := by
  have hpub : ∀ a, Pub s a → Pub { s with objs := t :: s.objs, copied := true } a := fun a h =>
    h.congr rfl rfl rfl rfl (fun _ h => .inr h) id (fun _ h _ => h) (fun c h => .inl h) fun _ => id
  have C : Core { s with objs := t :: s.objs, copied := true } := by
    refine I.toCore.owners rfl rfl rfl rfl I.baseP (fun r h => .inl h) (fun r h => I.base _ (.inr ⟨r, h, rfl⟩)) ?_ ?_ hpub ?_ (fun _ => rfl) id
    · intro c h
      refine ⟨c, ?_, .refl _⟩
      cases h with
      | obj h => exact .obj (by simp only [List.mem_cons] at h; rcases h with rfl | h; exact hm; exact h)
      | stored h => exact .stored h
      | taken h hr => exact .taken h hr
      | task h => exact .task h
    · intro c h
      refine .inl ⟨c, ?_, .refl _⟩
      cases h with
      | obj h => exact .obj (s := { s with objs := t :: s.objs, copied := true }) (List.mem_cons_of_mem _ h)
      | stored h => exact .stored (s := { s with objs := t :: s.objs, copied := true }) h
      | taken h hr => exact .taken (s := { s with objs := t :: s.objs, copied := true }) h hr
      | task h => exact .task h
    · intro h; exact absurd h (Inv.use hm)
  refine { I with toCore := C, single := ?single, early := ?early, busy := ?busy, excl := ?excl, uniqT := ?uniqT }
  case single => intro h; cases h
  case early => intro h; exact ⟨(I.early h).1, .inr ((I.early h).2.resolve_left (Inv.use hm))⟩
  case busy => intro x b hx; exact List.mem_cons_of_mem _ (I.busy x b hx)
  case excl => intro x hx; have := I.noMove ht hm x; grind
  case uniqT => intro x hx a ha hn; exact (I.uniqT x hx a ha hn).imp id (hpub a)

/-- A thread gets to know that the future is ready. -/
theorem Inv.see {s : St} (I : Inv s) {t : Nat} {b : Bool} (hb : b = true → s.ready = true) (hs : s.sees t = true → b = true)
    (hl : b = true → s.sees t = true ∨ leq s.lm (s.vc t) ∨ leq s.lr (s.vc t)) : Inv { s with sees := upd s.sees t b } := by
  have hpub : ∀ a, Pub s a → Pub { s with sees := upd s.sees t b } a := by
    intro a h
    refine h.congr rfl rfl rfl rfl (fun x hx => ?_) id (fun _ h _ => h) (fun c h => .inl h) fun _ => id
    simp only [upd_eq] at hx
    split at hx
    · subst x
      rcases hl hx with h | h | h
      · exact .inr h
      · exact .inl fun _ h' _ => h'.mono h
      · exact .inl fun _ _ h' => h'.mono h
    · exact .inr hx
  have C : Core { s with sees := upd s.sees t b } := by
    refine I.toCore.owners rfl rfl rfl rfl I.baseP (fun r h => .inl h) (fun r h => I.base _ (.inr ⟨r, h, rfl⟩)) ?_ ?_ hpub id id id
    · intro c h
      refine ⟨c, ?_, .refl _⟩
      cases h with
      | obj h => exact .obj h
      | stored h => exact .stored h
      | taken h hr => exact .taken h hr
      | task h => exact .task h
    · intro c h
      refine .inl ⟨c, ?_, .refl _⟩
      cases h with
      | obj h => exact .obj (s := { s with sees := upd s.sees t b }) h
      | stored h => exact .stored (s := { s with sees := upd s.sees t b }) h
      | taken h hr => exact .taken (s := { s with sees := upd s.sees t b }) h hr
      | task h => exact .task h
  refine { I with toCore := C, sees := ?sees, knows := ?knows, uniqT := ?uniqT }
  case sees => intro x hx; have := I.sees x; simp only [upd_eq] at hx; grind
  case knows => intro x b hx; have := I.knows x b hx; simp only [upd_eq]; grind
  case uniqT => intro x hx a ha hn; exact (I.uniqT x hx a ha hn).imp id (hpub a)

/-! ## Accesses -/

theorem Pub.add {s : St} {a A : Access} (h : Pub s a) : Pub { s with acc := A :: s.acc } a := h

theorem Proper.add {s : St} {A : Access} {c : Clock} : Proper { s with acc := A :: s.acc } c ↔ Proper s c := by
  constructor
  · intro h
    cases h with
    | obj h => exact .obj h
    | stored h => exact .stored h
    | taken h hr => exact .taken h hr
    | task h => exact .task h
  · intro h
    cases h with
    | obj h => exact .obj (s := { s with acc := A :: s.acc }) h
    | stored h => exact .stored (s := { s with acc := A :: s.acc }) h
    | taken h hr => exact .taken (s := { s with acc := A :: s.acc }) h hr
    | task h => exact .task h

theorem Holder.add {s : St} {A : Access} {c : Clock} : Holder { s with acc := A :: s.acc } c ↔ Holder s c := by
  simp only [Holder, Proper.add]

theorem Inv.add {s : St} (I : Inv s) {A : Access} (h0 : A.le s.lc ∨ ∃ c, Holder s c ∧ A.le c)
    (h1 : A.loc ≠ .thens → A.initial ∨ Pub s A ∨ (∃ c, Proper s c ∧ A.le c) ∨ (A.le s.lc ∧ (s.copied = true ∨ ∀ c, ¬ Proper s c)))
    (h2 : A.loc = .thens → A.initial ∨ A.le s.lm ∨ useCount s = 0)
    (h3 : A.loc ≠ .thens → A.write = true → A.initial ∨ Pub s A ∨ ((s.ready = true ∨ useCount s = 0) ∧ ∀ c, Proper s c → A.le c))
    (h4 : A.loc ≠ .thens → s.ready = true ∨ useCount s = 0)
    (h5 : A.loc ≠ .thens → ∀ t, s.pc t = .trying true ∨ s.pc t = .taking true → A.le (s.vc t)) :
    Inv { s with acc := A :: s.acc } := by
  refine { I with base := ?base, k0 := ?k0, k1 := ?k1, th := ?th, wr := ?wr, early := ?early, uniqT := ?uniqT, uniqK := ?uniqK }
  case base => intro c h; exact I.base c (Holder.add.1 h)
  case k0 =>
    intro a ha
    simp only [Holder.add]
    simp only [List.mem_cons] at ha
    rcases ha with rfl | ha
    · exact h0
    · exact I.k0 a ha
  case k1 =>
    intro a ha hn
    simp only [Proper.add]
    simp only [List.mem_cons] at ha
    rcases ha with rfl | ha
    · exact h1 hn
    · exact I.k1 a ha hn
  case th =>
    intro a ha hn
    simp only [List.mem_cons] at ha
    rcases ha with rfl | ha
    · exact h2 hn
    · exact I.th a ha hn
  case wr =>
    intro a ha hn hw
    simp only [Proper.add]
    simp only [List.mem_cons] at ha
    rcases ha with rfl | ha
    · exact h3 hn hw
    · exact I.wr a ha hn hw
  case early =>
    intro h
    obtain ⟨g1, g2⟩ := I.early h
    refine ⟨g1, ?_⟩
    by_cases hu : useCount s = 0
    · exact .inl hu
    · refine .inr fun a ha hn => ?_
      simp only [List.mem_cons] at ha
      rcases ha with rfl | ha
      · rcases h4 hn with h | h
        · rw [g1] at h; cases h
        · exact absurd h hu
      · exact (g2.resolve_left hu) a ha hn
  case uniqT =>
    intro t ht a ha hn
    simp only [List.mem_cons] at ha
    rcases ha with rfl | ha
    · exact .inl (h5 hn t (.inl ht))
    · exact I.uniqT t ht a ha hn
  case uniqK =>
    intro t ht a ha hn
    simp only [List.mem_cons] at ha
    rcases ha with rfl | ha
    · exact h5 hn t (.inr ht)
    · exact I.uniqK t ht a ha hn

theorem Inv.addRead {s : St} (I : Inv s) {A : Access} {t : Nat} (hm : t ∈ s.objs) (hr : s.ready = true) (hl : A.le (s.vc t))
    (hw : A.write = false) (hn : A.loc ≠ .thens) : Inv { s with acc := A :: s.acc } := by
  refine I.add (.inr ⟨_, .inl (.obj hm), hl⟩) (fun _ => .inr (.inr (.inl ⟨_, .obj hm, hl⟩))) (fun h => absurd h hn) ?_ (fun _ => .inl hr) ?_
  · intro _ h; rw [hw] at h; cases h
  · intro _ x hx; have := (I.excl x hx).1 t hm; subst this; exact hl

theorem Inv.addThen {s : St} (I : Inv s) {A : Access} {t : Nat} (hm : t ∈ s.objs ∨ s.temp = some t) (hl : A.le (s.vc t))
    (hm' : A.le s.lm) (hn : A.loc = .thens) : Inv { s with acc := A :: s.acc } := by
  refine I.add (.inr ⟨s.vc t, ?_, hl⟩) (fun h => absurd hn h) (fun _ => .inr (.inl hm')) (fun h => absurd hn h) (fun h => absurd hn h)
    fun h => absurd hn h
  rcases hm with hm | hm
  · exact .inl (.obj hm)
  · exact .inr ⟨t, hm, rfl⟩

theorem Inv.addMove {s : St} (I : Inv s) {A : Access} {t : Nat} (hp : s.pc t = .taking true) (hl : A.le (s.vc t)) (hn : A.loc ≠ .thens) :
    Inv { s with acc := A :: s.acc } := by
  have hm := I.busy t true (.inr hp)
  have hr := I.sees t (I.knows t true hp)
  obtain ⟨e1, e2, e3, e4⟩ := I.excl t (.inr hp)
  refine I.add (.inr ⟨_, .inl (.obj hm), hl⟩) (fun _ => .inr (.inr (.inl ⟨_, .obj hm, hl⟩))) (fun h => absurd h hn)
    (fun _ _ => .inr (.inr ⟨.inl hr, fun c hc => ?_⟩)) (fun _ => .inl hr) ?_
  · cases hc with
    | obj h => rw [e1 _ h]; exact hl
    | stored h => omega
    | taken h => omega
    | task h => simp [e4] at h
  · intro _ x hx; have := (I.excl x hx).1 t hm; subst this; exact hl

theorem Inv.addDestroy {s : St} (I : Inv s) {A : Access} (hu : useCount s = 0) (hl : A.le s.lc) : Inv { s with acc := A :: s.acc } := by
  have hp : ∀ c, ¬ Proper s c := by
    rw [useCount_zero] at hu
    intro c h
    cases h with
    | obj h => simp [hu.1] at h
    | stored h => omega
    | taken h => omega
    | task h => simp [hu.2.2.2.2] at h
  refine I.add (.inl hl) (fun _ => .inr (.inr (.inr ⟨hl, .inr hp⟩))) (fun _ => .inr (.inr hu))
    (fun _ _ => .inr (.inr ⟨.inr hu, fun c h => absurd h (hp c)⟩)) (fun _ => .inr hu) ?_
  intro _ x hx
  rw [useCount_zero] at hu
  have : x ∈ s.objs := I.busy x true hx
  simp [hu.1] at this

/-! ## Continuations -/

theorem Inv.attachReady {s : St} (I : Inv s) {t : Nat} {mv : Bool} (ht : s.pc t = .idle) (hm : t ∈ s.objs) (hr : s.ready = true)
    (hl : leq s.lm (s.vc t)) :
    Inv { s with objs := if mv then s.objs.erase t else s.objs, copied := if mv then s.copied else true,
                 tasks := s.vc t :: s.tasks } := by
  have hlen := List.length_erase_of_mem hm
  have hpos : 0 < s.objs.length := List.length_pos_of_mem hm
  have hpub : ∀ a, Pub s a → Pub { s with objs := if mv then s.objs.erase t else s.objs, copied := if mv then s.copied else true,
                                          tasks := s.vc t :: s.tasks } a := by
    intro a h
    refine h.congr rfl rfl rfl rfl (fun _ h => .inr h) id (fun _ h _ => h) (fun c h => ?_) fun _ => id
    simp only [List.mem_cons] at h
    rcases h with rfl | h
    · exact .inr ⟨t, .refl _, .inr (.inl hl)⟩
    · exact .inl h
  have C : Core { s with objs := if mv then s.objs.erase t else s.objs, copied := if mv then s.copied else true,
                         tasks := s.vc t :: s.tasks } := by
    refine I.toCore.owners rfl rfl rfl rfl I.baseP (fun r h => .inl h) (fun r h => I.base _ (.inr ⟨r, h, rfl⟩)) ?_ ?_ hpub ?_ ?_ id
    · intro c h
      refine ⟨c, ?_, .refl _⟩
      cases h with
      | obj h => refine .obj ?_; cases mv <;> simp at h; exact h; exact List.mem_of_mem_erase h
      | stored h => exact .stored h
      | taken h hr => exact .taken h hr
      | task h => simp only [List.mem_cons] at h; rcases h with rfl | h; exact .obj hm; exact .task h
    · intro c h
      refine .inl ?_
      cases h with
      | @obj x h =>
        by_cases e : x = t
        · subst e; exact ⟨_, .task (List.mem_cons_self ..), .refl _⟩
        · refine ⟨_, .obj (t := x) ?_, .refl _⟩
          cases mv <;> simp [List.mem_erase_of_ne e, h]
      | stored h => exact ⟨_, .stored h, .refl _⟩
      | taken h hr => exact ⟨_, .taken h hr, .refl _⟩
      | task h => exact ⟨_, .task (List.mem_cons_of_mem _ h), .refl _⟩
    · intro h; exact absurd h (Inv.use hm)
    · intro h; cases mv <;> simp [h]
  refine { I with toCore := C, single := ?single, early := ?early, tasks := ?tasks, busy := ?busy, excl := ?excl, uniqT := ?uniqT }
  case single => intro h; cases mv <;> simp at h; have := I.single h; simp; omega
  case early => intro h; have := (I.early h).1; rw [hr] at this; cases this
  case tasks => intro _; exact hr
  case busy =>
    intro x b hx
    have h1 := I.busy x b hx
    have : x ≠ t := by rintro rfl; simp [ht] at hx
    cases mv <;> simp [List.mem_erase_of_ne this, h1]
  case excl => intro x hx; have := I.noMove ht hm x; grind
  case uniqT => intro x hx a ha hn; exact (I.uniqT x hx a ha hn).imp id (hpub a)

theorem Inv.attachStore {s : St} (I : Inv s) {t : Nat} {mv : Bool} (ht : s.pc t = .idle) (hm : t ∈ s.objs) (hr : s.ready = false)
    (hl : leq (s.vc t) s.lm) :
    Inv { s with objs := if mv then s.objs.erase t else s.objs, copied := if mv then s.copied else true, stored := s.stored + 1 } := by
  have hlen := List.length_erase_of_mem hm
  have hpos : 0 < s.objs.length := List.length_pos_of_mem hm
  have hpub : ∀ a, Pub s a → Pub { s with objs := if mv then s.objs.erase t else s.objs, copied := if mv then s.copied else true,
                                          stored := s.stored + 1 } a := fun a h =>
    h.congr rfl rfl rfl rfl (fun _ h => .inr h) id (fun _ h _ => h) (fun c h => .inl h) fun _ => id
  have C : Core { s with objs := if mv then s.objs.erase t else s.objs, copied := if mv then s.copied else true,
                         stored := s.stored + 1 } := by
    refine I.toCore.owners rfl rfl rfl rfl I.baseP (fun r h => .inl h) (fun r h => I.base _ (.inr ⟨r, h, rfl⟩)) ?_ ?_ hpub ?_ ?_ id
    · intro c h
      cases h with
      | obj h =>
        refine ⟨_, .obj ?_, .refl _⟩; cases mv <;> simp at h; exact h; exact List.mem_of_mem_erase h
      | stored h => exact ⟨_, .obj hm, hl⟩
      | taken h hr => exact ⟨_, .taken h hr, .refl _⟩
      | task h => exact ⟨_, .task h, .refl _⟩
    · intro c h
      refine .inl ?_
      cases h with
      | @obj x h =>
        by_cases e : x = t
        · subst e; exact ⟨_, .stored (Nat.succ_pos _), hl⟩
        · refine ⟨_, .obj (t := x) ?_, .refl _⟩
          cases mv <;> simp [List.mem_erase_of_ne e, h]
      | stored h => exact ⟨_, .stored (Nat.succ_pos _), .refl _⟩
      | taken h hr => exact ⟨_, .taken h hr, .refl _⟩
      | task h => exact ⟨_, .task h, .refl _⟩
    · intro h; exact absurd h (Inv.use hm)
    · intro h; cases mv <;> simp [h]
  refine { I with toCore := C, single := ?single, early := ?early, stored := ?stored, busy := ?busy, excl := ?excl, uniqT := ?uniqT }
  case single => intro h; cases mv <;> simp at h; have := I.single h; simp; omega
  case early => intro h; exact ⟨hr, .inr ((I.early h).2.resolve_left (Inv.use hm))⟩
  case stored => intro _; exact hr
  case busy =>
    intro x b hx
    have h1 := I.busy x b hx
    have : x ≠ t := by rintro rfl; simp [ht] at hx
    cases mv <;> simp [List.mem_erase_of_ne this, h1]
  case excl => intro x hx; have := I.noMove ht hm x; grind
  case uniqT => intro x hx a ha hn; exact (I.uniqT x hx a ha hn).imp id (hpub a)

theorem mem_eraseIdx {α : Type} {l : List α} {i : Nat} {c d : α} (hi : l[i]? = some c) (hd : d ∈ l) : d ∈ l.eraseIdx i ∨ d = c := by
  induction l generalizing i with
  | nil => cases hd
  | cons x l ih =>
    cases i with
    | zero =>
      simp only [List.getElem?_cons_zero, Option.some.injEq] at hi
      simp only [List.mem_cons] at hd
      simp only [List.eraseIdx_zero, List.tail_cons]
      rcases hd with rfl | hd
      · exact .inr hi
      · exact .inl hd
    | succ i =>
      simp only [List.getElem?_cons_succ] at hi
      simp only [List.mem_cons] at hd
      simp only [List.eraseIdx_cons_succ, List.mem_cons]
      rcases hd with rfl | hd
      · exact .inl (.inl rfl)
      · exact (ih hi hd).imp .inr id

theorem Inv.start {s : St} (I : Inv s) {t i : Nat} {c : Clock} (hi : s.tasks[i]? = some c) (hl : leq c (s.vc t)) :
    Inv { s with tasks := s.tasks.eraseIdx i, objs := t :: s.objs, sees := upd s.sees t true } := by
  have hc : c ∈ s.tasks := List.mem_of_getElem? hi
  have hne : s.tasks ≠ [] := List.ne_nil_of_mem hc
  have hr := I.tasks hne
  have hlt : i < s.tasks.length := (List.getElem?_eq_some_iff.1 hi).1
  have hlen := List.length_eraseIdx_of_lt hlt
  have hpub : ∀ a, Pub s a → Pub { s with tasks := s.tasks.eraseIdx i, objs := t :: s.objs, sees := upd s.sees t true } a := by
    intro a h
    refine h.congr rfl rfl rfl rfl (fun x hx => ?_) id (fun _ h _ => h) (fun c h => .inl (List.mem_of_mem_eraseIdx h)) fun _ => id
    simp only [upd_eq] at hx
    split at hx
    · subst x
      obtain ⟨-, ⟨g1, g2, g3, g4, g5, g6⟩ | ⟨g1, -⟩⟩ := h
      · exact .inl fun _ _ _ => (g6 c hc).mono hl
      · rw [hr] at g1; cases g1
    · exact .inr hx
  have C : Core { s with tasks := s.tasks.eraseIdx i, objs := t :: s.objs, sees := upd s.sees t true } := by
    refine I.toCore.owners rfl rfl rfl rfl I.baseP (fun r h => .inl h) (fun r h => I.base _ (.inr ⟨r, h, rfl⟩)) ?_ ?_ hpub ?_ id id
    · intro c' h
      cases h with
      | obj h =>
        simp only [List.mem_cons] at h
        rcases h with rfl | h
        · exact ⟨_, .task hc, hl⟩
        · exact ⟨_, .obj h, .refl _⟩
      | stored h => exact ⟨_, .stored h, .refl _⟩
      | taken h hr => exact ⟨_, .taken h hr, .refl _⟩
      | task h => exact ⟨_, .task (List.mem_of_mem_eraseIdx h), .refl _⟩
    · intro d h
      refine .inl ?_
      cases h with
      | obj h => exact ⟨_, .obj (List.mem_cons_of_mem _ h), .refl _⟩
      | stored h => exact ⟨_, .stored h, .refl _⟩
      | taken h hr => exact ⟨_, .taken h hr, .refl _⟩
      | task h =>
        rcases mem_eraseIdx hi h with h | rfl
        · exact ⟨_, .task h, .refl _⟩
        · exact ⟨_, .obj (List.mem_cons_self ..), hl⟩
    · intro h; rw [useCount_zero] at h; exact absurd h.2.2.2.2 hne
  refine { I with toCore := C, single := ?single, early := ?early, tasks := ?tasks, sees := ?sees, busy := ?busy, knows := ?knows, excl := ?excl, uniqT := ?uniqT }
  case single => intro h; have := I.single h; simp only [List.length_cons]; omega
  case early => intro h; have := (I.early h).1; rw [hr] at this; cases this
  case tasks => intro _; exact hr
  case sees => intro _ _; exact hr
  case busy => intro x b hx; exact List.mem_cons_of_mem _ (I.busy x b hx)
  case knows => intro x b hx; have := I.knows x b hx; simp only [upd_eq]; grind
  case excl => intro x hx; exact absurd (I.excl x hx).2.2.2 hne
  case uniqT => intro x hx a ha hn; exact (I.uniqT x hx a ha hn).imp id (hpub a)

/-! ## Owners that go -/

theorem Inv.drop {s : St} (I : Inv s) {t : Nat} (ht : s.pc t = .idle) (hm : t ∈ s.objs) (hl : leq (s.vc t) s.lc) :
    Inv { s with objs := s.objs.erase t } := by
  have hlen := List.length_erase_of_mem hm
  have hpos : 0 < s.objs.length := List.length_pos_of_mem hm
  have hpub : ∀ a, Pub s a → Pub { s with objs := s.objs.erase t } a := fun a h =>
    h.congr rfl rfl rfl rfl (fun _ h => .inr h) id (fun _ h _ => h) (fun c h => .inl h) fun _ => id
  have hnone : s.copied = false → ∀ c, ¬ Proper { s with objs := s.objs.erase t } c := by
    intro hc c h
    have := I.single hc
    cases h with
    | obj h => have := List.length_pos_of_mem h; simp only at this; omega
    | stored h => simp only at h; omega
    | taken h => simp only at h; omega
    | task h => have := List.length_pos_of_mem h; simp only at this; omega
  have C : Core { s with objs := s.objs.erase t } := by
    refine I.toCore.owners rfl rfl rfl rfl I.baseP (fun r h => .inl h) (fun r h => I.base _ (.inr ⟨r, h, rfl⟩)) ?_ ?_ hpub ?_ id id
    · intro c h
      refine ⟨c, ?_, .refl _⟩
      cases h with
      | obj h => exact .obj (List.mem_of_mem_erase h)
      | stored h => exact .stored h
      | taken h hr => exact .taken h hr
      | task h => exact .task h
    · intro c h
      cases h with
      | @obj x h =>
        by_cases e : x = t
        · subst e
          refine .inr ⟨hl, ?_⟩
          by_cases hc : s.copied = true
          · exact .inl hc
          · exact .inr (hnone (by simpa using hc))
        · exact .inl ⟨_, .obj (t := x) (by simp [List.mem_erase_of_ne e, h]), .refl _⟩
      | stored h => exact .inl ⟨_, .stored h, .refl _⟩
      | taken h hr => exact .inl ⟨_, .taken h hr, .refl _⟩
      | task h => exact .inl ⟨_, .task h, .refl _⟩
    · intro h; exact absurd h (Inv.use hm)
  refine { I with toCore := C, single := ?single, early := ?early, busy := ?busy, excl := ?excl, uniqT := ?uniqT }
  case single => intro h; have := I.single h; simp only; omega
  case early => intro h; exact ⟨(I.early h).1, .inr ((I.early h).2.resolve_left (Inv.use hm))⟩
  case busy =>
    intro x b hx
    have h1 := I.busy x b hx
    have : x ≠ t := by rintro rfl; simp [ht] at hx
    simp [List.mem_erase_of_ne this, h1]
  case excl => intro x hx; have := I.noMove ht hm x; grind
  case uniqT => intro x hx a ha hn; exact (I.uniqT x hx a ha hn).imp id (hpub a)

theorem Inv.dropTemp {s : St} (I : Inv s) {t : Nat} (ht : s.pc t = .submitting) (h0 : s.taken = 0) (hl : leq (s.vc t) s.lc) :
    Inv { s with temp := none, pc := upd s.pc t .idle } := by
  have htemp : s.temp = some t := (I.one t).1 (.inr (.inr ht))
  have hr := I.sub t ht
  have hpub : ∀ a, Pub s a → Pub { s with temp := none, pc := upd s.pc t .idle } a := by
    intro a h
    refine h.congr rfl rfl rfl rfl (fun _ h => .inr h) id (fun _ _ h => by omega) (fun c h => .inl h) fun r h => ?_
    have := I.pub r h; rw [hr] at this; cases this
  have C : Core { s with temp := none, pc := upd s.pc t .idle } := by
    refine I.toCore.owners rfl rfl rfl rfl I.baseP (fun r h => ?_) (fun r h => nomatch h) ?_ ?_ hpub ?_ id id
    · rw [htemp] at h; cases h; exact .inr hl
    · intro c h
      refine ⟨c, ?_, .refl _⟩
      cases h with
      | obj h => exact .obj h
      | stored h => exact .stored h
      | taken h hr => cases hr
      | task h => exact .task h
    · intro c h
      refine .inl ⟨c, ?_, .refl _⟩
      cases h with
      | obj h => exact .obj (s := { s with temp := none, pc := upd s.pc t .idle }) h
      | stored h => exact .stored (s := { s with temp := none, pc := upd s.pc t .idle }) h
      | taken h hr => omega
      | task h => exact .task h
    · intro h; rw [useCount_zero] at h; rw [htemp] at h; simp at h
  have hpc : ∀ x, upd s.pc t .idle x = if x = t then .idle else s.pc x := fun x => rfl
  refine { I with toCore := C, early := ?early, one := ?one, prod := ?prod, pub := ?pub, sub := ?sub, taken := ?taken, busy := ?busy, knows := ?knows, excl := ?excl, uniqT := ?uniqT, uniqK := ?uniqK }
  case early =>
    intro h
    have : s.ready = false := by
      refine (I.early ?_).1
      rcases h with h | ⟨x, v, h⟩
      · exact .inl h
      · refine .inr ⟨x, v, ?_⟩; simp only [hpc] at h; split at h; cases h; exact h
    rw [hr] at this; cases this
  case one => intro x; have := I.one x; simp only [hpc]; grind
  case prod => intro h; cases h rfl
  case pub => intro x hx; have := I.pub x; simp only [hpc] at hx; grind
  case sub => intro x hx; exact hr
  case taken => intro h; simp only at h; omega
  case busy => intro x b hx; have := I.busy x b; simp only [hpc] at hx; grind
  case knows => intro x b hx; have := I.knows x b; simp only [hpc] at hx; grind
  case excl => intro x hx; have := I.excl x; simp only [hpc] at hx; grind
  case uniqT =>
    intro x hx a ha hn
    simp only [hpc] at hx
    split at hx
    · cases hx
    · exact (I.uniqT x hx a ha hn).imp id (hpub a)
  case uniqK =>
    intro x hx a ha hn
    simp only [hpc] at hx
    split at hx
    · cases hx
    · exact I.uniqK x hx a ha hn

/-! ## Resolving -/

theorem Inv.resolve0 {s : St} (I : Inv s) : Inv { s with producer := none } := by
  have hpub : ∀ a, Pub s a → Pub { s with producer := none } a := fun a h => h
  have C : Core { s with producer := none } := by
    refine I.toCore.owners rfl rfl rfl rfl (fun _ h => nomatch h) (fun r h => .inl h) (fun r h => I.base _ (.inr ⟨r, h, rfl⟩)) ?_ ?_ hpub id id id
    · intro c h
      refine ⟨c, ?_, .refl _⟩
      cases h with
      | obj h => exact .obj h
      | stored h => exact .stored h
      | taken h hr => exact .taken h hr
      | task h => exact .task h
    · intro c h
      refine .inl ⟨c, ?_, .refl _⟩
      cases h with
      | obj h => exact .obj (s := { s with producer := none }) h
      | stored h => exact .stored (s := { s with producer := none }) h
      | taken h hr => exact .taken (s := { s with producer := none }) h hr
      | task h => exact .task h
  refine { I with toCore := C, early := ?early, prod := ?prod }
  case early => intro h; refine I.early (.inr ?_); rcases h with h | h; exact absurd rfl h; exact h
  case prod => intro _; rfl

theorem Inv.resolve {s : St} (I : Inv s) {t : Nat} {v : Bool} (ht : s.pc t = .idle) (hp : s.producer = some t) (hu : useCount s ≠ 0) :
    Inv { s with producer := none, temp := some t, pc := upd s.pc t (.resolving v) } := by
  have htemp : s.temp = none := by
    cases h : s.temp with
    | none => rfl
    | some r => have := I.prod (by simp [h]); simp [hp] at this
  have htk : s.taken = 0 := by
    cases h : s.taken with
    | zero => rfl
    | succ n => have := (I.taken (by omega)).2; exact absurd htemp this
  have he := I.early (.inl (by simp [hp]))
  have hpc : ∀ x, upd s.pc t (.resolving v) x = if x = t then .resolving v else s.pc x := fun x => rfl
  have hpub : ∀ a, Pub s a → Pub { s with producer := none, temp := some t, pc := upd s.pc t (.resolving v) } a := by
    intro a h
    refine h.congr rfl rfl rfl rfl (fun _ h => .inr h) id (fun _ _ h => by omega) (fun c h => .inl h) fun r h => ?_
    simp only [hpc]; split
    · subst r; simp [ht] at h
    · exact h
  have C : Core { s with producer := none, temp := some t, pc := upd s.pc t (.resolving v) } := by
    refine I.toCore.owners rfl rfl rfl rfl (fun _ h => nomatch h) (fun r h => ?_) (fun r h => ?_) ?_ ?_ hpub ?_ id id
    · rw [htemp] at h; cases h
    · cases h; exact I.baseP t hp
    · intro c h
      refine ⟨c, ?_, .refl _⟩
      cases h with
      | obj h => exact .obj h
      | stored h => exact .stored h
      | taken h hr => simp only at h; omega
      | task h => exact .task h
    · intro c h
      refine .inl ⟨c, ?_, .refl _⟩
      cases h with
      | obj h => exact .obj (s := { s with producer := none, temp := some t, pc := upd s.pc t (.resolving v) }) h
      | stored h => exact .stored (s := { s with producer := none, temp := some t, pc := upd s.pc t (.resolving v) }) h
      | taken h hr => omega
      | task h => exact .task h
    · intro h; exact absurd h hu
  refine { I with toCore := C, early := ?early, one := ?one, prod := ?prod, pub := ?pub, sub := ?sub, taken := ?taken, busy := ?busy, knows := ?knows, excl := ?excl, uniqT := ?uniqT, uniqK := ?uniqK }
  case early => intro _; exact ⟨he.1, .inr (he.2.resolve_left hu)⟩
  case one => intro x; have := I.one x; simp only [hpc]; grind
  case prod => intro _; rfl
  case pub => intro x hx; exact he.1
  case sub => intro x hx; have := I.sub x; simp only [hpc] at hx; grind
  case taken => intro h; simp only at h; omega
  case busy => intro x b hx; have := I.busy x b; simp only [hpc] at hx; grind
  case knows => intro x b hx; have := I.knows x b; simp only [hpc] at hx; grind
  case excl => intro x hx; have := I.excl x; simp only [hpc] at hx; grind
  case uniqT =>
    intro x hx a ha hn
    simp only [hpc] at hx
    split at hx
    · cases hx
    · exact (I.uniqT x hx a ha hn).imp id (hpub a)
  case uniqK =>
    intro x hx a ha hn
    simp only [hpc] at hx
    split at hx
    · cases hx
    · exact I.uniqK x hx a ha hn

end Verif.Race
