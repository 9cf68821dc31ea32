import Verif.Future.Race

/-! # What is ordered by "happens before" in the model of `Verif.Race` -/

namespace Verif.Race

theorem upd_eq {α : Type} (f : Nat → α) (k : Nat) (v : α) (i : Nat) : upd f k v i = if i = k then v else f i := rfl

/-- Clock `c` has the access: it happens before. -/
def Access.le (a : Access) (c : Clock) : Prop := a.time ≤ c a.thread

/-- Part of the construction of the state. -/
def Access.initial (a : Access) : Prop := a.thread = 0 ∧ a.time ≤ 1

def leq (c d : Clock) : Prop := ∀ i, c i ≤ d i

theorem Access.le.mono {a : Access} {c d : Clock} (h : a.le c) (hc : leq c d) : a.le d := Nat.le_trans h (hc _)

theorem leq.refl (c : Clock) : leq c c := fun _ => Nat.le_refl _
theorem leq.trans {a b c : Clock} (h : leq a b) (h' : leq b c) : leq a c := fun i => Nat.le_trans (h i) (h' i)
theorem leq_joinl (a b : Clock) : leq a (join a b) := fun i => Nat.le_max_left _ _
theorem leq_joinr (a b : Clock) : leq b (join a b) := fun i => Nat.le_max_right _ _

/-- What the owners of future objects know. -/
inductive Proper (s : St) : Clock → Prop where
  | obj {t : Nat} (h : t ∈ s.objs) : Proper s (s.vc t)
  | stored (h : 0 < s.stored) : Proper s s.lm
  | taken {r : Nat} (h : 0 < s.taken) (hr : s.temp = some r) : Proper s (s.vc r)
  | task {c : Clock} (h : c ∈ s.tasks) : Proper s c

/-- What the owners of the shared state know. -/
def Holder (s : St) (c : Clock) : Prop := Proper s c ∨ ∃ r, s.temp = some r ∧ c = s.vc r

/-- The write of the result by the resolving thread. -/
def Pub (s : St) (a : Access) : Prop :=
  a.write = true ∧
    ((s.ready = true ∧ a.le s.lm ∧ a.le s.lr ∧ (∀ t, s.sees t = true → a.le (s.vc t)) ∧
        (0 < s.taken → ∀ r, s.temp = some r → a.le (s.vc r)) ∧ ∀ c ∈ s.tasks, a.le c) ∨
      (s.ready = false ∧ ∃ r, s.pc r = .publishing ∧ a.le (s.vc r)))

structure Core (s : St) : Prop where
  base : ∀ c, Holder s c → 1 ≤ c 0
  baseP : ∀ t, s.producer = some t → 1 ≤ s.vc t 0
  k0 : ∀ a ∈ s.acc, a.le s.lc ∨ ∃ c, Holder s c ∧ a.le c
  k1 : ∀ a ∈ s.acc, a.loc ≠ .thens →
    a.initial ∨ Pub s a ∨ (∃ c, Proper s c ∧ a.le c) ∨ (a.le s.lc ∧ (s.copied = true ∨ ∀ c, ¬ Proper s c))
  th : ∀ a ∈ s.acc, a.loc = .thens → a.initial ∨ a.le s.lm ∨ useCount s = 0
  wr : ∀ a ∈ s.acc, a.loc ≠ .thens → a.write = true →
    a.initial ∨ Pub s a ∨ ((s.ready = true ∨ useCount s = 0) ∧ ∀ c, Proper s c → a.le c)

structure Inv (s : St) : Prop extends Core s where
  single : s.copied = false → s.objs.length + s.stored + s.taken + s.tasks.length ≤ 1
  early : (s.producer ≠ none ∨ ∃ t v, s.pc t = .resolving v) →
    s.ready = false ∧ (useCount s = 0 ∨ ∀ a ∈ s.acc, a.loc ≠ .thens → a.initial)
  one : ∀ t, ((∃ v, s.pc t = .resolving v) ∨ s.pc t = .publishing ∨ s.pc t = .submitting) ↔ s.temp = some t
  prod : s.temp ≠ none → s.producer = none
  pub : ∀ t, s.pc t = .publishing → s.ready = false
  sub : ∀ t, s.pc t = .submitting → s.ready = true
  taken : 0 < s.taken → s.ready = true ∧ s.temp ≠ none
  tasks : s.tasks ≠ [] → s.ready = true
  sees : ∀ t, s.sees t = true → s.ready = true
  stored : 0 < s.stored → s.ready = false
  busy : ∀ t u, s.pc t = .trying u ∨ s.pc t = .taking u → t ∈ s.objs
  knows : ∀ t u, s.pc t = .taking u → s.sees t = true
  excl : ∀ t, s.pc t = .trying true ∨ s.pc t = .taking true → (∀ u ∈ s.objs, u = t) ∧ s.stored = 0 ∧ s.taken = 0 ∧ s.tasks = []
  uniqT : ∀ t, s.pc t = .trying true → ∀ a ∈ s.acc, a.loc ≠ .thens → a.le (s.vc t) ∨ Pub s a
  uniqK : ∀ t, s.pc t = .taking true → ∀ a ∈ s.acc, a.loc ≠ .thens → a.le (s.vc t)

theorem Inv.init : Inv init := by
  have h1 : (Race.init.vc 0) 0 = 1 := rfl
  have C : Core Race.init := by
    constructor
    case base =>
      rintro c (h | ⟨r, h, -⟩)
      · cases h with
        | @obj t h => simp [Race.init] at h; subst h; exact Nat.le_refl _
        | stored h => simp [Race.init] at h
        | taken h => simp [Race.init] at h
        | task h => simp [Race.init] at h
      · simp [Race.init] at h
    case baseP => intro t h; simp [Race.init] at h; subst h; exact Nat.le_refl _
    case k0 =>
      intro a h
      refine .inr ⟨_, .inl (.obj (t := 0) (by simp [Race.init])), ?_⟩
      simp [Race.init] at h
      rcases h with rfl | rfl | rfl <;> simp [Access.le, h1]
    case k1 => intro a h _; simp [Race.init] at h; rcases h with rfl | rfl | rfl <;> simp [Access.initial]
    case th => intro a h _; simp [Race.init] at h; rcases h with rfl | rfl | rfl <;> simp [Access.initial]
    case wr => intro a h _ _; simp [Race.init] at h; rcases h with rfl | rfl | rfl <;> simp [Access.initial]
  constructor
  case toCore => exact C
  case early =>
    intro _
    refine ⟨rfl, .inr fun a h _ => ?_⟩
    simp [Race.init] at h; rcases h with rfl | rfl | rfl <;> simp [Access.initial]
  all_goals simp [Race.init]

/-! ## Clocks that grow -/

theorem Inv.raise {s : St} (I : Inv s) {vc : Nat → Clock} {lm lr lc : Clock} (h1 : ∀ t, leq (s.vc t) (vc t)) (h2 : leq s.lm lm)
    (h3 : leq s.lr lr) (h4 : leq s.lc lc) : Inv { s with vc := vc, lm := lm, lr := lr, lc := lc } := by
  have hp : ∀ {c}, Proper s c → ∃ d, Proper { s with vc := vc, lm := lm, lr := lr, lc := lc } d ∧ leq c d := by
    intro c h
    cases h with
    | @obj t h => exact ⟨_, .obj (s := { s with vc := vc, lm := lm, lr := lr, lc := lc }) h, h1 t⟩
    | stored h => exact ⟨_, .stored (s := { s with vc := vc, lm := lm, lr := lr, lc := lc }) h, h2⟩
    | @taken r h hr => exact ⟨_, .taken (s := { s with vc := vc, lm := lm, lr := lr, lc := lc }) h hr, h1 r⟩
    | task h => exact ⟨_, .task (s := { s with vc := vc, lm := lm, lr := lr, lc := lc }) h, .refl _⟩
  have hp' : ∀ {c}, Proper { s with vc := vc, lm := lm, lr := lr, lc := lc } c → ∃ d, Proper s d ∧ leq d c := by
    intro c h
    cases h with
    | @obj t h => exact ⟨_, .obj h, h1 t⟩
    | stored h => exact ⟨_, .stored h, h2⟩
    | @taken r h hr => exact ⟨_, .taken h hr, h1 r⟩
    | task h => exact ⟨_, .task h, .refl _⟩
  have hpub : ∀ {a}, Pub s a → Pub { s with vc := vc, lm := lm, lr := lr, lc := lc } a := by
    rintro a ⟨hw, ⟨g1, g2, g3, g4, g5, g6⟩ | ⟨g1, r, g2, g3⟩⟩
    · exact ⟨hw, .inl ⟨g1, g2.mono h2, g3.mono h3, fun t ht => (g4 t ht).mono (h1 t), fun h r hr => (g5 h r hr).mono (h1 r), g6⟩⟩
    · exact ⟨hw, .inr ⟨g1, r, g2, g3.mono (h1 r)⟩⟩
  refine { I with base := ?base, baseP := ?baseP, k0 := ?k0, k1 := ?k1, th := ?th, wr := ?wr, uniqT := ?uniqT, uniqK := ?uniqK }
  case base =>
    rintro c (h | ⟨r, h, rfl⟩)
    · obtain ⟨d, hd, hl⟩ := hp' h; exact Nat.le_trans (I.base d (.inl hd)) (hl 0)
    · exact Nat.le_trans (I.base _ (.inr ⟨r, h, rfl⟩)) (h1 r 0)
  case baseP => intro t h; exact Nat.le_trans (I.baseP t h) (h1 t 0)
  case k0 =>
    intro a ha
    rcases I.k0 a ha with h | ⟨c, h | ⟨r, h, rfl⟩, hl⟩
    · exact .inl (h.mono h4)
    · obtain ⟨d, hd, hc⟩ := hp h; exact .inr ⟨d, .inl hd, hl.mono hc⟩
    · exact .inr ⟨_, .inr ⟨r, h, rfl⟩, hl.mono (h1 r)⟩
  case k1 =>
    intro a ha hn
    rcases I.k1 a ha hn with h | h | ⟨c, h, hl⟩ | ⟨h, h'⟩
    · exact .inl h
    · exact .inr (.inl (hpub h))
    · obtain ⟨d, hd, hc⟩ := hp h; exact .inr (.inr (.inl ⟨d, hd, hl.mono hc⟩))
    · refine .inr (.inr (.inr ⟨h.mono h4, h'.imp id fun h' c hc => ?_⟩))
      obtain ⟨d, hd, -⟩ := hp' hc; exact h' d hd
  case th =>
    intro a ha hl
    rcases I.th a ha hl with h | h | h
    · exact .inl h
    · exact .inr (.inl (h.mono h2))
    · exact .inr (.inr h)
  case wr =>
    intro a ha hn hw
    rcases I.wr a ha hn hw with h | h | ⟨h, h'⟩
    · exact .inl h
    · exact .inr (.inl (hpub h))
    · refine .inr (.inr ⟨h, fun c hc => ?_⟩)
      obtain ⟨d, hd, hl⟩ := hp' hc; exact (h' d hd).mono hl
  case uniqT => intro t ht a ha hn; exact (I.uniqT t ht a ha hn).imp (·.mono (h1 t)) hpub
  case uniqK => intro t ht a ha hn; exact (I.uniqK t ht a ha hn).mono (h1 t)

/-! ## Owners that come and go -/

theorem Core.owners {s s' : St} (I : Core s) (hvc : s'.vc = s.vc) (hlm : s'.lm = s.lm) (hlc : s'.lc = s.lc)
    (hacc : s'.acc = s.acc) (hprod : ∀ t, s'.producer = some t → 1 ≤ s.vc t 0)
    (htemp : ∀ r, s.temp = some r → s'.temp = some r ∨ leq (s.vc r) s.lc) (htemp' : ∀ r, s'.temp = some r → 1 ≤ s.vc r 0)
    (p1 : ∀ c', Proper s' c' → ∃ c, Proper s c ∧ leq c c')
    (p2 : ∀ c, Proper s c → (∃ c', Proper s' c' ∧ leq c c') ∨ (leq c s.lc ∧ (s'.copied = true ∨ ∀ c', ¬ Proper s' c')))
    (hpub : ∀ a, Pub s a → Pub s' a) (huse : useCount s = 0 → useCount s' = 0) (hcop : s.copied = true → s'.copied = true)
    (hready : s.ready = true → s'.ready = true) : Core s' := by
  constructor
  case base =>
    rintro c (h | ⟨r, h, rfl⟩)
    · obtain ⟨d, hd, hl⟩ := p1 c h; exact Nat.le_trans (I.base d (.inl hd)) (hl 0)
    · rw [hvc]; exact htemp' r h
  case baseP => intro t h; rw [hvc]; exact hprod t h
  case k0 =>
    intro a ha
    rw [hlc]
    rcases I.k0 a (hacc ▸ ha) with h | ⟨c, h | ⟨r, h, rfl⟩, hl⟩
    · exact .inl h
    · rcases p2 c h with ⟨d, hd, hc⟩ | ⟨hc, -⟩
      · exact .inr ⟨d, .inl hd, hl.mono hc⟩
      · exact .inl (hl.mono hc)
    · rcases htemp r h with h | h
      · exact .inr ⟨_, .inr ⟨r, h, rfl⟩, hvc ▸ hl⟩
      · exact .inl (hl.mono h)
  case k1 =>
    intro a ha hn
    rw [hlc]
    rcases I.k1 a (hacc ▸ ha) hn with h | h | ⟨c, h, hl⟩ | ⟨h, h'⟩
    · exact .inl h
    · exact .inr (.inl (hpub a h))
    · rcases p2 c h with ⟨d, hd, hc⟩ | ⟨hc, hc'⟩
      · exact .inr (.inr (.inl ⟨d, hd, hl.mono hc⟩))
      · exact .inr (.inr (.inr ⟨hl.mono hc, hc'⟩))
    · refine .inr (.inr (.inr ⟨h, h'.imp hcop fun h' c hc => ?_⟩))
      obtain ⟨d, hd, -⟩ := p1 c hc; exact h' d hd
  case th =>
    intro a ha hl
    rw [hlm]
    rcases I.th a (hacc ▸ ha) hl with h | h | h
    · exact .inl h
    · exact .inr (.inl h)
    · exact .inr (.inr (huse h))
  case wr =>
    intro a ha hn hw
    rcases I.wr a (hacc ▸ ha) hn hw with h | h | ⟨h, h'⟩
    · exact .inl h
    · exact .inr (.inl (hpub a h))
    · refine .inr (.inr ⟨h.imp hready huse, fun c hc => ?_⟩)
      obtain ⟨d, hd, hl⟩ := p1 c hc; exact (h' d hd).mono hl

end Verif.Race
