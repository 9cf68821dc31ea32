import Verif.Future.Shared

/-!
# Invariant of the shared state of a future
-/

namespace Verif.Shared

/-! ## Which traces are legal (stated without reference to the machine) -/

/-- May event `e` follow history `t`? -/
def Ok (t : List Event) : Event → Prop
  | .invoked => .invoked ∉ t
  | .resolved _ => ∀ o, .resolved o ∉ t
  | .attached k => .attached k ∉ t
  | .scheduled k => .attached k ∈ t ∧ (∃ o, .resolved o ∈ t) ∧ .scheduled k ∉ t
  | .ran k x => .scheduled k ∈ t ∧ (∀ y, .ran k y ∉ t) ∧ (∀ f, .gave k f ∉ t) ∧ ∃ o, .resolved o ∈ t ∧ x = .out o
  | .gave k _ => .scheduled k ∈ t ∧ (∀ y, .ran k y ∉ t) ∧ (∀ f, .gave k f ∉ t) ∧ ∃ o, .resolved o ∈ t
  | .got _ x => ∃ o, .resolved o ∈ t ∧ x = .out o
  | .notReady _ => ∀ o, .resolved o ∉ t

/-- Every event is legal after the ones before it. -/
inductive Legal : List Event → Prop
  | nil : Legal []
  | snoc {t e} : Legal t → Ok t e → Legal (t ++ [e])

/-! ## Invariant -/

/-- The handle may resolve the state. -/
def cap : Handle → Bool
  | .task p => p
  | .prom p => p
  | .none => false

/-- The call is going to resolve the state. -/
def pend : RPc → Bool
  | .write _ | .lock _ => true
  | _ => false

/-- `_exception` and `_result` say `o`. -/
def Stored (exc : Option Err) (res : Option Nat) : Outcome → Prop
  | .val v => exc = none ∧ res = some v
  | .exc e => exc = some e

/-- Temporary owner inside a call of the producer. -/
def isLock : Holder → Prop
  | .inv _ => True
  | .res _ => True
  | _ => False

/-- The continuation has been given to its executor. -/
def past : CPc → Prop
  | .sched | .running | .checked _ | .done => True
  | _ => False

/-- The continuation exists and has not finished. -/
def live : CPc → Prop
  | .none | .done => False
  | _ => True

structure Inv (s : St) : Prop where
  nodup : s.hold.Nodup
  hh : ∀ h h', cap (s.handle h) = true → cap (s.handle h') = true → h = h'
  hr : ∀ h h', cap (s.handle h) = true → pend (s.rs h') = false
  hy : ∀ h, cap (s.handle h) = true → s.ready = false
  rr : ∀ h h', pend (s.rs h) = true → pend (s.rs h') = true → h = h'
  ry : ∀ h, pend (s.rs h) = true → s.ready = false
  once : .invoked ∈ s.trace → ∀ h, s.handle h ≠ .task true
  hinv : ∀ h, .inv h ∈ s.hold → .invoked ∈ s.trace
  hfut : ∀ f, .fut f ∈ s.hold ↔ s.fut f ≠ .none
  hcont : ∀ k, .cont k ∈ s.hold ↔ live (s.cpc k) ∧ s.canceled k = false ∧ s.isDet k = false
  hdet : ∀ k, .det k ∈ s.hold ↔ s.isDet k = true ∧ live (s.cpc k)
  hres : ∀ h, .res h ∈ s.hold ↔ s.rs h ≠ .none
  thn : ∀ k, k ∈ s.thens ↔ s.cpc k = .queued
  thnd : s.thens.Nodup
  thr : s.ready = true → s.thens = []
  drn : ∀ h ks, s.rs h = .drain ks → s.ready = true ∧ ks.Nodup ∧ ∀ k, k ∈ ks → s.cpc k = .inflight
  drn1 : ∀ h h' ks ks', s.rs h = .drain ks → s.rs h' = .drain ks' → h = h'
  infl : ∀ k, s.cpc k = .inflight → ∃ h ks, s.rs h = .drain ks ∧ k ∈ ks
  rdyc : ∀ k, past (s.cpc k) ∨ s.cpc k = .direct → s.ready = true
  detpc : ∀ k, s.isDet k = true → s.cpc k = .queued ∨ s.cpc k = .inflight ∨ s.cpc k = .done
  canc : ∀ k, s.canceled k = true → s.cpc k ≠ .made ∧ s.cpc k ≠ .running ∧ (∀ u, s.cpc k ≠ .checked u) ∧
    s.cpc k ≠ .none
  clean : (∃ h, cap (s.handle h) = true) ∨ (∃ h o, s.rs h = .write o) → s.res = none ∧ s.exc = none
  lck : ∀ h o, s.rs h = .lock o → Stored s.exc s.res o
  rdy2 : ∀ f u, s.fut f = .read2 u → s.ready = true
  out : s.ready = true → ∃ o, .resolved o ∈ s.trace
  out2 : ∀ o, .resolved o ∈ s.trace → s.ready = true ∧ Stored s.exc s.res o
  mv : s.moved = true → ∀ x, x ∈ s.hold → isLock x ∨ ∃ f, x = .fut f ∧ s.fut f = .used
  uf : ∀ f, s.fut f = .read1 true ∨ s.fut f = .read2 true → ∀ x, x ∈ s.hold → isLock x ∨ x = .fut f
  uc : ∀ k, s.cpc k = .checked true → ∀ x, x ∈ s.hold → isLock x ∨ x = .cont k
  att : ∀ k, .attached k ∈ s.trace ↔ s.cpc k ≠ .none ∧ s.isDet k = false
  sch : ∀ k, .scheduled k ∈ s.trace ↔ past (s.cpc k) ∧ s.isDet k = false
  ran : ∀ k x, .ran k x ∈ s.trace → s.cpc k = .done
  gave : ∀ k f, .gave k f ∈ s.trace → s.cpc k = .done
  canr : ∀ k, s.canceled k = true → (∀ x, .ran k x ∉ s.trace) ∧ ∀ f, .gave k f ∉ s.trace
  legal : Legal s.trace

theorem Inv.init : Inv init := by
  constructor <;> simp [Shared.init, live, past] <;> grind [Legal.nil, cap, pend]


theorem mem_erase' {s : St} (I : Inv s) (x y : Holder) : x ∈ s.hold.erase y ↔ x ≠ y ∧ x ∈ s.hold :=
  I.nodup.mem_erase_iff

attribute [local grind =] upd
attribute [local grind =] cap pend Stored isLock past live takes
attribute [local grind] Inv

theorem len1 {l : List Holder} (h : l.length = 1) {x y : Holder} (hx : x ∈ l) (hy : y ∈ l) : x = y := by
  match l, h with
  | [a], _ => simp at hx hy; rw [hx, hy]

attribute [local grind] Legal.snoc
attribute [local grind =] Ok

theorem Inv.invEnd {s s' : St} (I : Inv s) {h : Nat} (e : step s (.invEnd h) = .ok s') : Inv s' := by
  simp only [step] at e
  split at e
  · cases e
    have me := mem_erase' I
    have nd := I.nodup.erase (.inv h)
    constructor
    case nodup => exact nd
    all_goals grind
  · cases e

theorem Inv.invoke {s s' : St} (I : Inv s) {h h' : Nat} (e : step s (.invoke h h') = .ok s') : Inv s' := by
  simp only [step] at e
  repeat' split at e
  all_goals cases e
  all_goals first | exact I | (constructor <;> grind)

theorem Inv.moveCtor {s s' : St} (I : Inv s) {h' h : Nat} (e : step s (.moveCtor h' h) = .ok s') : Inv s' := by
  simp only [step] at e
  repeat' split at e
  all_goals cases e
  all_goals first | exact I | (constructor <;> grind)

theorem Inv.moveAssign {s s' : St} (I : Inv s) {h' h : Nat} (e : step s (.moveAssign h' h) = .ok s') : Inv s' := by
  simp only [step] at e
  repeat' split at e
  all_goals cases e
  all_goals first | exact I | (constructor <;> grind)

theorem Inv.rWrite {s s' : St} (I : Inv s) {h : Nat} (e : step s (.rWrite h) = .ok s') : Inv s' := by
  simp only [step] at e
  repeat' split at e
  all_goals cases e
  all_goals first | exact I | (constructor <;> grind)

theorem Inv.rLock {s s' : St} (I : Inv s) {h : Nat} (e : step s (.rLock h) = .ok s') : Inv s' := by
  simp only [step] at e
  repeat' split at e
  all_goals cases e
  constructor
  case infl =>
    intro k hk
    refine ⟨h, s.thens, by simp [upd], ?_⟩
    have := I.infl k
    grind
  all_goals grind

theorem Inv.copy {s s' : St} (I : Inv s) {f g : Nat} (e : step s (.copy f g) = .ok s') : Inv s' := by
  simp only [step] at e
  repeat' split at e
  all_goals cases e
  all_goals first | exact I | (constructor <;> grind)

theorem Inv.cLock {s s' : St} (I : Inv s) {k : Nat} (e : step s (.cLock k) = .ok s') : Inv s' := by
  simp only [step] at e
  repeat' split at e
  all_goals cases e
  all_goals first | exact I | (constructor <;> grind)

theorem Inv.cDirect {s s' : St} (I : Inv s) {k : Nat} (e : step s (.cDirect k) = .ok s') : Inv s' := by
  simp only [step] at e
  repeat' split at e
  all_goals cases e
  all_goals first | exact I | (constructor <;> grind)

theorem Inv.detach {s s' : St} (I : Inv s) {f k : Nat} (e : step s (.detach f k) = .ok s') : Inv s' := by
  simp only [step] at e
  repeat' split at e
  all_goals cases e
  all_goals first | exact I | (constructor <;> grind)

theorem Inv.run {s s' : St} (I : Inv s) {k : Nat} (e : step s (.run k) = .ok s') : Inv s' := by
  simp only [step] at e
  repeat' split at e
  all_goals cases e
  all_goals first | exact I | (constructor <;> grind)

theorem Inv.cCheck {s s' : St} (I : Inv s) {k : Nat} (e : step s (.cCheck k) = .ok s') : Inv s' := by
  simp only [step] at e
  repeat' split at e
  all_goals cases e
  all_goals first | exact I | (constructor <;> grind [len1])

theorem Inv.getTry {s s' : St} (I : Inv s) {f : Nat} {rv : Bool} (e : step s (.getTry f rv) = .ok s') : Inv s' := by
  simp only [step] at e
  repeat' split at e
  all_goals cases e
  all_goals first | exact I | (constructor <;> grind [len1])

theorem Inv.gLock {s s' : St} (I : Inv s) {f : Nat} (e : step s (.gLock f) = .ok s') : Inv s' := by
  simp only [step] at e
  repeat' split at e
  all_goals cases e
  all_goals first | exact I | (constructor <;> grind)

theorem Inv.startRes {s : St} (I : Inv s) {h : Nat} {hd : Handle} {o : Outcome} (hc : cap (s.handle h) = true)
    (hn : s.rs h = .none) (h0 : cap hd = false) : Inv (startRes s h hd o) := by
  unfold Shared.startRes
  split
  · constructor <;> grind
  · have := I.hy h hc
    have := I.hr h
    constructor <;> grind

theorem Inv.setVal {s s' : St} (I : Inv s) {h v : Nat} (e : step s (.setVal h v) = .ok s') : Inv s' := by
  simp only [step] at e
  repeat' split at e
  all_goals cases e
  exact I.startRes (by simp_all [cap]) (by simp_all) rfl

theorem Inv.setExc {s s' : St} (I : Inv s) {h x : Nat} (e : step s (.setExc h x) = .ok s') : Inv s' := by
  simp only [step] at e
  repeat' split at e
  all_goals cases e
  all_goals exact I.startRes (by simp_all [cap]) (by simp_all) rfl

/-- A handle that cannot resolve the state is destroyed. -/
theorem Inv.kill {s : St} (I : Inv s) {h : Nat} : Inv { s with handle := upd s.handle h .none } := by
  constructor <;> grind

theorem Inv.destroy {s s' : St} (I : Inv s) {h : Nat} (e : step s (.destroy h) = .ok s') : Inv s' := by
  simp only [step] at e
  repeat' split at e
  all_goals cases e
  all_goals first | exact I.startRes (by simp_all [cap]) (by simp_all) rfl | exact I.kill

theorem Inv.rSched {s s' : St} (I : Inv s) {h : Nat} (e : step s (.rSched h) = .ok s') : Inv s' := by
  have me := mem_erase' I
  have nd := fun x => I.nodup.erase x
  simp only [step] at e
  split at e
  · rename_i k ks heq
    have hd := I.drn h _ heq
    have hk : s.cpc k = .inflight := hd.2.2 k (by simp)
    have hks : ks.Nodup := hd.2.1.of_cons
    have hkn : k ∉ ks := (List.nodup_cons.1 hd.2.1).1
    split at e <;> cases e
    · constructor
      case infl =>
        intro k' hk'
        have hne : k' ≠ k := by intro e; subst e; simp [upd] at hk'
        obtain ⟨h', ks', h1, h2⟩ := I.infl k' (by simpa [upd, hne] using hk')
        have : h' = h := I.drn1 _ _ _ _ h1 heq
        subst this
        rw [heq] at h1; cases h1
        exact ⟨h', ks, by simp [upd], by simpa [hne] using h2⟩
      all_goals grind
    · constructor
      case infl =>
        intro k' hk'
        have hne : k' ≠ k := by intro e; subst e; simp [upd] at hk'
        obtain ⟨h', ks', h1, h2⟩ := I.infl k' (by simpa [upd, hne] using hk')
        have : h' = h := I.drn1 _ _ _ _ h1 heq
        subst this
        rw [heq] at h1; cases h1
        exact ⟨h', ks, by simp [upd], by simpa [hne] using h2⟩
      case legal =>
        refine I.legal.snoc ⟨(I.att k).2 ?_, I.out hd.1, ?_⟩ <;> grind
      all_goals grind
  · cases e

theorem Inv.rEnd {s s' : St} (I : Inv s) {h : Nat} (e : step s (.rEnd h) = .ok s') : Inv s' := by
  have me := mem_erase' I
  have nd := fun x => I.nodup.erase x
  simp only [step] at e
  repeat' split at e
  all_goals cases e
  all_goals first | exact I | (constructor <;> grind)

theorem Inv.drop {s s' : St} (I : Inv s) {f : Nat} (e : step s (.drop f) = .ok s') : Inv s' := by
  have me := mem_erase' I
  have nd := fun x => I.nodup.erase x
  simp only [step] at e
  repeat' split at e
  all_goals cases e
  all_goals first | exact I | (constructor <;> grind)

theorem Inv.attach {s s' : St} (I : Inv s) {f k : Nat} {m : Bool} (e : step s (.attach f k m) = .ok s') : Inv s' := by
  have me := mem_erase' I
  have nd := fun x => I.nodup.erase x
  simp only [step] at e
  repeat' split at e
  all_goals cases e
  all_goals first | exact I | (constructor <;> grind)

theorem Inv.cancelCore {s : St} (I : Inv s) {k : Nat} (hd : s.isDet k = false)
    (hk : s.cpc k = .queued ∨ s.cpc k = .direct ∨ s.cpc k = .inflight ∨ s.cpc k = .sched) :
    Inv { s with canceled := upd s.canceled k true, hold := s.hold.erase (.cont k) } := by
  have me := mem_erase' I
  have nd := fun x => I.nodup.erase x
  constructor
  case hcont =>
    intro k'
    have := I.hcont k'
    dsimp only
    rw [me]
    by_cases e : k' = k
    · subst e; simp [upd]
    · simp [upd, e, this]
  all_goals grind

theorem Inv.cancel {s s' : St} (I : Inv s) {k : Nat} (e : step s (.cancel k) = .ok s') : Inv s' := by
  simp only [step] at e
  repeat' split at e
  all_goals cases e
  all_goals exact I.cancelCore (by simp_all) (by simp_all)

/-- A ready state whose value nobody has moved out shows the outcome it was resolved with. -/
theorem Inv.look {s : St} (I : Inv s) (hr : s.ready = true) (hm : s.moved = false) :
    ∃ o, .resolved o ∈ s.trace ∧ look s = some (.out o) := by
  obtain ⟨o, ho⟩ := I.out hr
  refine ⟨o, ho, ?_⟩
  have := (I.out2 o ho).2
  cases o with
  | val v => simp only [Stored] at this; simp [Shared.look, hr, hm, this]
  | exc x => simp only [Stored] at this; simp [Shared.look, hr, this]

theorem Inv.notMovedCont {s : St} (I : Inv s) {k : Nat} (h : .cont k ∈ s.hold) : s.moved = false := by
  have := I.mv
  grind

theorem Inv.notMovedFut {s : St} (I : Inv s) {f : Nat} (h : s.fut f ≠ .none) (hu : s.fut f ≠ .used) :
    s.moved = false := by
  have := I.mv
  have := (I.hfut f).2 h
  grind

theorem Inv.cRead {s s' : St} (I : Inv s) {k : Nat} (e : step s (.cRead k) = .ok s') : Inv s' := by
  have me := mem_erase' I
  have nd := fun x => I.nodup.erase x
  simp only [step] at e
  split at e
  · rename_i u hk
    have hr : s.ready = true := I.rdyc k (by simp [hk, past])
    have hdt : s.isDet k = false := by have := I.detpc k; grind
    have hcc : s.canceled k = false := by have := I.canc k; grind
    have hc : .cont k ∈ s.hold := (I.hcont k).2 (by simp [hk, live, hdt, hcc])
    have hm := I.notMovedCont hc
    obtain ⟨o, ho, hl⟩ := I.look hr hm
    rw [hl] at e
    cases e
    have l : Legal (s.trace ++ [.ran k (.out o)]) :=
      I.legal.snoc ⟨(I.sch k).2 (by simp [hk, past, hdt]), by have := I.ran k; grind, by have := I.gave k; grind,
        o, ho, rfl⟩
    constructor <;> grind
  · cases e

theorem Inv.cGive {s s' : St} (I : Inv s) {k f : Nat} (e : step s (.cGive k f) = .ok s') : Inv s' := by
  have me := mem_erase' I
  have nd := fun x => I.nodup.erase x
  simp only [step] at e
  repeat' split at e
  all_goals cases e
  all_goals first | exact I | (constructor <;> grind)

theorem Inv.gRead {s s' : St} (I : Inv s) {f : Nat} (e : step s (.gRead f) = .ok s') : Inv s' := by
  simp only [step] at e
  split at e
  · rename_i u hf
    have hr : s.ready = true := I.rdy2 f u hf
    have hm := I.notMovedFut (f := f) (by simp [hf]) (by simp [hf])
    obtain ⟨o, ho, hl⟩ := I.look hr hm
    rw [hl] at e
    cases e
    have l : Legal (s.trace ++ [.got f (.out o)]) := I.legal.snoc ⟨o, ho, rfl⟩
    constructor <;> grind
  · cases e

theorem Inv.step {s s' : St} (I : Inv s) {a : Act} (e : step s a = .ok s') : Inv s' := by
  cases a with
  | invoke => exact I.invoke e
  | invEnd => exact I.invEnd e
  | setVal => exact I.setVal e
  | setExc => exact I.setExc e
  | destroy => exact I.destroy e
  | moveCtor => exact I.moveCtor e
  | moveAssign => exact I.moveAssign e
  | rWrite => exact I.rWrite e
  | rLock => exact I.rLock e
  | rSched => exact I.rSched e
  | rEnd => exact I.rEnd e
  | copy => exact I.copy e
  | drop => exact I.drop e
  | attach => exact I.attach e
  | cLock => exact I.cLock e
  | cDirect => exact I.cDirect e
  | detach => exact I.detach e
  | cancel => exact I.cancel e
  | run => exact I.run e
  | cCheck => exact I.cCheck e
  | cRead => exact I.cRead e
  | cGive => exact I.cGive e
  | getTry => exact I.getTry e
  | gLock => exact I.gLock e
  | gRead => exact I.gRead e

theorem Inv.exec {s s' : St} {as : List Act} (I : Inv s) (e : exec s as = some s') : Inv s' := by
  induction as generalizing s with
  | nil => cases e; exact I
  | cons a as ih =>
    simp only [Shared.exec] at e
    split at e
    · rename_i s1 h1; exact ih (I.step h1) e
    · cases e

theorem Reachable.inv {s : St} (h : Reachable s) : Inv s := by
  obtain ⟨as, e⟩ := h
  exact Inv.init.exec e

end Verif.Shared
