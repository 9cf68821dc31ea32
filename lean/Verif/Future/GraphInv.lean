import Verif.Future.Graph

/-!
# Invariant of graphs of futures
-/

namespace Verif.Graph

open Verif.Shared (Err Outcome upd)

/-! ## Which traces are legal (stated without reference to the machine) -/

/-- What the function of a node of this kind is called with. -/
def Input (t : List Event) : Kind → Option Outcome → Prop
  | .async, x => x = none
  | .thn p, x => ∃ v, .resolved p (.val v) ∈ t ∧ x = some (.val v)
  | .rcv p, x => ∃ o, .resolved p o ∈ t ∧ x = some o

/-- Why a node gets the outcome `o`. -/
def Cause (t : List Event) (n : Nat) (o : Outcome) : Prop :=
  (∃ v, .returned n (.val v) ∈ t ∧ o = .val v) ∨
  (∃ e, .returned n (.throw e) ∈ t ∧ o = .exc (.user e)) ∨
  (∃ m, .returned n (.fut m) ∈ t ∧ .resolved m o ∈ t) ∨
  (∃ p e, .created n (.thn p) ∈ t ∧ .resolved p (.exc e) ∈ t ∧ o = .exc e ∧ ∀ x, .called n x ∉ t) ∨
  (.discarded n ∈ t ∧ o = .exc .broken)

/-- May event `e` follow history `t`? -/
def Ok (t : List Event) : Event → Prop
  | .created n k => (∀ k', .created n k' ∉ t) ∧ ∀ p, k.parent = some p → ∃ k', .created p k' ∈ t
  | .called n x => (∀ y, .called n y ∉ t) ∧ (∀ o, .resolved n o ∉ t) ∧ .discarded n ∉ t ∧
      ∃ k, .created n k ∈ t ∧ Input t k x
  | .returned n _ => (∃ x, .called n x ∈ t) ∧ ∀ r, .returned n r ∉ t
  | .resolved n o => (∀ o', .resolved n o' ∉ t) ∧ Cause t n o
  | .discarded n => (∀ x, .called n x ∉ t) ∧ (∃ k, .created n k ∈ t) ∧ .discarded n ∉ t ∧ ∀ o, .resolved n o ∉ t

/-- Every event is legal after the ones before it. -/
inductive Legal : List Event → Prop
  | nil : Legal []
  | snoc {t e} : Legal t → Ok t e → Legal (t ++ [e])

/-! ## Invariant -/

/-- Its function has not returned yet. -/
def before : Pc → Prop
  | .queued | .sched | .running => True
  | _ => False

/-- Its function has not been called yet. -/
def fresh : Pc → Prop
  | .none | .queued | .sched => True
  | _ => False

/-- Parent of a node. -/
def par (k : Option Kind) (p : Nat) : Prop := k = some (.thn p) ∨ k = some (.rcv p)

def Nd (h : Nat → List Owner) : Prop := ∀ n, (h n).Nodup

structure Inv (s : St) : Prop where
  nodup : Nd s.hold
  hu : ∀ n f, .user f ∈ s.hold n ↔ s.fut f = some n
  hf : ∀ n k, .fn k ∈ s.hold n ↔ s.own k = some n
  hc : ∀ n, .call ∈ s.hold n ↔ s.pc n = .running
  hd : ∀ n, .det ∈ s.hold n → s.pc n ≠ .none ∧ s.pc n ≠ .ready
  kd : ∀ n, s.kind n = none ↔ s.pc n = .none
  cr : ∀ n k, .created n k ∈ s.trace ↔ s.kind n = some k
  fr : ∀ n, s.pc n = .none → s.own n = none ∧ s.out n = none
  exu : ∀ f n, s.fut f = some n → s.pc n ≠ .none
  exp : ∀ k p, par (s.kind k) p → s.pc p ≠ .none
  exw : ∀ k m, s.pc k = .waiting m ∨ s.pc k = .flat m → s.pc m ≠ .none
  ow : ∀ k n, s.own k = some n → s.pc n ≠ .none ∧
    ((before (s.pc k) ∧ par (s.kind k) n) ∨ s.pc k = .waiting n ∨ s.pc k = .flat n ∨ (s.pc k = .dead ∧ s.hold k = []))
  ob : ∀ k p, before (s.pc k) → par (s.kind k) p → s.own k = some p ∨ s.hold k = []
  om : ∀ k m, s.pc k = .waiting m ∨ s.pc k = .flat m → s.own k = some m ∨ s.hold k = []
  qk : ∀ k, s.pc k = .queued → s.kind k ≠ some .async
  qu : ∀ k p, s.pc k = .queued → par (s.kind k) p → s.pc p ≠ .ready
  sc : ∀ k p, s.pc k = .sched ∨ s.pc k = .running → par (s.kind k) p → s.pc p = .ready
  wt : ∀ k m, s.pc k = .waiting m → s.pc m ≠ .ready ∧ .returned k (.fut m) ∈ s.trace
  fl : ∀ k m, s.pc k = .flat m → s.pc m = .ready ∧ .returned k (.fut m) ∈ s.trace
  rd : ∀ n, s.pc n = .ready ↔ s.out n ≠ none
  rs : ∀ n o, .resolved n o ∈ s.trace ↔ s.out n = some o
  ca : ∀ n x, .called n x ∈ s.trace → ¬ fresh (s.pc n)
  rn : ∀ n, s.pc n = .running → ∃ x, .called n x ∈ s.trace
  re : ∀ n r, .returned n r ∈ s.trace → ¬ fresh (s.pc n) ∧ s.pc n ≠ .running
  dd : ∀ n, s.pc n = .dead → s.hold n = []
  di : ∀ n, .discarded n ∈ s.trace → s.pc n = .ready
  legal : Legal s.trace

theorem Inv.init : Inv {} := by
  constructor <;> simp [Nd, before, par] <;> grind [Legal.nil, fresh]

attribute [local grind =] upd before fresh par Ok Input Kind.parent
attribute [local grind] Inv
attribute [local grind .] Legal.snoc

@[local grind =] theorem mem_add {h : Nat → List Owner} {n i : Nat} {x y : Owner} :
    y ∈ add h n x i ↔ (i = n ∧ y = x) ∨ y ∈ h i := by
  simp only [add, upd]; split <;> grind

theorem mem_del {h : Nat → List Owner} (nd : Nd h) {n i : Nat} {x y : Owner} :
    y ∈ del h n x i ↔ ¬(i = n ∧ y = x) ∧ y ∈ h i := by
  simp only [del, upd]; split
  · subst i; rw [(nd n).mem_erase_iff]; simp
  · simp [*]

theorem nd_add {h : Nat → List Owner} (nd : Nd h) {n : Nat} {x : Owner} (hx : x ∉ h n) : Nd (add h n x) := by
  intro i; simp only [add, upd]; split
  · subst i; exact List.nodup_cons.2 ⟨hx, nd n⟩
  · exact nd i

theorem nd_del {h : Nat → List Owner} (nd : Nd h) {n : Nat} {x : Owner} : Nd (del h n x) := by
  intro i; simp only [del, upd]; split
  · exact (nd n).erase _
  · exact nd i

/-- Emptiness in terms of membership. -/
theorem nil_iff {l : List Owner} : l = [] ↔ ∀ x, x ∉ l := by
  constructor
  · rintro rfl; simp
  · intro h; match l with
    | [] => rfl
    | a :: _ => exact absurd (by simp) (h a)

theorem Inv.ne_user {s : St} (I : Inv s) {f p : Nat} (h : s.fut f = some p) : s.hold p ≠ [] := by
  have := (I.hu p f).2 h
  intro h; simp [h] at this

theorem Inv.ne_fn {s : St} (I : Inv s) {k p : Nat} (h : s.own k = some p) : s.hold p ≠ [] := by
  have := (I.hf p k).2 h
  intro h; simp [h] at this

theorem Inv.ne_call {s : St} (I : Inv s) {n : Nat} (h : s.pc n = .running) : s.hold n ≠ [] := by
  have := (I.hc n).2 h
  intro h; simp [h] at this

theorem Inv.created {s : St} (I : Inv s) {n : Nat} (h : s.pc n ≠ .none) : ∃ k, .created n k ∈ s.trace := by
  have : s.kind n ≠ none := by grind
  obtain ⟨k', hk'⟩ := Option.ne_none_iff_exists'.1 this
  exact ⟨k', (I.cr n k').2 hk'⟩

/-! ## Resolving a node -/

/-- What `finish` leaves behind: node `n`, whose function object is gone, is resolved with `o`. -/
structure Fin (s s' : St) (n : Nat) (o : Outcome) (t : List Event) : Prop where
  pc : s'.pc = fun k =>
      if k = n then .ready
      else if s.pc k = .queued ∧ (s.kind k).bind Kind.parent = some n then .sched
      else if s.pc k = .waiting n then .flat n
      else s.pc k
  kind : s'.kind = s.kind
  out : s'.out = upd s.out n (some o)
  nd : Nd s'.hold
  hold : ∀ i y, y ∈ s'.hold i ↔ y ∈ s.hold i ∧ y ≠ .fn n ∧ ¬(i = n ∧ (y = .det ∨ y = .call))
  own : s'.own = upd s.own n none
  fut : s'.fut = s.fut
  trace : s'.trace = t ++ [.resolved n o]

theorem fin_of {s s' : St} (I : Inv s) {n : Nat} {o : Outcome} {t : List Event} (hr : s.pc n ≠ .running)
    (e : s' = resolve (dropOwn { s with trace := t } n) n o) : Fin s s' n o t := by
  subst e
  simp only [dropOwn]
  split
  · constructor <;> simp only [resolve]
    · exact nd_del I.nodup
    · intro i y; rw [mem_del I.nodup]; grind
    · grind
  · constructor <;> simp only [resolve]
    · exact nd_del (nd_del I.nodup)
    · intro i y; rw [mem_del (nd_del I.nodup), mem_del I.nodup]; grind

theorem fin_of_running {s s' : St} (I : Inv s) {n : Nat} {o : Outcome} {t : List Event}
    (e : s' = (let s := resolve (dropOwn { s with trace := t } n) n o; { s with hold := del s.hold n .call })) :
    Fin s s' n o t := by
  subst e
  simp only [dropOwn]
  split
  · constructor <;> simp only [resolve]
    · exact nd_del (nd_del I.nodup)
    · intro i y; rw [mem_del (nd_del I.nodup), mem_del I.nodup]; grind
    · grind
  · constructor <;> simp only [resolve]
    · exact nd_del (nd_del (nd_del I.nodup))
    · intro i y; rw [mem_del (nd_del (nd_del I.nodup)), mem_del (nd_del I.nodup), mem_del I.nodup]; grind

/-- History `t` extends `t0` by what may precede the resolution of `n`. -/
structure Ext (t0 t : List Event) (n : Nat) : Prop where
  created : ∀ k x, .created k x ∈ t ↔ .created k x ∈ t0
  resolved : ∀ k x, .resolved k x ∈ t ↔ .resolved k x ∈ t0
  called : ∀ k x, .called k x ∈ t ↔ .called k x ∈ t0
  returned : ∀ k x, .returned k x ∈ t → .returned k x ∈ t0 ∨ k = n
  returned' : ∀ k x, .returned k x ∈ t0 → .returned k x ∈ t
  discarded : ∀ k, .discarded k ∈ t → .discarded k ∈ t0 ∨ k = n

theorem bind_par {k : Option Kind} {n : Nat} : k.bind Kind.parent = some n ↔ par k n := by
  cases k with
  | none => simp [par]
  | some k => cases k <;> simp [Kind.parent, par]

theorem Inv.finish {s s' : St} (I : Inv s) {n : Nat} {o : Outcome} {t : List Event} (F : Fin s s' n o t)
    (X : Ext s.trace t n) (h1 : s.pc n = .sched ∨ s.pc n = .running ∨ ∃ m, s.pc n = .flat m) (h2 : s.hold n ≠ [])
    (L : Legal (t ++ [.resolved n o])) : Inv s' := by
  obtain ⟨pc, kind, out, hold, own, fut, trace⟩ := s'
  obtain ⟨Fpc, Fkind, Fout, Fnd, Fhold, Fown, Ffut, Ftrace⟩ := F
  obtain ⟨X1, X2, X3, X4, X5, X6⟩ := X
  simp only at *
  subst Fpc Fkind Fout Fown Ffut Ftrace
  have hn : s.pc n ≠ .none ∧ s.pc n ≠ .ready ∧ s.pc n ≠ .queued ∧ (∀ m, s.pc n ≠ .waiting m) ∧ s.pc n ≠ .dead := by
    grind
  have hz : ∀ k, s.hold k = [] → hold k = [] := by
    intro k hk; rw [nil_iff] at *; grind
  have bp := @bind_par
  constructor <;> simp only [bind_par] <;> grind (splits := 12)

/-! ## Preservation -/

theorem Inv.async {s s' : St} (I : Inv s) {n f : Nat} (e : step s (.async n f) = .ok s') : Inv s' := by
  simp only [step] at e
  split at e
  · cases e
    have h0 : s.hold n = [] := by rw [nil_iff]; intro x; cases x <;> grind
    have nd := nd_add (n := n) (x := .user f) I.nodup (by grind)
    have hz : ∀ k, k ≠ n → add s.hold n (.user f) k = s.hold k := by simp only [add, upd]; grind
    constructor <;> grind
  · cases e

set_option maxHeartbeats 1000000 in
theorem Inv.attach {s s' : St} (I : Inv s) {f n g : Nat} {b mv : Bool} (e : step s (.attach f n g b mv) = .ok s') :
    Inv s' := by
  simp only [step] at e
  split at e
  · cases e
  split at e
  · rename_i p hp hn
    cases e
    have h0 : s.hold n = [] := by rw [nil_iff]; intro x; cases x <;> grind
    have hpn : p ≠ n := by grind
    have nd := nd_add (n := n) (x := .user g) (nd_add (n := p) (x := .fn n) I.nodup (by grind)) (by grind)
    have md := fun {i y} => mem_del nd (n := p) (i := i) (x := .user f) (y := y)
    have nd' := nd_del nd (n := p) (x := .user f)
    have hz : ∀ k, k ≠ n → k ≠ p → add (add s.hold p (.fn n)) n (.user g) k = s.hold k := by
      simp only [add, upd]; grind
    have hz' : ∀ k, k ≠ n → k ≠ p → del (add (add s.hold p (.fn n)) n (.user g)) p (.user f) k = s.hold k := by
      simp only [add, del, upd]; grind
    have hp0 : s.hold p ≠ [] := I.ne_user hp
    have hp1 : s.pc p ≠ .dead := by grind
    have L : ∀ k : Kind, k.parent = some p → Legal (s.trace ++ [.created n k]) := by
      intro k hk
      have : s.kind p ≠ none := by grind
      obtain ⟨k', hk'⟩ := Option.ne_none_iff_exists'.1 this
      have := (I.cr p k').2 hk'
      refine .snoc I.legal ⟨by grind, fun q hq => ⟨k', ?_⟩⟩
      grind
    have L1 := L (.thn p) rfl
    have L2 := L (.rcv p) rfl
    cases b <;> cases mv <;> simp only [if_true, if_false, Bool.false_eq_true] <;> constructor <;> grind
  · cases e

theorem Inv.copy {s s' : St} (I : Inv s) {f g : Nat} (e : step s (.copy f g) = .ok s') : Inv s' := by
  simp only [step] at e
  split at e
  · rename_i p hp hg
    cases e
    have nd := nd_add (n := p) (x := .user g) I.nodup (by grind)
    have hz : ∀ k, k ≠ p → add s.hold p (.user g) k = s.hold k := by simp only [add, upd]; grind
    have hp0 : s.hold p ≠ [] := I.ne_user hp
    constructor <;> grind
  · cases e

theorem Inv.drop {s s' : St} (I : Inv s) {f : Nat} (e : step s (.drop f) = .ok s') : Inv s' := by
  simp only [step] at e
  split at e
  · rename_i p hp
    cases e
    have md := fun {i y} => mem_del I.nodup (n := p) (i := i) (x := .user f) (y := y)
    have nd' := nd_del I.nodup (n := p) (x := .user f)
    have hz : ∀ k, s.hold k = [] → del s.hold p (.user f) k = [] := by simp only [nil_iff]; grind
    constructor <;> grind
  · cases e

theorem Inv.detach {s s' : St} (I : Inv s) {f : Nat} (e : step s (.detach f) = .ok s') : Inv s' := by
  simp only [step] at e
  split at e
  · rename_i p hp
    split at e
    · cases e; exact I
    · cases e
      have nd := nd_add (n := p) (x := .det) I.nodup (by grind)
      have hz : ∀ k, k ≠ p → add s.hold p .det k = s.hold k := by simp only [add, upd]; grind
      have hp0 : s.hold p ≠ [] := I.ne_user hp
      constructor <;> grind
  · cases e

theorem Inv.die {s : St} (I : Inv s) {n : Nat} (h : s.pc n = .sched ∨ ∃ m, s.pc n = .flat m) (h0 : s.hold n = []) :
    Inv { s with pc := upd s.pc n .dead } := by
  constructor <;> grind

theorem Ext.refl {t : List Event} {n : Nat} : Ext t t n := by constructor <;> simp_all

theorem Ext.ret {t : List Event} {n : Nat} {r : Ret} : Ext t (t ++ [.returned n r]) n := by
  constructor <;> grind

theorem Ext.disc {t : List Event} {n : Nat} : Ext t (t ++ [.discarded n]) n := by
  constructor <;> grind

theorem Inv.call {s : St} (I : Inv s) {n : Nat} {x : Option Outcome} {k : Kind} (h : s.pc n = .sched)
    (h0 : s.hold n ≠ []) (hk : s.kind n = some k) (hx : Input s.trace k x) :
    Inv { s with pc := upd s.pc n .running, hold := add s.hold n .call, trace := s.trace ++ [.called n x] } := by
  have nd := nd_add (n := n) (x := .call) I.nodup (by grind)
  have hz : ∀ k, k ≠ n → add s.hold n .call k = s.hold k := by simp only [add, upd]; grind
  have L : Legal (s.trace ++ [.called n x]) := by
    refine .snoc I.legal ?_
    grind
  constructor <;> grind

theorem Inv.run {s s' : St} (I : Inv s) {n : Nat} (e : step s (.run n) = .ok s') : Inv s' := by
  simp only [step] at e
  split at e
  · cases e
  rename_i h1
  have h1 : s.pc n = .sched := by grind
  split at e
  · cases e; exact I.die (.inl h1) ‹_›
  split at e
  · cases e
  · cases e; exact I.call h1 ‹_› ‹_› (by grind)
  · split at e
    · cases e
    · cases e; exact I.call h1 ‹_› ‹_› (by grind)
  · split at e
    · cases e
    · cases e; exact I.call h1 ‹_› ‹_› (by grind)
    · rename_i er _
      injection e with e
      refine I.finish (fin_of I (t := s.trace) (by grind) e.symm) Ext.refl (.inl h1) ‹_› (.snoc I.legal ?_)
      simp only [Ok, Cause]
      grind

theorem Inv.discard {s s' : St} (I : Inv s) {n : Nat} (e : step s (.discard n) = .ok s') : Inv s' := by
  simp only [step] at e
  split at e
  · cases e
  rename_i h1
  have h1 : s.pc n = .sched := by grind
  split at e
  · cases e; exact I.die (.inl h1) ‹_›
  injection e with e
  refine I.finish (fin_of I (by grind) e.symm) Ext.disc (.inl h1) ‹_› (.snoc (.snoc I.legal ?_) ?_)
  · have := I.created (n := n) (by grind)
    grind
  · simp only [Ok, Cause]
    grind

theorem Inv.keep {s s' : St} (I : Inv s) {n g : Nat} (e : step s (.keep n g) = .ok s') : Inv s' := by
  simp only [step] at e
  split at e
  · rename_i q p hp hk ho hg
    cases e
    have nd := nd_add (n := p) (x := .user g) I.nodup (by grind)
    have hz : ∀ k, k ≠ p → add s.hold p (.user g) k = s.hold k := by simp only [add, upd]; grind
    have hp0 : s.hold p ≠ [] := I.ne_fn ho
    constructor <;> grind
  · cases e

theorem Inv.retVal {s s' : St} (I : Inv s) {n v : Nat} (e : step s (.retVal n v) = .ok s') : Inv s' := by
  simp only [step] at e
  split at e
  · cases e
  injection e with e
  refine I.finish (fin_of_running I e.symm) Ext.ret (by grind) (by grind) (.snoc (.snoc I.legal ?_) ?_)
  · grind
  · simp only [Ok, Cause]
    grind

theorem Inv.retThrow {s s' : St} (I : Inv s) {n v : Nat} (e : step s (.retThrow n v) = .ok s') : Inv s' := by
  simp only [step] at e
  split at e
  · cases e
  injection e with e
  refine I.finish (fin_of_running I e.symm) Ext.ret (by grind) (by grind) (.snoc (.snoc I.legal ?_) ?_)
  · grind
  · simp only [Ok, Cause]
    grind

theorem Inv.retFut {s s' : St} (I : Inv s) {n f : Nat} (e : step s (.retFut n f) = .ok s') : Inv s' := by
  simp only [step] at e
  split at e
  · cases e
  rename_i m hm
  split at e
  · cases e
  have hm0 := I.ne_user hm
  have hr : s.pc n = .running := by grind
  obtain ⟨x, hx⟩ := I.rn n hr
  have L : Legal (s.trace ++ [.returned n (.fut m)]) := .snoc I.legal (by grind)
  cases e
  suffices h : ∀ hold' : Nat → List Owner, Nd hold' →
      (∀ i y, y ∈ hold' i ↔ (y ∈ s.hold i ∧ y ≠ .fn n ∧ ¬(i = n ∧ y = .call) ∧ y ≠ .user f) ∨ (i = m ∧ y = .fn n)) →
      Inv { s with pc := upd s.pc n (if s.pc m = .ready then .flat m else .waiting m),
                   fut := upd s.fut f none, own := upd s.own n (some m),
                   hold := hold',
                   trace := s.trace ++ [.returned n (.fut m)] } by
    unfold dropOwn
    split
    · refine h _ ?_ ?_
      · exact nd_del (nd_add (nd_del I.nodup) (by rw [mem_del I.nodup]; grind))
      · intro i y
        rw [mem_del (nd_add (nd_del I.nodup) (by rw [mem_del I.nodup]; grind)), mem_add, mem_del I.nodup]
        grind
    · rename_i p hp
      have u : upd (upd s.own n none) n (some m) = upd s.own n (some m) := by
        funext i; simp only [upd]; split <;> rfl
      simp only [u]
      have nd1 : Nd (del s.hold p (.fn n)) := nd_del I.nodup
      have nd2 : Nd (del (del s.hold p (.fn n)) m (.user f)) := nd_del nd1
      have nd3 := nd_add (n := m) (x := .fn n) nd2 (by rw [mem_del nd1, mem_del I.nodup]; grind)
      refine h _ (nd_del nd3) ?_
      intro i y
      rw [mem_del nd3, mem_add, mem_del nd1, mem_del I.nodup]
      grind
  intro hold' nd hh
  have hz : ∀ k, k ≠ m → s.hold k = [] → hold' k = [] := by
    simp only [nil_iff]; grind
  constructor <;> grind (splits := 12)

theorem Inv.flatten {s s' : St} (I : Inv s) {n : Nat} (e : step s (.flatten n) = .ok s') : Inv s' := by
  simp only [step] at e
  split at e
  · rename_i m hm
    split at e
    · cases e; exact I.die (by grind) ‹_›
    split at e
    · cases e
    · injection e with e
      refine I.finish (fin_of I (t := s.trace) (by grind) e.symm) Ext.refl (by grind) ‹_› (.snoc I.legal ?_)
      simp only [Ok, Cause]
      grind
  · cases e

theorem Inv.reap {s s' : St} (I : Inv s) {n : Nat} (e : step s (.reap n) = .ok s') : Inv s' := by
  simp only [step] at e
  split at e
  · rename_i h
    cases e
    unfold dropOwn
    split
    · exact I
    · rename_i p hp
      have md := fun {i y} => mem_del I.nodup (n := p) (i := i) (x := .fn n) (y := y)
      have nd' := nd_del I.nodup (n := p) (x := .fn n)
      have hz : ∀ k, s.hold k = [] → del s.hold p (.fn n) k = [] := by simp only [nil_iff]; grind
      constructor <;> grind
  · cases e

theorem Inv.step {s s' : St} (I : Inv s) {a : Act} (e : step s a = .ok s') : Inv s' := by
  cases a with
  | async => exact I.async e
  | attach => exact I.attach e
  | copy => exact I.copy e
  | drop => exact I.drop e
  | detach => exact I.detach e
  | run => exact I.run e
  | discard => exact I.discard e
  | keep => exact I.keep e
  | retVal => exact I.retVal e
  | retThrow => exact I.retThrow e
  | retFut => exact I.retFut e
  | flatten => exact I.flatten e
  | reap => exact I.reap e

theorem Inv.exec {s s' : St} (I : Inv s) {as : List Act} (e : exec s as = some s') : Inv s' := by
  induction as generalizing s with
  | nil => simp only [Graph.exec, Option.some.injEq] at e; exact e ▸ I
  | cons a as ih =>
    simp only [Graph.exec] at e
    split at e
    · exact ih (I.step ‹_›) e
    · cases e

theorem Reachable.inv {s : St} : Reachable s → Inv s := fun ⟨_, e⟩ => Inv.init.exec e

end Verif.Graph
