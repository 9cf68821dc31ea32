import Verif.Future.JoinGraphInv

/-!
# C98: the outcomes of a graph with `when_all` and `when_any` are those of sequential evaluation

All outcomes of a run are explained by one choice of the argument that decides each `when_all` and `when_any`
(`c98_sequential`). Where there is nothing to choose, the outcomes do not depend on the run (`c98_deterministic`). When nothing is left to
do, everything is resolved (`c98_complete`).
-/

namespace Verif.JoinGraph

open Verif.Shared (Err Outcome upd)
open Verif.When (Mode)

variable {P : Prog}

/-- The event that settles whether the function of `n` is called. -/
def settles (n : Nat) : Event → Prop
  | .called k _ => k = n
  | .resolved k _ => k = n
  | .abandoned _ => False

theorem first_unique {α : Type} {Q : α → Prop} {t a a' b b' : List α} {e e' : α} (h : t = a ++ e :: b) (h' : t = a' ++ e' :: b')
    (q : Q e) (q' : Q e') (n : ∀ x ∈ a, ¬ Q x) (n' : ∀ x ∈ a', ¬ Q x) : a = a' ∧ e = e' := by
  induction a generalizing t a' with
  | nil =>
    cases a' with
    | nil => subst h; cases h'; exact ⟨rfl, rfl⟩
    | cons y a' => subst h; cases h'; exact absurd q (n' e (by simp))
  | cons x a ih =>
    cases a' with
    | nil => subst h; cases h'; exact absurd q' (n _ (by simp))
    | cons y a' =>
      subst h
      simp only [List.cons_append, List.cons.injEq] at h'
      obtain ⟨rfl, h'⟩ := h'
      have := ih rfl h' (fun z hz => n z (by simp [hz])) (fun z hz => n' z (by simp [hz]))
      exact ⟨by rw [this.1], this.2⟩

/-- Argument `i` decided node `n` in history `t`. -/
def Decided (P : Prog) (t : List Event) (n i : Nat) : Prop :=
  ∃ a e b k, t = a ++ e :: b ∧ settles n e ∧ (∀ x ∈ a, ¬ settles n x) ∧ P.kind n = some k ∧
    match e with
    | .called _ x => fate k (outs a) i = some (.call x)
    | .resolved _ o => ∃ er, o = .exc er ∧ fate k (outs a) i = some (.fail er)
    | .abandoned _ => False

theorem not_settles {t : List Event} {n : Nat} (h1 : ∀ y, .called n y ∉ t) (h2 : ∀ o, .resolved n o ∉ t) :
    ∀ x ∈ t, ¬ settles n x := by
  intro x hx hs
  cases x with
  | called k y => cases hs; exact h1 y hx
  | resolved k o => cases hs; exact h2 o hx
  | abandoned k => exact hs

theorem fuel {c : Nat → Nat} {a : List Event} (h : ∀ p q, .resolved p q ∈ a → ∃ f, eval P c f p = some q) :
    ∃ f, ∀ p q, .resolved p q ∈ a → eval P c f p = some q := by
  induction a with
  | nil => exact ⟨0, by simp⟩
  | cons e a ih =>
    obtain ⟨f, hf⟩ := ih (fun p q hp => h p q (by simp [hp]))
    have : ∃ g, ∀ p q, .resolved p q = e → eval P c g p = some q := by
      cases e with
      | resolved p q =>
        obtain ⟨g, hg⟩ := h p q (by simp)
        exact ⟨g, fun p' q' h => by cases h; exact hg⟩
      | _ => exact ⟨0, by simp⟩
    obtain ⟨g, hg⟩ := this
    refine ⟨max f g, fun p q hp => ?_⟩
    rcases List.mem_cons.1 hp with hp | hp
    · exact eval_le (Nat.le_max_right _ _) (hg p q hp)
    · exact eval_le (Nat.le_max_left _ _) (hf p q hp)

/-- **C98**: there is a choice of the deciding arguments such that all futures that are resolved have the outcomes of
sequential evaluation. -/
theorem c98_sequential {s : St} (r : Reachable P s) :
    ∃ c, ∀ n o, .resolved n o ∈ s.trace → ∃ f, eval P c f n = some o := by
  classical
  have L := r.inv.1.legal
  have : ∃ c : Nat → Nat, ∀ n i, Decided P s.trace n i → Decided P s.trace n (c n) := by
    refine ⟨fun n => if h : ∃ i, Decided P s.trace n i then h.choose else 0, fun n i h => ?_⟩
    simp only
    rw [dif_pos ⟨i, h⟩]
    exact Exists.choose_spec (⟨i, h⟩ : ∃ i, Decided P s.trace n i)
  obtain ⟨c, hc⟩ := this
  refine ⟨c, ?_⟩
  have key : ∀ N (a : List Event) b n o, a.length = N → s.trace = a ++ .resolved n o :: b → ∃ f, eval P c f n = some o := by
    intro N
    induction N using Nat.strongRecOn with
    | ind N ih =>
      intro a b n o hN hab
      obtain ⟨F, hF⟩ := fuel (P := P) (c := c) (a := a) (by
        intro m q hm
        obtain ⟨a1, b1, rfl⟩ := List.append_of_mem hm
        exact ih a1.length (by rw [← hN]; simp) a1 _ m q rfl (by rw [hab, List.append_assoc, List.cons_append]))
      have ext : ∀ a1 b1, a = a1 ++ b1 → Ext (outs a1) (eval P c F) := by
        intro a1 b1 h p q hp
        exact hF p q (by rw [h]; simp [outs_mem hp])
      obtain ⟨h1, h2 | ⟨h2, k, i, er, h3, h4, rfl⟩⟩ := L a _ b hab
      · obtain ⟨x, hx, he⟩ := h2
        obtain ⟨a1, b1, ha⟩ := List.append_of_mem hx
        have hab1 : s.trace = a1 ++ .called n x :: (b1 ++ .resolved n o :: b) := by rw [hab, ha]; simp
        obtain ⟨o1, o2, k, i, o3, o4⟩ := L a1 _ _ hab1
        have ns := not_settles o1 o2
        obtain ⟨a', e', b', k', d1, d2, d3, d4, d5⟩ := hc n i ⟨a1, _, _, k, hab1, rfl, ns, o3, o4⟩
        obtain ⟨rfl, rfl⟩ := first_unique (Q := settles n) hab1 d1 rfl d2 ns d3
        rw [o3] at d4; cases d4
        simp only at d5
        refine ⟨F + 1, ?_⟩
        rw [eval]
        simp only [o3]
        rw [fate_ext (ext a1 _ ha) d5]
        simp only [final]
        have := final_ext (P := P) (n := n) (v := some (.call x)) (ext a [] (by simp)) he
        exact this
      · have ns := not_settles h2 h1
        obtain ⟨a', e', b', k', d1, d2, d3, d4, d5⟩ := hc n i ⟨a, _, b, k, hab, rfl, ns, h3, er, rfl, h4⟩
        obtain ⟨rfl, rfl⟩ := first_unique (Q := settles n) hab d1 rfl d2 ns d3
        rw [h3] at d4; cases d4
        obtain ⟨er', h, d5⟩ := d5
        cases h
        refine ⟨F + 1, ?_⟩
        rw [eval]
        simp only [h3]
        rw [fate_ext (ext a [] (by simp)) d5]
        rfl
  intro n o ho
  obtain ⟨a, b, hab⟩ := List.append_of_mem ho
  exact key _ a b n o rfl hab

/-- There is nothing to choose: no `when_any`, and at most one argument of each `when_all` can fail. -/
def Unforked (P : Prog) : Prop :=
  ∀ n m args, P.kind n = some (.join m args) → m.isAll = true ∧
    ∀ p q, p ∈ args → q ∈ args → ∀ c f e, eval P c f p = some (.exc e) → ∀ c' f' e', eval P c' f' q = some (.exc e') → p = q

theorem allVals_spec {l : List (Option Outcome)} {xs : List Nat} (h : allVals l = some xs) :
    l = xs.map fun v => some (.val v) := by
  induction l generalizing xs with
  | nil => cases h; rfl
  | cons a l ih =>
    match a, h with
    | some (.val v), h =>
      simp only [allVals, Option.map_eq_some_iff] at h
      obtain ⟨ys, h1, rfl⟩ := h
      rw [ih h1]; rfl

theorem eval_unforked (u : Unforked P) {c c' : Nat → Nat} : ∀ {f f' n : Nat} {o o' : Outcome},
    eval P c f n = some o → eval P c' f' n = some o' → o = o' := by
  intro f
  induction f with
  | zero => intro f' n o o' h; simp [eval] at h
  | succ f ih =>
    intro f' n o o' h h'
    cases f' with
    | zero => simp [eval] at h'
    | succ f' =>
      rw [eval] at h h'
      cases hK : P.kind n with
      | none => simp [hK] at h
      | some k =>
        rw [hK] at h h'
        simp only at h h'
        -- the same happens in both
        have same : ∀ v v', fate k (eval P c f) (c n) = some v → fate k (eval P c' f') (c' n) = some v' → v = v' := by
          intro v v' hv hv'
          cases k with
          | async => cases hv; cases hv'; rfl
          | thn p =>
            simp only [fate] at hv hv'
            cases hp : eval P c f p with
            | none => rw [hp] at hv; cases hv
            | some q =>
              cases hp' : eval P c' f' p with
              | none => rw [hp'] at hv'; cases hv'
              | some q' =>
                rw [hp] at hv; rw [hp', ← ih hp hp', hv] at hv'
                exact Option.some.inj hv'
          | rcv p =>
            simp only [fate] at hv hv'
            cases hp : eval P c f p with
            | none => rw [hp] at hv; cases hv
            | some q =>
              cases hp' : eval P c' f' p with
              | none => rw [hp'] at hv'; cases hv'
              | some q' =>
                rw [hp] at hv; rw [hp', ← ih hp hp', hv] at hv'
                exact Option.some.inj hv'
          | join m args =>
            obtain ⟨hall, hone⟩ := u n m args hK
            simp only [fate, hall, verdict, if_true] at hv hv'
            -- values and an error exclude each other
            have clash : ∀ (g g' : Nat → Option Outcome) (xs : List Nat) (i : Nat) (e : Err), (∀ p q q', g p = some q → g' p = some q' → q = q') →
                allVals (args.map g) = some xs → (args.map g')[i]? = some (some (.exc e)) → False := by
              intro g g' xs i e hg hx hi
              have hs := allVals_spec hx
              simp only [List.getElem?_map, Option.map_eq_some_iff] at hi
              obtain ⟨p, h1, h2⟩ := hi
              have : (args.map g)[i]? = some (g p) := by simp [h1]
              rw [hs] at this
              simp only [List.getElem?_map, Option.map_eq_some_iff] at this
              obtain ⟨v, -, h4⟩ := this
              have := hg p _ _ h4.symm h2
              cases this
            cases hx : allVals (args.map (eval P c f)) with
            | some xs =>
              rw [hx] at hv
              cases hx' : allVals (args.map (eval P c' f')) with
              | some ys =>
                rw [hx'] at hv'
                have e1 := allVals_spec hx
                have e2 := allVals_spec hx'
                have : xs = ys := by
                  apply List.ext_getElem?
                  intro i
                  have l1 : (args[i]?).map (eval P c f) = (xs[i]?).map fun v => some (.val v) := by
                    rw [← List.getElem?_map, e1, List.getElem?_map]
                  have l2 : (args[i]?).map (eval P c' f') = (ys[i]?).map fun v => some (.val v) := by
                    rw [← List.getElem?_map, e2, List.getElem?_map]
                  cases ha : args[i]? with
                  | none =>
                    rw [ha] at l1 l2
                    simp only [Option.map_none] at l1 l2
                    rw [Option.map_eq_none_iff.1 l1.symm, Option.map_eq_none_iff.1 l2.symm]
                  | some p =>
                    rw [ha] at l1 l2
                    simp only [Option.map_some] at l1 l2
                    obtain ⟨x, x1, x2⟩ := Option.map_eq_some_iff.1 l1.symm
                    obtain ⟨y, y1, y2⟩ := Option.map_eq_some_iff.1 l2.symm
                    have := ih x2.symm y2.symm
                    cases this
                    rw [x1, y1]
                subst this
                rw [hv] at hv'
                exact Option.some.inj hv'
              | none =>
                rw [hx'] at hv'
                simp only at hv'
                split at hv'
                · rename_i e he
                  exact (clash _ _ xs _ e (fun p q q' a b => ih a b) hx he).elim
                · cases hv'
            | none =>
              rw [hx] at hv
              simp only at hv
              split at hv
              · rename_i e he
                cases hx' : allVals (args.map (eval P c' f')) with
                | some ys => exact (clash _ _ ys _ e (fun p q q' a b => (ih b a).symm) hx' he).elim
                | none =>
                  rw [hx'] at hv'
                  simp only at hv'
                  split at hv'
                  · rename_i e' he'
                    simp only [List.getElem?_map, Option.map_eq_some_iff] at he he'
                    obtain ⟨p, p1, p2⟩ := he
                    obtain ⟨q, q1, q2⟩ := he'
                    have := hone p q (List.mem_of_getElem? p1) (List.mem_of_getElem? q1) c f e p2 c' f' e' q2
                    subst this
                    have := ih p2 q2
                    cases this
                    rw [hv] at hv'
                    exact Option.some.inj hv'
                  · cases hv'
              · cases hv
        cases hv : fate k (eval P c f) (c n) with
        | none => rw [hv] at h; cases h
        | some v =>
          cases hv' : fate k (eval P c' f') (c' n) with
          | none => rw [hv'] at h'; cases h'
          | some v' =>
            have := same v v' hv hv'
            subst this
            rw [hv] at h
            rw [hv'] at h'
            cases v with
            | fail e => simp only [final] at h h'; rw [h] at h'; exact Option.some.inj h'
            | call x =>
              simp only [final] at h h'
              cases hr : P.fn n x with
              | val v => rw [hr] at h h'; simp only [ended] at h h'; rw [h] at h'; exact Option.some.inj h'
              | throw v => rw [hr] at h h'; simp only [ended] at h h'; rw [h] at h'; exact Option.some.inj h'
              | fut m => rw [hr] at h h'; exact ih h h'

/-- **C98**: if there is nothing to choose, any two runs have the same outcomes. -/
theorem c98_deterministic (u : Unforked P) {s s' : St} (r : Reachable P s) (r' : Reachable P s') {n : Nat} {o o' : Outcome}
    (h : .resolved n o ∈ s.trace) (h' : .resolved n o' ∈ s'.trace) : o = o' := by
  obtain ⟨c, hc⟩ := c98_sequential r
  obtain ⟨c', hc'⟩ := c98_sequential r'
  obtain ⟨f, hf⟩ := hc n o h
  obtain ⟨f', hf'⟩ := hc' n o' h'
  exact eval_unforked u hf hf'

/-! ## Functions are called once, and nothing is undefined -/

def isCall (n : Nat) : Event → Bool
  | .called k _ => k == n
  | _ => false

/-- **C98**: every function is called at most once. -/
theorem c98_once {s : St} (r : Reachable P s) (n : Nat) : s.trace.countP (isCall n) ≤ 1 := by
  have L := r.inv.1.legal
  refine Classical.byContradiction fun h => ?_
  have : ∀ t : List Event, 1 < t.countP (isCall n) → ∃ a x b, t = a ++ .called n x :: b ∧ ∃ y, .called n y ∈ a := by
    intro t
    induction t with
    | nil => simp
    | cons e t ih =>
      intro h
      rw [List.countP_cons] at h
      by_cases h2 : 1 < t.countP (isCall n)
      · obtain ⟨a, x, b, rfl, y, hy⟩ := ih h2
        exact ⟨e :: a, x, b, rfl, y, by simp [hy]⟩
      · have h3 : 0 < t.countP (isCall n) := by split at h <;> omega
        have h4 : isCall n e = true := by
          cases hc : isCall n e with
          | true => rfl
          | false => rw [hc] at h; simp at h; omega
        obtain ⟨x, hx, hx'⟩ := List.countP_pos_iff.1 h3
        obtain ⟨a, b, rfl⟩ := List.append_of_mem hx
        cases e with
        | called k z =>
          cases x with
          | called k' z' =>
            simp only [isCall, beq_iff_eq] at h4 hx'
            subst h4 hx'
            exact ⟨.called k' z :: a, z', b, rfl, z, by simp⟩
          | _ => cases hx'
        | _ => cases h4
  obtain ⟨a, x, b, hab, y, hy⟩ := this s.trace (by omega)
  exact (L a _ b hab).1 y hy

/-- A step of a join is a step of the graph. -/
theorem arg_step {s : St} {n : Nat} {m : Mode} {args : List Nat} (hk : P.kind n = some (.join m args)) (h0 : s.pc n ≠ .none)
    {a : When.Act} (ha : argOk s args a = true) (hd : a ≠ .drop) {w' : When.St}
    (e : When.step m args.length (s.w n) a = .ok w') : ∃ s', step P s (.arg n a) = .ok s' := by
  simp only [step, hk, h0, ha, e, Bool.true_eq_false, or_self, if_false]
  cases a with
  | drop => exact absurd rfl hd
  | fire i =>
    simp only [after]
    split
    · rename_i hkept
      split
      · rename_i hc
        simp only [When.step, hkept, hc, Bool.true_eq_false, if_false] at e
        (repeat' split at e) <;> cases e
      · exact ⟨_, rfl⟩
      · exact ⟨_, rfl⟩
    · exact ⟨_, rfl⟩
  | _ => exact ⟨_, rfl⟩

/-- **C98**: no step is undefined. -/
theorem c98_no_undefined {s : St} (r : Reachable P s) (a : Act) : step P s a ≠ .ub := by
  obtain ⟨I, J⟩ := r.inv
  cases a with
  | arg n a =>
    intro h
    simp only [step] at h
    split at h
    · rename_i m args hk
      split at h
      · cases h
      rename_i hc
      have h0 : s.pc n ≠ .none := fun h => hc (.inl h)
      have ha : argOk s args a = true := by
        cases h : argOk s args a with
        | true => rfl
        | false => exact absurd (.inr h) hc
      have hpos : 0 < args.length := by
        obtain ⟨k, h1, -, h3⟩ := I.par n h0
        rw [hk] at h1; cases h1
        cases args with
        | nil => cases h3
        | cons => simp
      split at h
      · cases h
      · exact When.no_undefined hpos (J n m args hk h0).reach a ‹_›
      · rename_i w' hw
        by_cases hd : a = .drop
        · subst hd
          simp only [after] at h
          split at h <;> cases h
        · obtain ⟨s', hs'⟩ := arg_step hk h0 ha hd hw
          simp only [step, hk, h0, ha, hw, Bool.true_eq_false, or_self, if_false] at hs'
          rw [hs'] at h; cases h
    · cases h
  | create n => simp only [step]; (repeat' split) <;> simp
  | start n =>
    simp only [step]
    split
    · cases P.kind n with
      | none => simp [start]
      | some k => cases k <;> simp only [start] <;> (repeat' split) <;> simp
    · simp
  | ret n =>
    simp only [step]
    split
    · rename_i x _
      cases P.fn n x <;> simp only [ret] <;> (repeat' split) <;> simp
    · simp
  | flatten n => simp only [step]; (repeat' split) <;> simp
  | abandon n => simp only [step]; (repeat' split) <;> simp

/-! ## Everything is resolved in the end -/

/-- Work that is done by executors and by threads inside the library, as opposed to what a user decides to do. -/
def isWork : Act → Bool
  | .start _ | .flatten _ => true
  | .arg _ a => a != .drop
  | _ => false

/-- Nothing is left to do: the executors have no task, nobody is inside `when_all` or `when_any`, and no function is being called. -/
structure Quiet (P : Prog) (s : St) : Prop where
  work : ∀ a, isWork a = true → ∀ s', step P s a ≠ .ok s'
  idle : ∀ n x, s.pc n ≠ .running x

/-- No future depends on itself: there is a measure that decreases from a node to what it continues or joins, and to the futures its
function returns. -/
structure Acyclic (P : Prog) (rank : Nat → Nat) : Prop where
  parent : ∀ n k p, P.kind n = some k → p ∈ k.parents → rank p < rank n
  ret : ∀ n x m, P.fn n x = .fut m → rank m < rank n

/-- At rest the system of a join is at rest, and it knows the outcomes of its arguments. -/
theorem join_quiet {s : St} (I : Inv P s) (J : Joins P s) (q : Quiet P s) {n : Nat} {m : Mode} {args : List Nat}
    (hk : P.kind n = some (.join m args)) (h0 : s.pc n ≠ .none) :
    When.Quiet args.length (s.w n) ∧
      ∀ (i p : Nat) o, args[i]? = some p → s.out p = some o → .argRes i o ∈ (s.w n).trace := by
  have Jn := J n m args hk h0
  have hpos : 0 < args.length := by
    obtain ⟨k, h1, -, h3⟩ := I.par n h0
    rw [hk] at h1; cases h1
    cases args with
    | nil => cases h3
    | cons => simp
  have W := Jn.reach.inv hpos
  have stuck : ∀ a, a ≠ .drop → argOk s args a = true → ∀ w', When.step m args.length (s.w n) a ≠ .ok w' := by
    intro a hd ha w' e
    obtain ⟨s', h⟩ := arg_step hk h0 ha hd e
    exact q.work (.arg n a) (by simp [isWork, hd]) s' h
  -- neither refused nor undefined: enabled
  have enabled : ∀ a, a ≠ .drop → argOk s args a = true → When.step m args.length (s.w n) a = .no := by
    intro a hd ha
    cases h : When.step m args.length (s.w n) a with
    | no => rfl
    | ub => exact absurd h (When.no_undefined hpos Jn.reach a)
    | ok w' => exact absurd h (stuck a hd ha w')
  refine ⟨⟨?_, fun i => ⟨fun h => ?_, fun o h => ?_, fun h => ?_⟩⟩, fun i p o hi hp => ?_⟩
  · have h1 := enabled .attach (by simp) rfl
    have h2 := enabled .store (by simp) rfl
    have := W.attn
    refine Classical.byContradiction fun hn => ?_
    have hlt : (s.w n).att < args.length := by omega
    simp only [When.step] at h1 h2
    split at h1
    · cases h1
    · rename_i hc
      apply hc
      refine ⟨hlt, fun i hi hl => ?_⟩
      have := W.loc i hl
      split at h2
      · cases h2
      · rename_i hc'
        apply hc'
        exact ⟨by omega, by rw [← this]; exact hl⟩
  · have h1 := enabled (.run i) (by simp) rfl
    simp only [When.step, h] at h1
    (repeat' split at h1) <;> simp_all
  · have h1 := enabled (.crit i) (by simp) rfl
    simp [When.step, h] at h1
  · have h1 := enabled (.fire i) (by simp) rfl
    simp only [When.step, h] at h1
    (repeat' split at h1) <;> simp_all
  · cases ha : (s.w n).arg i with
    | some o' =>
      have hm := (W.argt i o').2 ha
      obtain ⟨p', h1, h2⟩ := Jn.arg i o' hm
      rw [hi] at h1; cases h1
      rw [hp] at h2; cases h2
      exact hm
    | none =>
      have h1 := enabled (.resolve i o) (by simp) (by simp [argOk, hi, hp])
      have hlt := (List.getElem?_eq_some_iff.1 hi).1
      simp [When.step, ha, hlt] at h1

/-- **C98**: when nothing is left to do and no future has been abandoned, every future that has been made is resolved, if no future
depends on itself. -/
theorem c98_complete {rank : Nat → Nat} (ac : Acyclic P rank) {s : St} (r : Reachable P s) (q : Quiet P s)
    (ha : ∀ n, .abandoned n ∉ s.trace) {n : Nat} (hn : s.pc n ≠ .none) : ∃ o, .resolved n o ∈ s.trace := by
  obtain ⟨I, J⟩ := r.inv
  have key : ∀ N n, rank n = N → s.pc n ≠ .none → ∃ o, s.out n = some o := by
    intro N
    induction N using Nat.strongRecOn with
    | ind N ih =>
      intro n hN hn
      obtain ⟨k, hk, hp, -⟩ := I.par n hn
      have par : ∀ p ∈ k.parents, ∃ o, s.out p = some o := fun p hm =>
        ih (rank p) (hN ▸ ac.parent n k p hk hm) p rfl (hp p hm)
      have stuck := fun s' => q.work (.start n) rfl s'
      cases hpc : s.pc n with
      | none => exact absurd hpc hn
      | queued =>
        simp only [step, hpc, if_true, hk] at stuck
        cases k with
        | async => exact absurd rfl (stuck _)
        | thn p =>
          obtain ⟨o, ho⟩ := par p (by simp [Kind.parents])
          simp only [start, ho] at stuck
          cases o <;> exact absurd rfl (stuck _)
        | rcv p =>
          obtain ⟨o, ho⟩ := par p (by simp [Kind.parents])
          simp only [start, ho] at stuck
          exact absurd rfl (stuck _)
        | join m args =>
          obtain ⟨jq, jarg⟩ := join_quiet I J q hk hn
          have Jn := J n m args hk hn
          have hpos : 0 < args.length := by
            obtain ⟨k, h1, -, h3⟩ := I.par n hn
            rw [hk] at h1; cases h1
            cases args with
            | nil => cases h3
            | cons => simp
          have W := Jn.reach.inv hpos
          obtain ⟨k1, k2⟩ := Jn.keep.1 hpc
          have := When.delivered hpos Jn.reach jq (fun i hi => by
            obtain ⟨o, ho⟩ := par args[i] (by simp [Kind.parents])
            exact ⟨o, jarg i _ o (List.getElem?_eq_getElem hi) ho⟩) (fun h => by rw [W.drp.1 h] at k1; cases k1) Jn.disc
          rw [W.evc, k2] at this
          cases this
      | running x => exact absurd hpc (q.idle n x)
      | waiting m =>
        obtain ⟨⟨x, -, hx⟩, hm⟩ := I.wait n m hpc
        obtain ⟨o, ho⟩ := ih (rank m) (hN ▸ ac.ret n x m hx) m rfl hm
        have stuck := fun s' => q.work (.flatten n) rfl s'
        simp only [step, hpc, ho] at stuck
        exact absurd rfl (stuck _)
      | ready =>
        exact Option.ne_none_iff_exists'.1 ((I.rdy n).1 hpc)
      | dead => exact absurd (I.dead n hpc) (ha n)
  obtain ⟨o, ho⟩ := key _ n rfl hn
  rw [I.out] at ho
  exact ⟨o, outs_mem ho⟩

/-! ## Example

0 gives 3, 1 fails with 7, 2 is the `when_any` of 1 and 0, 3 recovers 1 with the future of 0, 4 is the `when_all` of 0, 2 and 3, 5 is the
`when_any` of 0 and 2. -/

def exP : Prog where
  kind
    | 0 => some .async
    | 1 => some .async
    | 2 => some (.join .anyPack [1, 0])
    | 3 => some (.rcv 1)
    | 4 => some (.join .allRange [0, 2, 3])
    | 5 => some (.join .anyRange [0, 2])
    | _ => none
  fn
    | 0, _ => .val 3
    | 1, _ => .throw 7
    | 2, .many [v] (some i) => .val (10 * v + i)
    | 3, .one (.exc (.user 7)) => .fut 0
    | 4, .many [a, b, c] none => .val (10000 * a + 100 * b + c)
    | 5, .many [v] _ => .val v
    | _, _ => .val 0

/-- All of `when_all` or `when_any` of `k` futures except for the resolution of arguments. -/
def joinAll (n k : Nat) : List Act := ((List.range k).map fun _ => [Act.arg n .attach, .arg n .store]).flatten

def argDone (n i : Nat) (o : Outcome) : List Act := [.arg n (.resolve i o), .arg n (.run i), .arg n (.crit i)]

def exActs : List Act :=
  [.create 0, .create 1, .create 2, .create 3] ++ joinAll 2 2 ++ [.create 4, .create 5] ++ joinAll 4 3 ++ joinAll 5 2 ++
  [.start 1, .ret 1] ++ argDone 2 0 (.exc (.user 7)) ++ [.start 3, .ret 3, .start 0, .ret 0, .flatten 3] ++ argDone 4 2 (.val 3) ++
  argDone 2 1 (.val 3) ++ [.arg 2 (.fire 1)] ++ argDone 4 0 (.val 3) ++ [.ret 2] ++ argDone 4 1 (.val 31) ++ [.arg 4 (.fire 1), .ret 4]

/-- Then either argument may decide node 5. -/
def exFirst : List Act := argDone 5 0 (.val 3) ++ [.arg 5 (.fire 0), .ret 5]
def exSecond : List Act := argDone 5 1 (.val 31) ++ [.arg 5 (.fire 1), .ret 5]

def exEnd (as : List Act) : St := (exec exP {} as).getD {}

set_option maxRecDepth 20000 in
theorem exEnd_trace : (exEnd (exActs ++ exFirst)).trace = [.called 1 .unit, .resolved 1 (.exc (.user 7)),
    .called 3 (.one (.exc (.user 7))), .called 0 .unit, .resolved 0 (.val 3), .resolved 3 (.val 3), .called 2 (.many [3] (some 1)),
    .resolved 2 (.val 31), .called 4 (.many [3, 31, 3] none), .resolved 4 (.val 33103), .called 5 (.many [3] (some 0)),
    .resolved 5 (.val 3)] := by decide

theorem exEnd_reachable {as : List Act} (h : (exec exP {} as).isSome) : Reachable exP (exEnd as) :=
  ⟨as, by simp only [exEnd]; exact (Option.some_get h ▸ by simp [Option.getD])⟩

set_option maxRecDepth 20000 in
/-- The two runs agree with sequential evaluation with different choices. -/
example : Reachable exP (exEnd (exActs ++ exFirst)) ∧ Reachable exP (exEnd (exActs ++ exSecond)) ∧
    .resolved 5 (.val 3) ∈ (exEnd (exActs ++ exFirst)).trace ∧ .resolved 5 (.val 31) ∈ (exEnd (exActs ++ exSecond)).trace ∧
    eval exP (fun n => if n = 2 then 1 else 0) 5 5 = some (.val 3) ∧
    eval exP (fun _ => 1) 5 5 = some (.val 31) ∧ eval exP (fun _ => 1) 5 4 = some (.val 33103) :=
  ⟨exEnd_reachable (by decide), exEnd_reachable (by decide), by rw [exEnd_trace]; simp, by decide, by decide, by decide, by decide⟩

/-- No future depends on itself. -/
example : Acyclic exP id where
  parent := by
    intro n k p hk hp
    unfold exP at hk
    simp only at hk
    split at hk <;> cases hk <;> simp [Kind.parents] at hp <;> simp [id] <;> omega
  ret := by
    intro n x m h
    unfold exP at h
    simp only at h
    split at h <;> cases h; simp

/-- A program with nothing to choose: `when_all` of two values and a failure. -/
def unP : Prog where
  kind
    | 0 => some .async
    | 1 => some .async
    | 2 => some (.join .allPack [0, 1])
    | 3 => some (.join .allRange [0, 0])
    | _ => none
  fn
    | 0, _ => .val 3
    | 1, _ => .throw 7
    | _, _ => .val 1

example : Unforked unP := by
  have h0 : ∀ c f e, eval unP c f 0 ≠ some (.exc e) := by
    intro c f e h
    cases f with
    | zero => simp [eval] at h
    | succ f => simp [eval, unP, fate, final, ended] at h
  intro n m args hk
  unfold unP at hk
  simp only at hk
  split at hk <;> cases hk
  · refine ⟨rfl, fun p q hp hq c f e hf c' f' e' hf' => ?_⟩
    simp only [List.mem_cons, List.not_mem_nil, or_false] at hp hq
    rcases hp with rfl | rfl
    · exact absurd hf (h0 _ _ _)
    · rcases hq with rfl | rfl
      · exact absurd hf' (h0 _ _ _)
      · rfl
  · refine ⟨rfl, fun p q hp hq c f e hf => ?_⟩
    simp only [List.mem_cons, List.not_mem_nil, or_false, or_self] at hp
    subst hp
    exact absurd hf (h0 _ _ _)

/-- A run to the end: `when_all` of one future. -/
def oneP : Prog where
  kind
    | 0 => some .async
    | 1 => some (.join .allPack [0])
    | _ => none
  fn
    | 0, _ => .val 3
    | _, .many [v] none => .val (v + 1)
    | _, _ => .val 0

def oneActs : List Act := [.create 0, .create 1] ++ joinAll 1 1 ++ [.start 0, .ret 0] ++ argDone 1 0 (.val 3) ++ [.arg 1 (.fire 0), .ret 1]

def oneEnd : St := (exec oneP {} oneActs).getD {}

/-- The hypotheses of `c98_complete`. -/
example : Reachable oneP oneEnd ∧ Acyclic oneP id ∧ Quiet oneP oneEnd ∧ (∀ n, .abandoned n ∉ oneEnd.trace) ∧ oneEnd.pc 1 ≠ .none ∧
    .resolved 1 (.val 4) ∈ oneEnd.trace := by
  have hpc : ∀ n, oneEnd.pc n = if n = 0 ∨ n = 1 then .ready else .none := by
    intro n
    match n with
    | 0 => rfl
    | 1 => rfl
    | n + 2 => rw [if_neg (by omega)]; rfl
  have hw : ∀ i, (oneEnd.w 1).pc i = if i = 0 then .done else .none := by
    intro i
    match i with
    | 0 => rfl
    | i + 1 => rfl
  have ht : oneEnd.trace = [.called 0 .unit, .resolved 0 (.val 3), .called 1 (.many [3] none), .resolved 1 (.val 4)] := by decide
  have hs : (exec oneP {} oneActs).isSome := by decide
  refine ⟨⟨oneActs, by simp only [oneEnd]; exact (Option.some_get hs ▸ by simp [Option.getD])⟩, ⟨?_, ?_⟩, ⟨?_, ?_⟩, ?_, ?_, ?_⟩
  · intro n k p hk hp
    unfold oneP at hk
    simp only at hk
    split at hk <;> cases hk <;> simp [Kind.parents] at hp <;> simp [id]; omega
  · intro n x m h
    unfold oneP at h
    simp only at h
    split at h <;> cases h
  · intro a ha s' h
    cases a with
    | start n =>
      simp only [step, hpc n] at h
      by_cases hn : n = 0 ∨ n = 1 <;> simp [hn] at h
    | flatten n =>
      simp only [step, hpc n] at h
      split at h
      · rename_i h2; split at h2 <;> cases h2
      · cases h
    | arg n a =>
      match n with
      | 0 => cases h
      | n + 2 => cases h
      | 1 =>
        have hk : oneP.kind 1 = some (.join .allPack [0]) := rfl
        simp only [step, hk, hpc] at h
        cases a with
        | resolve i o =>
          simp only [When.step, List.length_singleton] at h
          have hno : ¬ ((oneEnd.w 1).arg i = none ∧ i < 1) := by
            rintro ⟨h1, h2⟩
            have : i = 0 := by omega
            subst this
            revert h1; decide
          rw [if_neg hno] at h
          simp at h
        | attach =>
          have : (oneEnd.w 1).att = 1 := by decide
          simp [When.step, this] at h
        | store =>
          have h1 : (oneEnd.w 1).att = 1 := by decide
          have h2 : (oneEnd.w 1).hold 0 = .stored := by decide
          simp [When.step, h1, h2] at h
        | run i => simp only [When.step, hw i] at h; by_cases hi : i = 0 <;> simp [hi] at h
        | crit i => simp only [When.step, hw i] at h; by_cases hi : i = 0 <;> simp [hi] at h
        | fire i => simp only [When.step, hw i] at h; by_cases hi : i = 0 <;> simp [hi] at h
        | drop => cases ha
        | discard i => simp [argOk] at h
    | _ => cases ha
  · intro n x h
    rw [hpc n] at h
    split at h <;> cases h
  · intro n h
    rw [ht] at h
    simp at h
  · decide
  · rw [ht]; simp

end Verif.JoinGraph
