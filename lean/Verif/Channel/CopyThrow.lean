import Mathlib.Data.List.Forall2
import Verif.Channel.Props
import Verif.Channel.Refuse

/-!
# C99: copying a result throws while it is sent to the receivers (include/stlab/concurrency/channel.hpp, lines 1091-1163)

`downstream::send` (lines 670-673) copies the result of a process for each of its receivers. When a copy throws, the exception leaves the first
`broadcast` (line 1160, before `clear_to_send` at line 1162), is caught in `step` (line 1115), and `broadcast` is called again, with the exception
(line 1116), and for all receivers. What the first `broadcast` has done stays done: the receivers that were sent the result have it, and
`_process_suspend_count` was set, and is set again.
-/

namespace Verif.Channel.CopyThrow

inductive XAct where
  | base (a : Act)
  /-- the copy of the result that thread `j` makes for the next receiver throws -/
  | copyThrows (j : Nat)
  deriving DecidableEq, Repr

/-- `outs` remains the list of the results of the function. Copying an exception (`std::exception_ptr`) does not throw. -/
def xstep (G : Net) (s : St) : XAct → Option St
  | .base a => step G s a
  | .copyThrows j => match s.pc j with
    | .send i (.val _) (_ :: _) => some (goto j (.bcast i .err) s)
    | _ => none

def xexec (G : Net) (s : St) : List XAct → Option St
  | [] => some s
  | a :: as => (xstep G s a).bind fun s' => xexec G s' as

def XReachable (G : Net) (s : St) : Prop := ∃ as, xexec G (init G) as = some s

/-- If a copy throws it is the one for the first receiver. -/
def First (s : St) : XAct → Prop
  | .base _ => True
  | .copyThrows j => ∀ i r es, s.pc j = .send i r es → es = s.down i

/-- Reachable by such actions. -/
inductive FirstReachable (G : Net) : St → Prop where
  | init : FirstReachable G (init G)
  | step {s s' : St} {a : XAct} : FirstReachable G s → First s a → xstep G s a = some s' → FirstReachable G s'

/-- What the receivers should get for a result: the result, or if it cannot be copied an error. -/
def Got (x y : Msg) : Prop := y = x ∨ ((∃ v, x = .val v) ∧ y = .err)

variable {G : Net} {s s' t : St}

theorem xexec_snoc {as : List XAct} {a : XAct} : ∀ {s : St}, xexec G s as = some s' → xexec G s (as ++ [a]) = xstep G s' a := by
  induction as with
  | nil => intro s h; cases h; simp only [List.nil_append, xexec]; cases xstep G s' a <;> rfl
  | cons b as ih =>
    intro s h
    simp only [xexec, List.cons_append] at h ⊢
    cases e : xstep G s b with
    | none => rw [e] at h; cases h
    | some s1 => rw [e] at h; exact ih h

/-- An induction principle for executions. -/
theorem XReachable.ind {P : St → Prop} (h0 : P (Channel.init G)) (hs : ∀ s a s', P s → xstep G s a = some s' → P s') :
    XReachable G s → P s := by
  rintro ⟨as, h⟩
  have : ∀ (as : List XAct) (s1 : St), P s1 → xexec G s1 as = some s → P s := by
    intro as
    induction as with
    | nil => intro s1 p h; cases h; exact p
    | cons b as ih =>
      intro s1 p h
      simp only [xexec] at h
      cases e : xstep G s1 b with
      | none => rw [e] at h; cases h
      | some s2 => rw [e] at h; exact ih s2 (hs _ _ _ p e) h
  exact this as _ h0 h

theorem FirstReachable.reachable (h : FirstReachable G s) : XReachable G s := by
  induction h with
  | init => exact ⟨[], rfl⟩
  | step _ _ e ih => obtain ⟨as, h⟩ := ih; exact ⟨as ++ [_], by rw [xexec_snoc h, e]⟩

/-! ## What holds whenever copies throw -/

theorem copyThrows_cases {j : Nat} (e : xstep G s (.copyThrows j) = some s') :
    ∃ i v x es, s.pc j = .send i (.val v) (x :: es) ∧ s' = goto j (.bcast i .err) s := by
  simp only [xstep] at e
  split at e
  · rename_i i v x es h; cases e; exact ⟨i, v, x, es, h, rfl⟩
  · cases e

theorem XReachable.hist (W : G.Wf) : XReachable G s → Hist G s := by
  refine XReachable.ind (Hist.init G) ?_
  intro s a s' H e
  cases a with
  | base a => exact H.step W e
  | copyThrows j =>
    obtain ⟨i, v, x, es, h, rfl⟩ := copyThrows_cases e
    exact H.same rfl rfl rfl rfl

theorem XReachable.once : XReachable G s → Once s := by
  refine XReachable.ind (Once.init G) ?_
  intro s a s' O e
  cases a with
  | base a => exact O.step e
  | copyThrows j =>
    obtain ⟨i, v, x, es, h, rfl⟩ := copyThrows_cases e
    exact O.goto (Drop.rfl' rfl rfl rfl rfl) (by rw [h]; simp) (fun i m => holds_le rfl i m)

/-! ## The copy for the first receiver throws -/

/-- Other suspend counts and results. -/
def put (o : Nat → List Msg) (su : Nat → Nat) (ow : Nat → List Credit) (s : St) : St := { s with outs := o, susp := su, owed := ow }

variable {o : Nat → List Msg} {su : Nat → Nat} {ow : Nat → List Credit}

theorem goto_put {j : Nat} {p : Pc} : goto j p (put o su ow s) = put o su ow (goto j p s) := rfl

theorem enqueue_put {i k : Nat} {m : Msg} : enqueue i k m (put o su ow s) = put o su ow (enqueue i k m s) := by
  unfold enqueue put
  simp only
  split <;> rfl

theorem popCrit_put {j i : Nat} : popCrit G j i (put o su ow s) = put o su ow (popCrit G j i s) := by
  unfold popCrit
  have : isEmpty G (put o su ow s) i = isEmpty G s i := rfl
  rw [this]
  split <;> rfl

theorem taskDone_put {j i : Nat} : taskDone G j i (put o su ow s) = put o su ow (taskDone G j i s) := by
  unfold taskDone
  have : isEmpty G (put o su ow s) i = isEmpty G s i := rfl
  simp only [this]
  have h2 : (put o su ow s).closeQ = s.closeQ := rfl
  simp only [h2]
  by_cases h : isEmpty G s i = false ∨ s.closeQ i = true
  · simp only [h, if_true]
    by_cases hf : s.final i = true
    · simp only [run, put, hf, if_true]; rfl
    · simp only [run, put, hf]; rfl
  · simp only [h, if_false]
    by_cases hf : s.final i = true
    · simp only [put, hf, if_true]; rfl
    · simp only [put, hf]; rfl

theorem ctsCrit_put {i : Nat} {c : Credit} (h : su i = s.susp i) :
    ctsCrit G i c (put o su ow s) = put o (upd su i (su i - 1)) (upd ow i ((ow i).erase c)) (ctsCrit G i c s) := by
  unfold ctsCrit
  simp only [upd, if_true, isEmpty, put, run, h]
  by_cases h0 : s.susp i - 1 = 0
  · simp only [h0, if_true]
    split <;> rfl
  · simp only [h0, if_false]

/-- The state `t` is that of a network in which no copy has thrown, but functions have instead. -/
structure Sim (G : Net) (s t : St) : Prop where
  inv : Inv G t
  eq : t = put t.outs t.susp t.owed s
  outs : ∀ i, List.Forall₂ Got (s.outs i) (t.outs i)
  same : ∀ i, (s.susp i = t.susp i ∧ s.owed i = t.owed i) ∨ (pcm t.pc t.main i).fresh ≠ []

/-- The thread that takes the step. -/
def thread : Act → Option Nat
  | .job j | .ret j _ => some j
  | _ => none

theorem pc_other {a : Act} {j : Nat} (I : Inv G s) (hj : s.pc j ≠ .none) (ha : thread a ≠ some j) (h : step G s a = some s') :
    s'.pc j = s.pc j := by
  have hlt : j ≠ s.next := by rintro rfl; exact hj (I.fr _ (Nat.le_refl _))
  cases a with
  | job j' =>
    have hne : j ≠ j' := by rintro rfl; exact ha rfl
    simp only [step, stepJob] at h
    split at h
    all_goals (try split at h)
    all_goals cases h
    all_goals (try simp only [popCrit, taskDone])
    all_goals (try split)
    all_goals (try split)
    all_goals (try simp only [Refuse.goto_pc hne, Refuse.ctsCrit_pc hlt, Refuse.enqueue_pc hlt])
    all_goals (try simp [run, upd, hlt])
    · rw [Refuse.ctsCrit_pc (by exact hlt)]
  | ret j' r =>
    have hne : j ≠ j' := by rintro rfl; exact ha rfl
    simp only [step] at h
    split at h <;> cases h
    rw [Refuse.goto_pc hne]
  | send d n m =>
    simp only [step] at h
    split at h <;> cases h
    rw [Refuse.enqueue_pc hlt]
  | copySender d n n' => simp only [step] at h; split at h <;> cases h; rfl
  | dropSender d n =>
    simp only [step] at h
    (repeat' split at h) <;> cases h <;> simp [upd, hlt]
  | copyRecv d => simp only [step] at h; split at h <;> cases h; rfl
  | dropRecv d =>
    simp only [step] at h
    (repeat' split at h) <;> cases h <;> simp [upd, hlt]

/-- The step does the same with other counts and results. -/
def Follows (G : Net) (s : St) (a : Act) (s' : St) (o : Nat → List Msg) (su : Nat → Nat) (ow : Nat → List Credit) : Prop :=
  ∃ o' su' ow', step G (put o su ow s) a = some (put o' su' ow' s') ∧
    (∀ i, List.Forall₂ Got (s.outs i) (o i) → List.Forall₂ Got (s'.outs i) (o' i)) ∧
    (∀ i, s.susp i = su i → s'.susp i = su' i) ∧ (∀ i, s.owed i = ow i → s'.owed i = ow' i) ∧
    ∀ j i r b, a = .job j → s.pc j = .susp i r b → s'.susp i = su' i ∧ s'.owed i = ow' i

theorem Follows.same {a : Act} (h : step G (put o su ow s) a = some (put o su ow s')) (h1 : s'.outs = s.outs) (h2 : s'.susp = s.susp)
    (h3 : s'.owed = s.owed) (h4 : ∀ j i r b, a = .job j → s.pc j ≠ .susp i r b) : Follows G s a s' o su ow :=
  ⟨o, su, ow, h, by simp [h1], by simp [h2], by simp [h3], fun j i r b e e' => absurd e' (h4 j i r b e)⟩

theorem run_same {i : Nat} : (run i s).outs = s.outs ∧ (run i s).susp = s.susp ∧ (run i s).owed = s.owed := ⟨rfl, rfl, rfl⟩

theorem enqueue_same {i k : Nat} {m : Msg} :
    (enqueue i k m s).outs = s.outs ∧ (enqueue i k m s).susp = s.susp ∧ (enqueue i k m s).owed = s.owed := by
  unfold enqueue
  simp only
  split <;> exact ⟨rfl, rfl, rfl⟩

theorem popCrit_same {j i : Nat} :
    (popCrit G j i s).outs = s.outs ∧ (popCrit G j i s).susp = s.susp ∧ (popCrit G j i s).owed = s.owed := by
  unfold popCrit
  split <;> exact ⟨rfl, rfl, rfl⟩

theorem taskDone_same {j i : Nat} :
    (taskDone G j i s).outs = s.outs ∧ (taskDone G j i s).susp = s.susp ∧ (taskDone G j i s).owed = s.owed := by
  unfold taskDone
  simp only
  split <;> split <;> exact ⟨rfl, rfl, rfl⟩

theorem ctsCrit_same {i : Nat} {c : Credit} : (ctsCrit G i c s).outs = s.outs ∧
    (ctsCrit G i c s).susp = upd s.susp i (s.susp i - 1) ∧ (ctsCrit G i c s).owed = upd s.owed i ((s.owed i).erase c) := by
  unfold ctsCrit
  simp only
  repeat' split
  all_goals exact ⟨rfl, rfl, rfl⟩

theorem upd_at {α : Type} {f g : Nat → α} {u : Nat} {x y : α} {i : Nat} (h : f i = g i) (hx : u = i → x = y) : upd f u x i = upd g u y i := by
  unfold upd
  split
  · next e => exact hx e.symm
  · exact h

/-- All steps do. -/
theorem step_put {a : Act} (e : step G s a = some s')
    (hc : ∀ j i k ks m u, a = .job j → s.pc j = .cts2 i (k :: ks) m → G.up i k = some u → su u = s.susp u)
    (ho : ∀ j i, a = .job j → s.pc j = .own2 i → su i = s.susp i) : Follows G s a s' o su ow := by
  have pcp : (put o su ow s).pc = s.pc := rfl
  cases a with
  | job j =>
    have ns : (∀ i r b, s.pc j ≠ .susp i r b) → ∀ j' i r b, Act.job j = .job j' → s.pc j' ≠ .susp i r b := by
      rintro h j' i r b ⟨⟩; exact h i r b
    simp only [step, stepJob] at e
    split at e
    all_goals (rename_i hp)
    all_goals first | cases e | skip
    · exact .same (by simp only [step, stepJob, pcp, hp, popCrit_put]) popCrit_same.1 popCrit_same.2.1 popCrit_same.2.2 (ns (by simp [hp]))
    · exact .same (by simp only [step, stepJob, pcp, hp]; rfl) rfl rfl rfl (ns (by simp [hp]))
    · exact .same (by simp only [step, stepJob, pcp, hp]; rfl) rfl rfl rfl (ns (by simp [hp]))
    · split at e
      · next hu => cases e; exact .same (by simp only [step, stepJob, pcp, hp, hu]; rfl) rfl rfl rfl (ns (by simp [hp]))
      · next hu => cases e; exact .same (by simp only [step, stepJob, pcp, hp, hu]; rfl) rfl rfl rfl (ns (by simp [hp]))
    · split at e
      · next i k ks m x u hu =>
        cases e
        have hs := hc j _ _ _ _ _ rfl hp hu
        refine ⟨o, upd su u (su u - 1), upd ow u ((ow u).erase (.edge i k)), ?_, ?_, ?_, ?_, ?_⟩
        · simp only [step, stepJob, pcp, hp, hu, ctsCrit_put hs]; rfl
        · intro i h; simp only [goto, ctsCrit_same.1]; exact h
        · intro i h; simp only [goto, ctsCrit_same.2.1]; exact upd_at h (fun e => by subst e; rw [h])
        · intro i h; simp only [goto, ctsCrit_same.2.2]; exact upd_at h (fun e => by subst e; rw [h])
        · rintro j i r b ⟨⟩ h; simp [hp] at h
      · next hu => cases e; exact .same (by simp only [step, stepJob, pcp, hp, hu]; rfl) rfl rfl rfl (ns (by simp [hp]))
    · exact .same (by simp only [step, stepJob, pcp, hp]; rfl) rfl rfl rfl (ns (by simp [hp]))
    · exact .same (by simp only [step, stepJob, pcp, hp]; rfl) rfl rfl rfl (ns (by simp [hp]))
    · exact .same (by simp only [step, stepJob, pcp, hp]; rfl) rfl rfl rfl (ns (by simp [hp]))
    · exact .same (by simp only [step, stepJob, pcp, hp]; rfl) rfl rfl rfl (ns (by simp [hp]))
    · exact .same (by simp only [step, stepJob, pcp, hp]; rfl) rfl rfl rfl (ns (by simp [hp]))
    · next i r b =>
      refine ⟨o, upd su i (if b then (s.down i).length + 1 else 1),
        upd ow i (.own :: if b then (s.down i).map fun e => .edge e.1 e.2 else []), ?_, ?_, ?_, ?_, ?_⟩
      · simp only [step, stepJob, pcp, hp]; rfl
      · intro i h; exact h
      · intro i h; exact upd_at h (fun _ => rfl)
      · intro i h; exact upd_at h (fun _ => rfl)
      · rintro j i' r' b' ⟨⟩ h
        rw [hp] at h
        cases h
        exact ⟨by simp [goto, upd], by simp [goto, upd]⟩
    · exact .same (by simp only [step, stepJob, pcp, hp, enqueue_put]; rfl) enqueue_same.1 enqueue_same.2.1 enqueue_same.2.2 (ns (by simp [hp]))
    · exact .same (by simp only [step, stepJob, pcp, hp]; rfl) rfl rfl rfl (ns (by simp [hp]))
    · exact .same (by simp only [step, stepJob, pcp, hp]; rfl) rfl rfl rfl (ns (by simp [hp]))
    · next i =>
      have hs := ho j _ rfl hp
      have hs' : su i = ({ s with main := upd s.main i none } : St).susp i := hs
      refine ⟨o, upd su i (su i - 1), upd ow i ((ow i).erase .own), ?_, ?_, ?_, ?_, ?_⟩
      · simp only [step, stepJob, pcp, hp]
        have := ctsCrit_put (G := G) (o := o) (ow := ow) (c := .own) hs'
        exact congrArg (fun x => some (goto j .none x)) this
      · intro i h; simp only [goto, ctsCrit_same.1]; exact h
      · intro i h; simp only [goto, ctsCrit_same.2.1]; exact upd_at h (fun e => by subst e; rw [h])
      · intro i h; simp only [goto, ctsCrit_same.2.2]; exact upd_at h (fun e => by subst e; rw [h])
      · rintro j i r b ⟨⟩ h; simp [hp] at h
    · exact .same (by simp only [step, stepJob, pcp, hp, taskDone_put]) taskDone_same.1 taskDone_same.2.1 taskDone_same.2.2 (ns (by simp [hp]))
    · exact .same (by simp only [step, stepJob, pcp, hp]; rfl) rfl rfl rfl (ns (by simp [hp]))
    · split at e
      · next h =>
        cases e
        refine .same ?_ rfl rfl rfl (ns (by simp [hp]))
        simp only [step, stepJob, pcp, hp]
        rw [if_pos (by exact h)]
        rfl
      · next h =>
        cases e
        refine .same ?_ rfl rfl rfl (ns (by simp [hp]))
        simp only [step, stepJob, pcp, hp]
        rw [if_neg (by exact h)]
        rfl
    · next d es =>
      refine .same ?_ ?_ ?_ ?_ (ns (by simp [hp]))
      · simp only [step, stepJob, hp, put]
        by_cases h : s.rcv d = 0 ∧ s.running d = false <;> simp [h, goto, run]
      all_goals (simp only [goto]; split <;> rfl)
    · next i =>
      refine .same ?_ ?_ ?_ ?_ (ns (by simp [hp]))
      · simp only [step, stepJob, hp, put, isEmpty]
        by_cases h : (emptyQ (G.strat i) (G.slots i) (s.idx i) (s.q i) = false ∨ s.closeQ i = true) ∧ s.running i = false <;>
          simp [h, goto, run]
      all_goals (simp only [goto]; split <;> rfl)
  | ret j r =>
    simp only [step] at e
    split at e <;> cases e
    next i hp =>
    refine ⟨upd o i (o i ++ [r]), su, ow, ?_, ?_, fun i h => h, fun i h => h, fun j i r b h => by cases h⟩
    · simp only [step, pcp, hp]; rfl
    · intro i' h
      simp only [goto, upd]
      split
      · next e => subst e; exact List.rel_append h (.cons (.inl rfl) .nil)
      · exact h
  | send d n m =>
    simp only [step] at e
    split at e <;> cases e
    next h =>
    refine .same ?_ enqueue_same.1 enqueue_same.2.1 enqueue_same.2.2 (by simp)
    simp only [step]
    rw [if_pos (by exact h), enqueue_put]
  | copySender d n n' =>
    simp only [step] at e
    split at e <;> cases e
    next h =>
    refine .same ?_ rfl rfl rfl (by simp)
    simp only [step]
    rw [if_pos (by exact h)]
    rfl
  | dropSender d n =>
    simp only [step] at e
    split at e
    · next h =>
      split at e
      · next h' =>
        cases e
        refine .same ?_ rfl rfl rfl (by simp)
        simp only [step]
        rw [if_pos (by exact h), if_pos (by exact h')]
        rfl
      · next h' =>
        cases e
        refine .same ?_ rfl rfl rfl (by simp)
        simp only [step]
        rw [if_pos (by exact h), if_neg (by exact h')]
        rfl
    · cases e
  | copyRecv d =>
    simp only [step] at e
    split at e <;> cases e
    next h =>
    refine .same ?_ rfl rfl rfl (by simp)
    simp only [step]
    rw [if_pos (by exact h)]
    rfl
  | dropRecv d =>
    simp only [step] at e
    split at e
    · next h =>
      split at e
      · next h' =>
        cases e
        refine .same ?_ rfl rfl rfl (by simp)
        simp only [step]
        rw [if_pos (by exact h), if_pos (by exact h')]
        rfl
      · next h' =>
        cases e
        refine .same ?_ rfl rfl rfl (by simp)
        simp only [step]
        rw [if_pos (by exact h), if_neg (by exact h')]
        rfl
    · cases e

theorem got_err {v : Nat} {l p : List Msg} (h : List.Forall₂ Got l (p ++ [.val v])) : List.Forall₂ Got l (p ++ [.err]) := by
  induction p generalizing l with
  | nil =>
    cases h with
    | cons h1 h2 =>
      cases h2
      rcases h1 with h | ⟨_, h⟩
      · subst h; exact .cons (.inr ⟨⟨v, rfl⟩, rfl⟩) .nil
      · cases h
  | cons x p ih =>
    cases h with
    | cons h1 h2 => exact .cons h1 (ih h2)

attribute [local grind =] upd Pc.of Pc.pre Pc.post Pc.pend Pc.unsent Pc.tocall Pc.fresh
  Pc.sending Pc.inside Pc.ending Pc.rest Pc.closes Pc.readies isEmpty

/-- The state in which the function has thrown, instead of the copy for the first receiver. -/
theorem undo (W : G.Wf) (I : Inv G t) {j i v : Nat} {l : List Msg} (h : t.pc j = .send i (.val v) (t.down i))
    (hl : t.outs i = l ++ [.val v]) :
    Inv G { t with
      pc := upd t.pc j (.bcast i .err)
      outs := upd t.outs i (l ++ [.err])
      susp := upd t.susp i 0
      owed := upd t.owed i [] } := by
  have ho1 : (t.pc j).of = some i := by rw [h]; rfl
  have hm : t.main i = some j := (I.mn i j).1 ho1
  have hp : pcm t.pc t.main i = .send i (.val v) (t.down i) := by rw [pcm_some hm, h]
  have hg := pcm_goto I ho1 (.bcast i .err)
  have hc := pcm_clr I ho1 (.bcast i .err)
  have hd : t.down i = G.down i := by
    rcases I.dn i with h | h
    · exact h.1
    · rw [hm] at h; cases h.2.2
  have he := W.edges i
  have hlen : (l ++ [Msg.err]).length = (t.outs i).length := by rw [hl]; simp
  have hin : ∀ d k, G.up d k = some i → k < G.slots d → t.inp d k = l := by
    intro d k h1 h2
    have := I.fl i d k h1 h2
    rw [hp, hl] at this
    have hu : (d, k) ∈ (Pc.send i (.val v) (t.down i)).unsent := by rw [hd]; exact (he d k).2 ⟨h1, h2⟩
    rw [if_pos hu] at this
    simpa [Pc.fresh, Pc.sending] using this.symm
  clear hl
  constructor
  all_goals dsimp only
  case fr => have h_fr := I.fr; clear I; grind
  case mn => have h_mn := I.mn; have h_fr := I.fr; clear I; grind
  case rn => have h_rn := I.rn; clear I; grind
  case rn' => have h_rnp := I.rn'; clear I; grind
  case sl => have h_sl := I.sl; clear I; grind
  case nd => have h_nd := I.nd; clear I; grind
  case pre => have h_pre := I.pre; clear I; grind
  case own => have h_own := I.own; clear I; grind
  case ed => have h_ed := I.ed; clear I; grind
  case cr => have h_cr := I.cr; have h_ex1 := I.ex1; have h_ex2 := I.ex2; clear I; grind
  case ex1 => have h_ex1 := I.ex1; have h_cr := I.cr; have h_ex2 := I.ex2; clear I; grind
  case ex2 => have h_ex2 := I.ex2; have h_cr := I.cr; have h_ex1 := I.ex1; clear I; grind
  case q1 => have h_q1 := I.q1; clear I; grind
  case un => have h_un := I.un; clear I; grind
  case pd => have h_pd := I.pd; clear I; grind
  case en => have h_en := I.en; clear I; grind
  case fi => have h_fi := I.fi; have h_en := I.en; have h_pre := I.pre; clear I; grind
  case dn => have h_dn := I.dn; have h_fi := I.fi; clear I; grind
  case cs => have h_cs := I.cs; clear I; grind
  case cf => have h_cf := I.cf; clear I; grind
  case sn => have h_sn := I.sn; clear I; grind
  case sd => have h_sd := I.sd; clear I; grind
  case cj => have h_cj := I.cj; have h_fr := I.fr; clear I; grind
  case rj => have h_rj := I.rj; have h_fr := I.fr; clear I; grind
  case rr => have h_rr := I.rr; clear I; grind
  case so => have h_so := I.so; clear I; grind
  case cl => have h_cl := I.cl; have h_fr := I.fr; clear I; grind
  case cn => have h_cn := I.cn; have h_fr := I.fr; clear I; grind
  case cp => have h_cp := I.cp; have h_fr := I.fr; clear I; grind
  case xt => have h_xt := I.xt; clear I; grind
  case wk => have h_wk := I.wk; have h_fi := I.fi; clear I; grind
  case su => have h_su := I.su; clear I; grind
  case fa => have h_fa := I.fa; clear I; grind
  case cb => have h_cb := I.cb; clear I; grind
  case ca => have h_ca := I.ca; clear I; grind
  case fl => have h_fl := I.fl; clear I; grind

theorem fresh_pre {p : Pc} (h : p.fresh ≠ []) : p.pre = true ∧ p.pend = [] := by
  cases p <;> simp_all [Pc.fresh, Pc.pre, Pc.pend]

theorem Sim.init (W : G.Wf) : Sim G (Channel.init G) (Channel.init G) where
  inv := Inv.init W
  eq := rfl
  outs := fun i => by simp [Channel.init]
  same := fun i => .inl ⟨rfl, rfl⟩

theorem Sim.step (W : G.Wf) (T : G.Tight) (S : Sim G s t) (H : Hist G s) {a : XAct} (hf : First s a) (e : xstep G s a = some s') :
    ∃ t', Sim G s' t' := by
  have I := S.inv
  have hpc : t.pc = s.pc := by rw [S.eq]; rfl
  have hmain : t.main = s.main := by rw [S.eq]; rfl
  have hdown : t.down = s.down := by rw [S.eq]; rfl
  have Ht : Hist G t := by rw [S.eq]; exact H.same rfl rfl rfl rfl
  have hold : ∀ i, (pcm t.pc t.main i).fresh = [] → s.susp i = t.susp i ∧ s.owed i = t.owed i := by
    intro i h
    rcases S.same i with h' | h'
    · exact h'
    · exact absurd h h'
  cases a with
  | base a =>
    have F : Follows G s a s' t.outs t.susp t.owed := by
      refine step_put e ?_ ?_
      · intro j i k ks m u _ hp hu
        have ho1 : (t.pc j).of = some i := by rw [hpc, hp]; rfl
        have hm := (I.mn i j).1 ho1
        have hk : k ∈ (pcm t.pc t.main i).pend := by rw [pcm_some hm, hpc, hp]; simp [Pc.pend]
        have hsl := ((I.pd i).2 k hk).1
        refine (hold u ?_).1.symm
        by_cases hfr : (pcm t.pc t.main u).fresh = []
        · exact hfr
        · have := (I.cr u i k hu hsl).2 (.inr (.inl hk))
          rw [I.pre u (fresh_pre hfr).1] at this
          cases this
      · intro j i _ hp
        have ho1 : (t.pc j).of = some i := by rw [hpc, hp]; rfl
        have hm := (I.mn i j).1 ho1
        refine (hold i ?_).1.symm
        rw [pcm_some hm, hpc, hp]; rfl
    obtain ⟨o', su', ow', h1, h2, h3, h4, h5⟩ := F
    rw [← S.eq] at h1
    have I' := I.step W T Ht h1
    refine ⟨put o' su' ow' s', I', rfl, fun i => h2 i (S.outs i), fun i => ?_⟩
    rcases S.same i with h | h
    · exact .inl ⟨h3 i h.1, h4 i h.2⟩
    · cases hm : t.main i with
      | none => rw [pcm_none hm] at h; exact absurd rfl h
      | some j =>
        rw [pcm_some hm] at h
        have hne : t.pc j ≠ .none := by intro h'; rw [h'] at h; exact h rfl
        have hof := (I.mn i j).2 hm
        -- the thread stays where a result is to be sent, or it has set the count
        have key : ((put o' su' ow' s').pc j).of = some i → ((put o' su' ow' s').pc j).fresh ≠ [] →
            (pcm (put o' su' ow' s').pc (put o' su' ow' s').main i).fresh ≠ [] := by
          intro g1 g2
          rw [pcm_some ((I'.mn i j).1 g1)]
          exact g2
        by_cases ht : thread a = some j
        · cases a with
          | job j' =>
            cases ht
            rw [hpc] at h hof
            cases hp : s.pc j with
            | bcast i' r =>
              rw [hp] at hof; cases hof
              simp only [xstep, Channel.step, stepJob, hp, Option.some.injEq] at e
              subst e
              refine .inr (key ?_ ?_) <;> simp only [put, goto, upd, if_true] <;> split <;> simp [Pc.of, Pc.fresh]
            | free i' r es acc =>
              rw [hp] at hof; cases hof
              cases es <;> simp only [xstep, Channel.step, stepJob, hp, Option.some.injEq] at e <;> subst e <;>
                refine .inr (key ?_ ?_) <;> simp [put, goto, upd, Pc.of, Pc.fresh]
            | susp i' r b =>
              rw [hp] at hof; cases hof
              exact .inl (h5 j i r b rfl hp)
            | _ => rw [hp] at h; exact absurd rfl h
          | ret j' r =>
            cases ht
            rw [hpc] at h
            simp only [xstep, Channel.step] at e
            split at e
            · next hb => rw [hb] at h; exact absurd rfl h
            · cases e
          | _ => cases ht
        · have := pc_other I hne ht h1
          refine .inr (key ?_ ?_)
          · rw [this]; exact hof
          · rw [this]; exact h
  | copyThrows j =>
    obtain ⟨i, v, x, es, h, rfl⟩ := copyThrows_cases e
    have hes := hf i _ _ h
    have hp : t.pc j = .send i (.val v) (t.down i) := by rw [hpc, h, hes, hdown]
    have ho1 : (t.pc j).of = some i := by rw [hp]; rfl
    have hm : t.main i = some j := (I.mn i j).1 ho1
    have hpm : pcm t.pc t.main i = .send i (.val v) (t.down i) := by rw [pcm_some hm, hp]
    have hx : x ∈ t.down i := by rw [hdown, ← hes]; simp
    have hd : t.down i = G.down i := by
      rcases I.dn i with h | h
      · exact h.1
      · rw [hm] at h; cases h.2.2
    obtain ⟨d, k⟩ := x
    have hl : ∃ l, t.outs i = l ++ [.val v] := by
      obtain ⟨h1, h2⟩ := (W.edges i d k).1 (hd ▸ hx)
      refine ⟨t.inp d k, ?_⟩
      have := I.fl i d k h1 h2
      rw [hpm, if_pos (by exact hx)] at this
      simpa [Pc.fresh, Pc.sending] using this
    obtain ⟨l, hl⟩ := hl
    refine ⟨_, undo W I hp hl, ?_, ?_, ?_⟩
    · rw [S.eq]; rfl
    · intro i'
      by_cases hi : i' = i
      · subst hi
        simp only [upd, if_true, goto]
        exact got_err (hl ▸ S.outs i')
      · simp only [upd, hi, if_false, goto]
        exact S.outs i'
    · intro i'
      have hg := pcm_goto I ho1 (.bcast i .err) i'
      dsimp only
      rw [hg]
      by_cases hi : i' = i
      · simp [hi, Pc.fresh]
      · simp only [hi, if_false, upd, goto]
        exact S.same i'

theorem FirstReachable.sim (W : G.Wf) (T : G.Tight) (h : FirstReachable G s) : ∃ t, Sim G s t := by
  induction h with
  | init => exact ⟨_, Sim.init W⟩
  | step h hf e ih =>
    obtain ⟨t, S⟩ := ih
    exact S.step W T (h.reachable.hist W) hf e

/-- With one receiver the copy for the first is the only one. -/
theorem XReachable.first (W : G.Wf) (T : G.Tight) (h1 : ∀ i, (G.down i).length ≤ 1) : XReachable G s → FirstReachable G s := by
  refine XReachable.ind .init ?_
  intro s a s' h e
  refine .step h ?_ e
  cases a with
  | base a => trivial
  | copyThrows j =>
    obtain ⟨t, S⟩ := h.sim W T
    have I := S.inv
    have hpc : t.pc = s.pc := by rw [S.eq]; rfl
    have hdown : t.down = s.down := by rw [S.eq]; rfl
    obtain ⟨i, v, x, es, hp, rfl⟩ := copyThrows_cases e
    intro i' r' es' hp'
    rw [hp] at hp'
    cases hp'
    have hm := (I.mn i j).1 (by rw [hpc, hp]; rfl)
    have hu := (I.un i).2
    rw [pcm_some hm, hpc, hp] at hu
    have hnd := (I.un i).1
    rw [pcm_some hm, hpc, hp] at hnd
    simp only [Pc.unsent] at hu hnd
    have hd : t.down i = G.down i := by
      rcases I.dn i with h | h
      · exact h.1
      · rw [hm] at h; cases h.2.2
    rw [← hdown, hd]
    rw [hd] at hu
    have hl := h1 i
    match hG : G.down i, hl with
    | [], _ => have := hu x (by simp); rw [hG] at this; cases this
    | [y], _ =>
      have hx := hu x (by simp)
      rw [hG, List.mem_singleton] at hx
      subst hx
      cases es with
      | nil => rfl
      | cons z es =>
        have hz := hu z (by simp)
        rw [hG, List.mem_singleton] at hz
        subst hz
        simp at hnd

end Verif.Channel.CopyThrow
