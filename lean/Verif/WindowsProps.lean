import Verif.Windows

/-!
# C79: the Windows task system at the end of the program
-/

namespace Verif.Windows

theorem set_get {l : List Task} {t u : Nat} {x y : Task} (h : (l.set t x)[u]? = some y) :
    (u = t ∧ y = x ∧ t < l.length) ∨ (u ≠ t ∧ l[u]? = some y) := by
  rw [List.getElem?_set] at h
  split at h
  · rename_i e
    subst e
    split at h
    · injection h with h; exact .inl ⟨rfl, h.symm, ‹_›⟩
    · cases h
  · rename_i e; exact .inr ⟨fun h => e h.symm, h⟩

theorem get_append {l : List Task} {u : Nat} {x y : Task} (h : (l ++ [x])[u]? = some y) :
    (u = l.length ∧ y = x) ∨ l[u]? = some y := by
  rw [List.getElem?_append] at h
  split at h
  · exact .inr h
  · rename_i hl
    have : u - l.length = 0 := by
      cases hd : u - l.length with
      | zero => rfl
      | succ n => rw [hd] at h; simp at h
    rw [this] at h
    simp at h
    exact .inl ⟨by omega, h.symm⟩

theorem get_append_of {l : List Task} {u : Nat} {x y : Task} (h : l[u]? = some y) : (l ++ [x])[u]? = some y := by
  have hl := (List.getElem?_eq_some_iff.1 h).1
  rw [List.getElem?_append_left hl]; exact h

/-- How often the handler that joins the pool of priority `p` is on the stack. -/
def onStack (p : Prio) (s : St) : Nat := (s.pre.stack.map Prod.snd).count (.join p)

/-- What the state of a task says about its kind and its calls. -/
def TaskOk (x : Task) : Prop :=
  match x.st with
  | .created | .queued | .lost => (∃ p, x.prio = some p) ∧ x.calls = 0
  | .running | .ran | .freed | .done => (∃ p, x.prio = some p) ∧ x.calls = 1
  | .tPending => x.prio = none ∧ x.calls = 0
  | .tRunning | .tDone => x.prio = none ∧ x.calls = 1

structure Inv (s : St) : Prop where
  /-- every pool is joined by exactly one handler -/
  reg : ∀ p, onStack p s + (if s.cur = some (.join p) then 1 else 0) + (if s.closed p then 1 else 0) = if s.pool p then 1 else 0
  fin : s.pre.closed = true → s.pre.stack = [] ∧ s.cur = none ∧ s.pre.phase ≠ .inHandler
  cur : s.cur ≠ none ↔ s.pre.phase = .inHandler
  task : ∀ (t : Nat) x, s.tasks[t]? = some x → TaskOk x ∧ ∀ p, x.prio = some p → s.pool p = true
  call : ∀ (t : Nat) x u, s.tasks[t]? = some x → x.st = .created → x.by_ = some u → ∃ y, s.tasks[u]? = some y ∧ y.st.active = true

theorem inv_init : Inv ({} : St) :=
  ⟨fun p => (by simp [onStack]), fun h => absurd h (by simp), (by simp), fun t x h => absurd h (by simp),
    fun t x u h => absurd h (by simp)⟩

theorem register_ok {s s' : St} {h : Handler} (hs : register s h = .ok s') :
    s.pre.closed = false ∧ ∃ q : PreExit.St Handler, s' = { s with pre := q } ∧ q.closed = s.pre.closed ∧ q.phase = s.pre.phase ∧
      q.stack = (s.pre.next, h) :: s.pre.stack := by
  unfold register PreExit.push at hs
  by_cases hc : s.pre.closed = true
  · simp [hc] at hs
  · simp only [hc] at hs
    injection hs with hs
    refine ⟨by simpa using hc, _, hs.symm, ?_, ?_, ?_⟩ <;> simp [hc]


theorem calling_false {s : St} {u t : Nat} {x : Task} (h : calling s u = false) (hx : s.tasks[t]? = some x)
    (hc : x.st = .created) : x.by_ ≠ some u := by
  intro hb
  unfold calling at h
  rw [List.any_eq_false] at h
  exact h x (List.mem_of_getElem? hx) (by simp [hc, hb])

/-- A task makes a step. -/
theorem Inv.put {s : St} {t : Nat} {x x' : Task} (hi : Inv s) (hx : s.tasks[t]? = some x) (hp : x'.prio = x.prio)
    (hok : TaskOk x') (hc : x'.st ≠ .created) (ha : x.st.active = true → x'.st.active = true ∨ calling s t = false) :
    Inv (s.put t x') := by
  refine ⟨hi.reg, hi.fin, hi.cur, fun u y hy => ?_, fun u y v hy hyc hb => ?_⟩
  · rcases set_get hy with ⟨rfl, rfl, _⟩ | ⟨_, hy⟩
    · refine ⟨hok, fun p h => (hi.task u x hx).2 p (by rw [← hp]; exact h)⟩
    · exact hi.task u y hy
  · rcases set_get hy with ⟨rfl, rfl, _⟩ | ⟨_, hy2⟩
    · exact absurd hyc hc
    · obtain ⟨z, hz, hza⟩ := hi.call u y v hy2 hyc hb
      by_cases hv : v = t
      · subst hv
        rw [hx] at hz; injection hz with hz; subst hz
        rcases ha hza with h | h
        · refine ⟨x', ?_, h⟩
          show (s.tasks.set v x')[v]? = some x'
          rw [List.getElem?_set_self (List.getElem?_eq_some_iff.1 hx).1]
        · exact absurd hb (calling_false h hy2 hyc)
      · refine ⟨z, ?_, hza⟩
        show (s.tasks.set t x')[v]? = some z
        rw [List.getElem?_set_ne (fun e => hv e.symm)]; exact hz

theorem Inv.append {s : St} {x : Task} (hi : Inv s) (hok : TaskOk x) (hp : ∀ p, x.prio = some p → s.pool p = true)
    (hc : ∀ u, x.by_ = some u → caller s (some u) = true) : Inv { s with tasks := s.tasks ++ [x] } := by
  refine ⟨hi.reg, hi.fin, hi.cur, fun u y hy => ?_, fun u y v hy hyc hb => ?_⟩
  · rcases get_append hy with ⟨_, rfl⟩ | hy
    · exact ⟨hok, hp⟩
    · exact hi.task u y hy
  · rcases get_append hy with ⟨_, rfl⟩ | hy
    · have := hc v hb
      simp only [caller] at this
      cases hz : s.tasks[v]? with
      | none => rw [hz] at this; simp at this
      | some z => rw [hz] at this; exact ⟨z, get_append_of hz, by simpa using this⟩
    · obtain ⟨z, hz, hza⟩ := hi.call u y v hy hyc hb
      exact ⟨z, get_append_of hz, hza⟩

theorem release_get {l : List Task} {p : Prio} {t : Nat} {y : Task} (h : (l.map (release p))[t]? = some y) :
    ∃ x, l[t]? = some x ∧ y = release p x := by
  rw [List.getElem?_map] at h
  cases hx : l[t]? with
  | none => rw [hx] at h; cases h
  | some x => rw [hx] at h; injection h with h; exact ⟨x, rfl, h.symm⟩

theorem release_ok {p : Prio} {x : Task} (h : TaskOk x) : TaskOk (release p x) := by
  unfold release
  split
  · rename_i hc
    unfold TaskOk at h ⊢
    rw [hc.2] at h
    exact h
  · exact h

theorem release_prio {p : Prio} {x : Task} : (release p x).prio = x.prio := by unfold release; split <;> rfl

theorem release_created {p : Prio} {x : Task} (h : (release p x).st = .created) : x.st = .created ∧ release p x = x := by
  unfold release at h ⊢
  split at h
  · cases h
  · rename_i hc; exact ⟨h, if_neg hc⟩

theorem release_active {p : Prio} {x : Task} (h : x.st.active = true) : release p x = x := by
  unfold release
  split
  · rename_i hc; rw [hc.2] at h; cases h
  · rfl

theorem inv_step {s s' : St} {a : Act} (h : step s a = .ok s') (hi : Inv s) : Inv s' := by
  have hbyp : ∀ {s1 : St} {q : PreExit.St Handler} {hd : Handler}, s1.pre = s.pre → s1.cur = s.cur → s1.closed = s.closed →
      s1.tasks = s.tasks → (∀ p, s.pool p = true → s1.pool p = true) →
      (∀ p, (if s1.pool p then 1 else 0) = (if s.pool p then 1 else 0) + if hd = .join p then 1 else 0) →
      s1.pre.closed = false → q.closed = s1.pre.closed → q.phase = s1.pre.phase → q.stack = (s1.pre.next, hd) :: s1.pre.stack →
      Inv { s1 with pre := q } := by
    intro s1 q hd h1 h2 h3 h4 h5 h6 h7 h8 h9 h10
    refine ⟨fun p => ?_, fun hc => ?_, ?_, ?_, ?_⟩
    · have := hi.reg p
      have := h6 p
      simp only [onStack, h10, h1, h2, h3, List.map_cons, List.count_cons] at *
      simp only [beq_iff_eq]
      omega
    · exfalso; rw [show q.closed = true from hc] at h8; rw [h7] at h8; cases h8
    · show s1.cur ≠ none ↔ q.phase = .inHandler
      rw [h2, h9, h1]; exact hi.cur
    · intro t x hx
      have hx : s.tasks[t]? = some x := by rw [← h4]; exact hx
      exact ⟨(hi.task t x hx).1, fun p hp => h5 p ((hi.task t x hx).2 p hp)⟩
    · intro t x u hx hc hb
      have hx : s.tasks[t]? = some x := by rw [← h4]; exact hx
      show ∃ y, s1.tasks[u]? = some y ∧ _
      rw [h4]; exact hi.call t x u hx hc hb
  cases a <;> simp only [step] at h
  case atPreExit n =>
    obtain ⟨h0, q, rfl, h1, h2, h3⟩ := register_ok h
    exact hbyp rfl rfl rfl rfl (fun _ h => h) (fun p => by simp) h0 h1 h2 h3
  case makePool p =>
    split at h
    · cases h
    · rename_i hp
      obtain ⟨h0, q, rfl, h1, h2, h3⟩ := register_ok h
      refine hbyp rfl rfl rfl rfl (fun r h => ?_) (fun r => ?_) h0 h1 h2 h3
      · simp [h]
      · by_cases hr : r = p
        · subst hr; simp [hp]
        · have hr' : p ≠ r := fun e => hr e.symm
          simp [hr, hr']
  case callPreExit =>
    split at h
    · cases h
    · rename_i q hq
      injection h with h; subst h
      simp only [PreExit.step] at hq
      have hcn : s.pre.phase ≠ .inHandler ∧ q = { s.pre with phase := .inLoop } := by
        split at hq
        · rename_i hp; injection hq with hq; exact ⟨by rw [hp]; simp, hq.symm⟩
        · rename_i hp; injection hq with hq; exact ⟨by rw [hp]; simp, hq.symm⟩
        · cases hq
      obtain ⟨hph, rfl⟩ := hcn
      have hc : s.cur = none := by
        cases hc : s.cur with
        | none => rfl
        | some y => exact absurd (hi.cur.1 (by rw [hc]; simp)) hph
      exact ⟨hi.reg, fun h => ⟨(hi.fin h).1, hc, by simp⟩, by simp [hc], hi.task, hi.call⟩
  case pop =>
    unfold pop at h
    split at h
    · rename_i hph
      have hc : s.cur = none := by
        cases hc : s.cur with
        | none => rfl
        | some y => have := hi.cur.1 (by rw [hc]; simp); rw [hph] at this; cases this
      unfold PreExit.pop at h
      cases hst : s.pre.stack with
      | nil =>
        simp only [hst] at h
        by_cases hcl : s.pre.closed = true
        · simp [hcl] at h
        · simp only [hcl] at h
          injection h with h; subst h
          refine ⟨fun p => ?_, fun _ => ⟨by simp, hc, by simp⟩, by simp [hc], hi.task, hi.call⟩
          have := hi.reg p
          simp only [onStack, hst] at this ⊢
          exact this
      | cons y rest =>
        obtain ⟨n, hd⟩ := y
        simp only [hst] at h
        injection h with h; subst h
        refine ⟨fun p => ?_, fun h => ?_, by simp, hi.task, hi.call⟩
        · have := hi.reg p
          simp only [onStack, hst, hc, List.map_cons, List.count_cons, beq_iff_eq] at this
          simp only [onStack, Option.some.injEq]
          simp at this
          omega
        · have := (hi.fin h).1; rw [hst] at this; cases this
    · cases h
  case handlerReturns =>
    unfold handlerReturns at h
    split at h
    · cases h
    · rename_i q hq
      simp only [PreExit.step] at hq
      split at hq
      · rename_i hph
        injection hq with hq; subst hq
        have hcl : s.pre.closed = false := by
          cases hcl : s.pre.closed with
          | false => rfl
          | true => exact absurd hph (hi.fin hcl).2.2
        split at h
        · rename_i p hcur
          split at h
          · cases h
          · rename_i hnc
            split at h
            · cases h
            · injection h with h; subst h
              refine ⟨fun r => ?_, fun h => ?_, by simp, fun t y hy => ?_, fun t y u hy hyc hb => ?_⟩
              · have := hi.reg r
                rw [hcur] at this
                by_cases hr : r = p
                · subst hr
                  simp only [onStack, if_true, hnc, if_false, reduceCtorEq, Nat.add_zero] at this ⊢
                  exact this
                · have hr' : p ≠ r := fun e => hr e.symm
                  simp only [onStack, Option.some.injEq, Handler.join.injEq, hr, hr', if_false, reduceCtorEq, Nat.add_zero] at this ⊢
                  exact this
              · rw [show s.pre.closed = true from h] at hcl; cases hcl
              · obtain ⟨x, hx, rfl⟩ := release_get hy
                exact ⟨release_ok (hi.task t x hx).1, fun r hr => (hi.task t x hx).2 r (by rw [← hr, release_prio])⟩
              · obtain ⟨x, hx, rfl⟩ := release_get hy
                obtain ⟨hxc, he⟩ := release_created hyc
                rw [he] at hb
                obtain ⟨z, hz, hza⟩ := hi.call t x u hx hxc hb
                refine ⟨z, ?_, hza⟩
                show (s.tasks.map (release p))[u]? = some z
                rw [List.getElem?_map, hz]
                simp [release_active hza]
        · rename_i hcur
          injection h with h; subst h
          refine ⟨fun r => ?_, fun h => ?_, by simp, hi.task, hi.call⟩
          · have := hi.reg r
            rw [if_neg (hcur r)] at this
            simp only [onStack, if_false, reduceCtorEq, Nat.add_zero] at this ⊢
            exact this
          · rw [show s.pre.closed = true from h] at hcl; cases hcl
      · cases hq
  case create p b =>
    split at h
    · rename_i hc
      simp only [Bool.and_eq_true] at hc
      split at h
      · cases h
      · injection h with h; subst h
        refine hi.append ?_ ?_ ?_
        · exact ⟨⟨p, rfl⟩, rfl⟩
        · intro r hr; injection hr with hr; subst hr; exact hc.1
        · intro u hu; rw [← hu]; exact hc.2
    · cases h
  case delay b =>
    split at h
    · rename_i hc
      injection h with h; subst h
      refine hi.append ⟨rfl, rfl⟩ (fun r hr => by cases hr) ?_
      intro u hu; rw [← hu]; exact hc
    · cases h
  case exit =>
    split at h
    · cases h
    · injection h with h; subst h; exact hi
  all_goals
    split at h
    · rename_i x hx
      have hok := (hi.task _ x hx).1
      repeat' split at h
      all_goals first
        | (cases h; done)
        | (rename_i hst
           injection h with h; subst h
           refine hi.put hx rfl ?_ (by simp) (by simp_all [TaskSt.active])
           simp_all [TaskOk])
    · cases h

theorem inv {D : St → Act → Prop} {s : St} (h : Runs D s) : Inv s := by
  induction h with
  | init => exact inv_init
  | step _ _ h ih => exact inv_step h ih


/-! ## Programs that leave the executors in time -/

/-- The caller `b` is a task of priority `p`. -/
def From (s : St) (p : Prio) (b : Option Nat) : Prop := ∃ (u : Nat) (y : Task), b = some u ∧ s.tasks[u]? = some y ∧ y.prio = some p

/-- From the moment `pre_exit()` joins the pool of a priority, only the tasks of this priority use its executor; calls of other
code have returned by then. -/
def Disciplined (s : St) : Act → Prop
  | .create p b => (s.cur = some (.join p) ∨ s.closed p = true) → From s p b
  | .pop => ∀ n p rest, s.pre.stack = (n, .join p) :: rest → ∀ (t : Nat) x, s.tasks[t]? = some x → x.prio = some p →
      x.st = .created → From s p x.by_
  | _ => True

structure DInv (s : St) : Prop where
  done : ∀ p, s.closed p = true → ∀ (t : Nat) x, s.tasks[t]? = some x → x.prio = some p → x.st = .done
  own : ∀ p, s.cur = some (.join p) → ∀ (t : Nat) x, s.tasks[t]? = some x → x.prio = some p → x.st = .created → From s p x.by_
  kept : ∀ (t : Nat) x, s.tasks[t]? = some x → x.st ≠ .lost

theorem From.put {s : St} {p : Prio} {b : Option Nat} {t : Nat} {x x' : Task} (h : From s p b) (hx : s.tasks[t]? = some x)
    (hp : x'.prio = x.prio) : From (s.put t x') p b := by
  obtain ⟨u, y, rfl, hy, hyp⟩ := h
  by_cases hu : u = t
  · subst hu
    rw [hx] at hy; injection hy with hy; subst hy
    refine ⟨u, x', rfl, ?_, by rw [hp]; exact hyp⟩
    show (s.tasks.set u x')[u]? = some x'
    rw [List.getElem?_set_self (List.getElem?_eq_some_iff.1 hx).1]
  · refine ⟨u, y, rfl, ?_, hyp⟩
    show (s.tasks.set t x')[u]? = some y
    rw [List.getElem?_set_ne (fun e => hu e.symm)]; exact hy

theorem From.append {s : St} {p : Prio} {b : Option Nat} {x' : Task} (h : From s p b) :
    From { s with tasks := s.tasks ++ [x'] } p b := by
  obtain ⟨u, y, rfl, hy, hyp⟩ := h
  exact ⟨u, y, rfl, get_append_of hy, hyp⟩

theorem DInv.put {s : St} {t : Nat} {x x' : Task} (hi : DInv s) (hx : s.tasks[t]? = some x) (hp : x'.prio = x.prio)
    (hd : x.st ≠ .done) (hc : x'.st ≠ .created) (hl : x'.st ≠ .lost) : DInv (s.put t x') := by
  refine ⟨?_, ?_, fun u y hy => ?_⟩
  · intro p hp' u y hy hyp
    rcases set_get hy with ⟨rfl, rfl, _⟩ | ⟨_, hy2⟩
    · exact absurd (hi.done p hp' u x hx (by rw [← hp]; exact hyp)) hd
    · exact hi.done p hp' u y hy2 hyp
  · intro p hp' u y hy hyp hyc
    rcases set_get hy with ⟨rfl, rfl, _⟩ | ⟨_, hy2⟩
    · exact absurd hyc hc
    · exact (hi.own p hp' u y hy2 hyp hyc).put hx hp
  · rcases set_get hy with ⟨rfl, rfl, _⟩ | ⟨_, hy2⟩
    · exact hl
    · exact hi.kept u y hy2

/-- Under `Disciplined`, an executor whose pool is closed is not used. -/
theorem create_open {s : St} {p : Prio} {b : Option Nat} (hd : Disciplined s (.create p b)) (hi : DInv s)
    (hb : caller s b = true) : s.closed p = false := by
  cases hc : s.closed p with
  | false => rfl
  | true =>
    obtain ⟨u, y, rfl, hy, hyp⟩ := hd (.inr hc)
    have := hi.done p hc u y hy hyp
    simp only [caller, hy, Option.any_some, this] at hb
    cases hb

theorem dinv_step {s s' : St} {a : Act} (h : step s a = .ok s') (hd : Disciplined s a) (hj : Inv s) (hi : DInv s) : DInv s' := by
  have hreg : ∀ {s1 : St} {q : PreExit.St Handler}, s1.cur = s.cur → s1.closed = s.closed → s1.tasks = s.tasks →
      DInv { s1 with pre := q } := by
    intro s1 q h1 h2 h3
    refine ⟨?_, ?_, fun t x hx => hi.kept t x (by rw [← h3]; exact hx)⟩
    · intro p hp t x hx; exact hi.done p (by rw [← h2]; exact hp) t x (by rw [← h3]; exact hx)
    · intro p hp t x hx hxp hc
      obtain ⟨u, y, h4, h5, h6⟩ := hi.own p (by rw [← h1]; exact hp) t x (by rw [← h3]; exact hx) hxp hc
      exact ⟨u, y, h4, by show s1.tasks[u]? = _; rw [h3]; exact h5, h6⟩
  cases a <;> simp only [step] at h
  case atPreExit n =>
    obtain ⟨h0, q, rfl, h1, h2, h3⟩ := register_ok h
    exact hreg rfl rfl rfl
  case makePool p =>
    split at h
    · cases h
    · obtain ⟨h0, q, rfl, h1, h2, h3⟩ := register_ok h
      exact hreg rfl rfl rfl
  case callPreExit =>
    split at h
    · cases h
    · injection h with h; subst h; exact hreg rfl rfl rfl
  case pop =>
    unfold pop at h
    split at h
    · split at h
      · cases h
      · split at h
        · injection h with h; subst h; exact hreg rfl rfl rfl
        · rename_i n hd' rest hst
          injection h with h; subst h
          refine ⟨hi.done, fun p hp t x hx hxp hc => ?_, hi.kept⟩
          injection hp with hp; subst hp
          exact hd n p rest hst t x hx hxp hc
    · cases h
  case handlerReturns =>
    unfold handlerReturns at h
    split at h
    · cases h
    · split at h
      · rename_i p hcur
        split at h
        · cases h
        · split at h
          · cases h
          · rename_i hno
            injection h with h; subst h
            have hrel : ∀ (t : Nat) x, s.tasks[t]? = some x → x.prio = some p → release p x = x ∧ x.st = .done := by
              have hout : ∀ (v : Nat) z, s.tasks[v]? = some z → z.prio = some p → z.st.outstanding = false := by
                intro v z hz hzp
                simp only [Bool.not_eq_true, List.any_eq_false] at hno
                have := hno z (List.mem_of_getElem? hz)
                simpa [hzp] using this
              intro t x hx hyp
              have hxc : x.st ≠ .created := by
                intro hxc
                obtain ⟨u, z, hb, hz, hzp⟩ := hi.own p hcur t x hx hyp hxc
                obtain ⟨z', hz', hza⟩ := hj.call t x u hx hxc hb
                rw [hz] at hz'; injection hz' with hz'; subst hz'
                have h1 := hout u z hz hzp
                have h2 := (hj.task u z hz).1
                cases hst : z.st <;> simp [hst, TaskSt.active, TaskSt.outstanding, TaskOk] at h1 hza h2
                rw [hzp] at h2; simp at h2
              have h1 := hout t x hx hyp
              have h2 := (hj.task t x hx).1
              have h3 : release p x = x := by unfold release; simp [hxc]
              refine ⟨h3, ?_⟩
              have h4 := hi.kept t x hx
              cases hst : x.st <;> simp [hst, TaskSt.outstanding, TaskOk, hyp] at h1 hxc h2 h4 ⊢
            have hoth : ∀ x : Task, x.prio ≠ some p → release p x = x := by
              intro x hx; unfold release; simp [hx]
            refine ⟨fun r hr t y hy hyp => ?_, fun r hr => (by cases hr), fun t y hy => ?_⟩
            rotate_left
            · obtain ⟨x, hx, rfl⟩ := release_get hy
              by_cases hxp : x.prio = some p
              · rw [(hrel t x hx hxp).1]; exact hi.kept t x hx
              · rw [hoth x hxp]; exact hi.kept t x hx
            obtain ⟨x, hx, rfl⟩ := release_get hy
            rw [release_prio] at hyp
            by_cases hrp : r = p
            · subst hrp
              rw [(hrel t x hx hyp).1]; exact (hrel t x hx hyp).2
            · have hr : s.closed r = true := by simpa [hrp] using hr
              have := hi.done r hr t x hx hyp
              have h3 : release p x = x := by unfold release; simp [this]
              rw [h3]; exact this
      · injection h with h; subst h
        exact ⟨hi.done, fun r hr => (by cases hr), hi.kept⟩
  case create p b =>
    split at h
    · rename_i hc
      simp only [Bool.and_eq_true] at hc
      split at h
      · cases h
      · rename_i hcl
        injection h with h; subst h
        refine ⟨?_, ?_, fun t y hy => ?_⟩
        rotate_right
        · rcases get_append hy with ⟨_, rfl⟩ | hy
          · simp
          · exact hi.kept t y hy
        · intro r hr t y hy hyp
          rcases get_append hy with ⟨_, rfl⟩ | hy
          · injection hyp with hyp; subst hyp; exact absurd hr hcl
          · exact hi.done r hr t y hy hyp
        · intro r hr t y hy hyp hyc
          rcases get_append hy with ⟨_, rfl⟩ | hy
          · injection hyp with hyp; subst hyp
            exact (hd (.inl hr)).append
          · exact (hi.own r hr t y hy hyp hyc).append
    · cases h
  case delay b =>
    split at h
    · injection h with h; subst h
      refine ⟨?_, ?_, fun t y hy => ?_⟩
      rotate_right
      · rcases get_append hy with ⟨_, rfl⟩ | hy
        · simp
        · exact hi.kept t y hy
      · intro r hr t y hy hyp
        rcases get_append hy with ⟨_, rfl⟩ | hy
        · cases hyp
        · exact hi.done r hr t y hy hyp
      · intro r hr t y hy hyp hyc
        rcases get_append hy with ⟨_, rfl⟩ | hy
        · cases hyp
        · exact (hi.own r hr t y hy hyp hyc).append
    · cases h
  case exit =>
    split at h
    · cases h
    · injection h with h; subst h; exact hi
  all_goals
    split at h
    · rename_i x hx
      repeat' split at h
      all_goals first
        | (cases h; done)
        | (rename_i hst
           injection h with h; subst h
           exact hi.put hx rfl (by rw [hst]; simp) (by simp) (by simp))
    · cases h


theorem dinv {s : St} (h : Runs Disciplined s) : DInv s := by
  induction h with
  | init => exact ⟨fun _ h => absurd h (by simp), fun _ h => absurd h (by simp), fun t x h => absurd h (by simp)⟩
  | step h hd hs ih => exact dinv_step hs hd (inv h) ih

/-! ## The properties -/

/-- **C79**, in every execution: a task is called at most once, and its closure is deleted after the call. -/
theorem c79_once {s : St} (h : Reachable s) {t : Nat} {x : Task} (hx : s.tasks[t]? = some x) :
    x.calls ≤ 1 ∧ (x.st = .freed ∨ x.st = .done ∨ x.st = .tDone → x.calls = 1) := by
  have := ((inv h).task t x hx).1
  unfold TaskOk at this
  split at this <;> simp_all

/-- All pools are closed once `pre_exit()` has returned. -/
theorem all_closed {D : St → Act → Prop} {s : St} (h : Runs D s) (hc : s.pre.closed = true) (p : Prio) (hp : s.pool p = true) :
    s.closed p = true := by
  have hi := inv h
  have := hi.reg p
  obtain ⟨h1, h2, _⟩ := hi.fin hc
  simp only [onStack, h1, h2, hp, List.map_nil, List.count_nil, if_true, reduceCtorEq, if_false] at this
  cases hcl : s.closed p with
  | true => rfl
  | false => rw [hcl] at this; simp at this

/-- **C79**, the part that holds: in a program that leaves the executors in time, when `pre_exit()` has returned and at any time
after, every task given to an executor has been called exactly once, its call has ended and its closure has been deleted; so
none is called later. -/
theorem c79_rest_partial {s : St} (h : Runs Disciplined s) (hc : s.pre.closed = true) {t : Nat} {x : Task} {p : Prio}
    (hx : s.tasks[t]? = some x) (hp : x.prio = some p) : x.st = .done ∧ x.calls = 1 := by
  have hi := inv h
  have hpool := (hi.task t x hx).2 p hp
  have hd := (dinv h).done p (all_closed h hc p hpool) t x hx hp
  refine ⟨hd, ?_⟩
  have := (hi.task t x hx).1
  unfold TaskOk at this
  rw [hd] at this
  exact this.2

/-- **C79**, the same for one priority as soon as its pool was joined. -/
theorem c79_join_partial {s : St} (h : Runs Disciplined s) {t : Nat} {x : Task} {p : Prio} (hc : s.closed p = true)
    (hx : s.tasks[t]? = some x) (hp : x.prio = some p) : x.st = .done :=
  (dinv h).done p hc t x hx hp

/-- **C79**: in such a program nothing is used after it was closed or released. -/
theorem c79_no_ub_partial {s : St} (h : Runs Disciplined s) {a : Act} (hd : Disciplined s a) : step s a ≠ .ub := by
  intro hu
  have hi := inv h
  have hj := dinv h
  cases a <;> simp only [step] at hu
  case atPreExit n => unfold register at hu; split at hu <;> cases hu
  case makePool p => split at hu; cases hu; unfold register at hu; split at hu <;> cases hu
  case callPreExit => split at hu <;> cases hu
  case pop =>
    unfold pop at hu
    repeat' split at hu
    all_goals cases hu
  case handlerReturns =>
    unfold handlerReturns at hu
    split at hu
    · cases hu
    · split at hu
      · rename_i p hcur
        split at hu
        · rename_i hcl
          have := hi.reg p
          rw [if_pos hcur, if_pos hcl] at this
          split at this <;> omega
        · split at hu <;> cases hu
      · cases hu
  case create p b =>
    split at hu
    · rename_i hc
      simp only [Bool.and_eq_true] at hc
      have := create_open hd hj hc.2
      simp [this] at hu
    · cases hu
  case submit t =>
    split at hu
    · rename_i x hx
      split at hu
      · cases hu
      · rename_i hl; exact hj.kept t x hx hl
      · cases hu
    · cases hu
  all_goals
    repeat' split at hu
    all_goals cases hu

/-- **C79**, in every execution: `pre_exit()` is never stuck in `join` as long as the functions of the tasks return: either the
handler can return, or some task can make its next step. -/
theorem c79_wait {s : St} (h : Reachable s) {p : Prio} (hw : s.cur = some (.join p)) :
    (∃ s', step s .handlerReturns = .ok s') ∨
    ∃ t s', step s (.submit t) = .ok s' ∨ step s (.start t) = .ok s' ∨ step s (.finish t) = .ok s' ∨
      step s (.delete t) = .ok s' ∨ step s (.leave t) = .ok s' := by
  have hi := inv h
  by_cases hn : s.tasks.any fun x => decide (x.prio = some p) && x.st.outstanding
  · right
    simp only [List.any_eq_true, Bool.and_eq_true, decide_eq_true_eq] at hn
    obtain ⟨x, hx, hxp, ho⟩ := hn
    obtain ⟨t, ht⟩ := List.getElem?_of_mem hx
    by_cases hcl : calling s t = true
    · unfold calling at hcl
      simp only [List.any_eq_true, Bool.and_eq_true, beq_iff_eq] at hcl
      obtain ⟨y, hy, hyc, _⟩ := hcl
      obtain ⟨v, hv⟩ := List.getElem?_of_mem hy
      exact ⟨v, s.put v { y with st := .queued }, .inl (by simp only [step, hv, hyc])⟩
    · refine ⟨t, ?_⟩
      cases hst : x.st <;> simp [hst, TaskSt.outstanding] at ho <;> simp [step, ht, hst, hcl]
  · left
    have hph := hi.cur.1 (by rw [hw]; simp)
    have hnc : s.closed p = false := by
      have := hi.reg p
      rw [if_pos hw] at this
      cases hc : s.closed p with
      | false => rfl
      | true => rw [hc] at this; simp only [if_true] at this; split at this <;> omega
    simp only [step, handlerReturns, PreExit.step, hph, hw, hnc]
    rw [if_neg (by simp), if_neg hn]
    exact ⟨_, rfl⟩

/-- **C79**, in every execution: once `pre_exit()` has returned, the destructors of the pools do not fail their assertion. -/
theorem c79_exit {s : St} (h : Reachable s) (hc : s.pre.closed = true) : step s .exit = .ok s := by
  have hk : ∀ p, (s.pool p && !s.closed p) = false := by
    intro p
    cases hp : s.pool p with
    | false => rfl
    | true => simp [all_closed h hc p hp]
  simp [step, hk]


/-! ## Where it fails -/

/-- The low priority executor is used first, then the high one: the high one is joined first. -/
def priorityActs : List Act :=
  [.makePool .low, .makePool .high, .create .low none, .submit 0, .start 0, .callPreExit, .pop, .handlerReturns, .pop]

/-- **C79** fails when a task of one priority uses the executor of another: `pre_exit()` joins the pools one after another, and a
task it still waits for uses a closed one. -/
theorem c79_priority_counterexample : ∃ s, Reachable s ∧ s.cur = some (.join .low) ∧ s.closed .high = true ∧
    step s (.create .high (some 0)) = .ub :=
  ⟨_, exec_reachable (as := priorityActs) .init rfl, rfl, rfl, rfl⟩

/-- A task is given to the timer, and is due after `pre_exit()`. -/
def timerActs : List Act :=
  [.makePool .medium, .delay none, .callPreExit, .pop, .handlerReturns, .pop, .start 0]

/-- **C79** fails for the timer: nothing stops it, its tasks are called after `pre_exit()` has returned, and if they use the
executor they use a closed pool. -/
theorem c79_timer_counterexample : ∃ s, Reachable s ∧ s.pre.phase = .returned ∧ s.tasks = [⟨none, .tRunning, none, 1⟩] ∧
    step s (.create .medium (some 0)) = .ub :=
  ⟨_, exec_reachable (as := timerActs) .init rfl, rfl, rfl, rfl⟩

/-- **C79** fails when a task of the timer uses an executor for the first time after `pre_exit()`: an assertion fails. -/
theorem c79_timer_first_counterexample : ∃ s, Reachable s ∧ s.pre.phase = .returned ∧ s.tasks = [⟨none, .tRunning, none, 1⟩] ∧
    step s (.makePool .medium) = .abort :=
  ⟨_, exec_reachable (as := [.delay none, .callPreExit, .pop, .start 0]) .init rfl, rfl, rfl, rfl⟩

/-- A handler registered before the first use of the executor is called after its pool was joined. -/
def handlerActs : List Act :=
  [.atPreExit 7, .makePool .medium, .callPreExit, .pop, .handlerReturns, .pop]

/-- **C79** fails for handlers registered before the first use of an executor: they use a closed pool. -/
theorem c79_handler_counterexample : ∃ s, Reachable s ∧ s.cur = some (.user 7) ∧ step s (.create .medium none) = .ub :=
  ⟨_, exec_reachable (as := handlerActs) .init rfl, rfl, rfl⟩

/-- **C79** fails when another thread is in a call of the executor while `pre_exit()` joins it: the work object is released
before it is submitted. -/
theorem c79_release_counterexample : ∃ s, Reachable s ∧ step s (.submit 0) = .ub :=
  ⟨_, exec_reachable (as := [.makePool .medium, .create .medium none, .callPreExit, .pop, .handlerReturns]) .init rfl, rfl⟩

/-- **C79** fails without a call of `pre_exit()`, if the executor of any priority `p` was used: the destructor of its pool fails its
assertion. -/
theorem c79_exit_counterexample : ∀ p, ∃ s, Reachable s ∧ (∀ p', s.pool p' = decide (p' = p)) ∧
    s.pre.phase = .notStarted ∧ step s .exit = .abort := by
  rintro (_ | _ | _)
  · exact ⟨_, exec_reachable (as := [.makePool .high]) .init rfl, by rintro (_ | _ | _) <;> rfl, rfl, rfl⟩
  · exact ⟨_, exec_reachable (as := [.makePool .medium]) .init rfl, by rintro (_ | _ | _) <;> rfl, rfl, rfl⟩
  · exact ⟨_, exec_reachable (as := [.makePool .low]) .init rfl, by rintro (_ | _ | _) <;> rfl, rfl, rfl⟩

/-! ## Concrete cases -/

/-- A task that gives another one to the same executor while `pre_exit()` waits for it. -/
theorem demo : ∃ s, Runs Disciplined s ∧ s.pre.closed = true ∧
    s.tasks = [⟨some .medium, .done, none, 1⟩, ⟨some .medium, .done, some 0, 1⟩] := by
  refine ⟨_, .step (a := .pop) (.step (a := .handlerReturns) (.step (a := .leave 1) (.step (a := .delete 1)
    (.step (a := .finish 1) (.step (a := .start 1) (.step (a := .leave 0) (.step (a := .delete 0) (.step (a := .finish 0)
    (.step (a := .submit 1) (.step (a := .create .medium (some 0)) (.step (a := .pop) (.step (a := .callPreExit)
    (.step (a := .start 0) (.step (a := .submit 0) (.step (a := .create .medium none) (.step (a := .makePool .medium) .init
    trivial rfl) ?_ rfl) trivial rfl) trivial rfl) trivial rfl) ?_ rfl) ?_ rfl) trivial rfl) trivial rfl) trivial rfl)
    trivial rfl) trivial rfl) trivial rfl) trivial rfl) trivial rfl) trivial rfl) ?_ rfl, rfl, rfl⟩
  · intro h; rcases h with h | h <;> cases h
  · intro n p rest h t x hx hp hc
    match t, hx with
    | 0, hx => simp [St.put] at hx; rw [← hx] at hc; cases hc
  · intro _; exact ⟨0, _, rfl, rfl, rfl⟩
  · intro n p rest h; cases h

example : ∃ (s : St) (t : Nat) (x : Task) (p : Prio), Runs Disciplined s ∧ s.pre.closed = true ∧ s.closed p = true ∧ s.tasks[t]? = some x ∧ x.prio = some p := by
  obtain ⟨s, h, hc, ht⟩ := demo
  have hx : s.tasks[0]? = some ⟨some .medium, .done, none, 1⟩ := by rw [ht]; rfl
  exact ⟨s, 0, _, .medium, h, hc, all_closed h hc _ (((inv h).task 0 _ hx).2 _ rfl), hx, rfl⟩

/-- `c79_no_ub_partial`: a task uses its own executor while it is joined. -/
example : ∃ s, Runs Disciplined s ∧ ∃ s', step s (.create .medium none) = .ok s' ∧ Disciplined s (.create .medium none) := by
  refine ⟨_, .step (a := .makePool .medium) .init trivial rfl, _, rfl, ?_⟩
  intro h; rcases h with h | h <;> cases h

/-- `c79_wait`, `c79_exit`. -/
example : ∃ s, Reachable s ∧ s.cur = some (.join .medium) ∧ s.tasks = [⟨some .medium, .queued, none, 0⟩] :=
  ⟨_, exec_reachable (as := [.makePool .medium, .create .medium none, .submit 0, .callPreExit, .pop]) .init rfl, rfl, rfl⟩

example : ∃ s, Reachable s ∧ s.pre.closed = true ∧ s.pool .medium = true :=
  ⟨_, exec_reachable (as := [.makePool .medium, .callPreExit, .pop, .handlerReturns, .pop]) .init rfl, rfl, rfl⟩

end Verif.Windows
