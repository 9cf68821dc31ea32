import Verif.TaskTarget

/-!
# C91: a task is the callable it holds

Proved for callables whose results are not references and whose move constructors do not throw when they are
small; both restrictions are needed (counterexamples below). A task that has been moved from may be assigned to
or destroyed; looking at it gives contradictory answers (counterexample).
-/

namespace Verif.TaskTarget

/-- Object `o` is a representation of content `v`. -/
def Rep (P : Types) : Option Obj → Option SV → Prop
  | none, none => True
  | some ⟨.empty, .raw⟩, some v => v = .empty
  | some ⟨.small ty, .at st⟩, some v => isSmall P ty = true ∧ (v = .moved ∨ v = .holds ty st)
  | some ⟨.large ty, .at st⟩, some v => v = .holds ty st
  | some ⟨.large _, .null⟩, some v => v = .moved
  | _, _ => False

/-- Every object represents the content of its variable. -/
def RV (P : Types) (obj : Nat → Option Obj) (sv : Nat → Option SV) : Prop := ∀ x, Rep P (obj x) (sv x)

/-- What is assumed of the callables: a small one does not throw when it is moved. -/
def NoThrowMove (P : Types) : Prop := ∀ ty st, isSmall P ty = true → P.moveThrows ty st = false

/-- What is assumed of the callables: their results are not references. -/
def NoRef (P : Types) : Prop := ∀ ty st arg m a, (P.call ty st arg m).1 ≠ .ref a

theorem RV.set {P : Types} {obj : Nat → Option Obj} {sv : Nat → Option SV} (h : RV P obj sv) {x : Nat}
    {o : Option Obj} {v : Option SV} (hr : Rep P o v) : RV P (upd obj x o) (upd sv x v) := by
  intro y; simp only [upd]; split
  · exact hr
  · exact h y

theorem RV.absent {P : Types} {obj : Nat → Option Obj} {sv : Nat → Option SV} (h : RV P obj sv) {x : Nat} :
    obj x = none ↔ sv x = none := by
  have := h x
  constructor <;> intro e <;> rw [e] at this <;> revert this
  · cases sv x <;> simp [Rep]
  · rcases obj x with _ | ⟨_ | _ | _, _ | _ | _⟩ <;> simp [Rep]

theorem RV.present {P : Types} {obj : Nat → Option Obj} {sv : Nat → Option SV} (h : RV P obj sv) {x : Nat} {v : SV}
    (hx : sv x = some v) : ∃ o, obj x = some o ∧ Rep P (some o) (some v) := by
  have := h x
  rw [hx] at this
  cases ho : obj x with
  | none => rw [ho] at this; simp [Rep] at this
  | some o => exact ⟨o, rfl, ho ▸ this⟩

theorem upd_same {α : Type} (f : Nat → α) (k : Nat) : upd f k (f k) = f := by
  funext i; simp only [upd]; split <;> simp_all

theorem upd_upd {α : Type} (f : Nat → α) (k : Nat) (v w : α) : upd (upd f k v) k w = upd f k w := by
  funext i; simp only [upd]; split <;> rfl

theorem upd_comm {α : Type} (f : Nat → α) {k l : Nat} (v w : α) (h : k ≠ l) :
    upd (upd f k v) l w = upd (upd f l w) k v := by
  funext i; simp only [upd]; split <;> split <;> simp_all

theorem upd_self {α : Type} (f : Nat → α) (k : Nat) (v : α) : upd f k v k = v := by simp [upd]

theorem upd_ne {α : Type} (f : Nat → α) {k i : Nat} (v : α) (h : i ≠ k) : upd f k v i = f i := by simp [upd, h]

/-- Destroying what a task holds. -/
theorem dtorModel_ok {P : Types} {W : World} {x : Nat} {o : Obj} {v : SV} (hr : Rep P (some o) (some v)) :
    dtorModel W x o = some { W with obj := upd W.obj x (some ⟨o.vt, .raw⟩) } := by
  obtain ⟨vt, sl⟩ := o
  cases vt <;> cases sl <;> simp [Rep] at hr <;> rfl

/-- Moving what a task holds. -/
theorem moveModel_ok {P : Types} (hn : NoThrowMove P) {W : World} {sv : Nat → Option SV} {x y : Nat} {o : Obj} {v : SV}
    (hxy : x ≠ y) (h : RV P (upd W.obj x none) (upd sv x none)) (hy : W.obj y = some o) (hv : sv y = some v) :
    ∃ obj', moveModel P W x y o = some { W with obj := obj' } ∧
      RV P obj' (upd (upd sv y (some (from_ v))) x (some v)) := by
  have hr : Rep P (some o) (some v) := by
    have := h y
    rwa [upd_ne _ _ (Ne.symm hxy), upd_ne _ _ (Ne.symm hxy), hy, hv] at this
  have key : ∀ o1 o2, Rep P (some o1) (some (from_ v)) → Rep P (some o2) (some v) →
      RV P (upd (upd W.obj y (some o1)) x (some o2)) (upd (upd sv y (some (from_ v))) x (some v)) := by
    intro o1 o2 h1 h2
    have := (h.set (x := y) h1).set (x := x) h2
    rwa [upd_comm _ _ _ hxy, upd_upd, upd_comm _ _ _ hxy, upd_upd] at this
  have key' : ∀ o2, Rep P (some o) (some (from_ v)) → Rep P (some o2) (some v) →
      RV P (upd W.obj x (some o2)) (upd (upd sv y (some (from_ v))) x (some v)) := by
    intro o2 h1 h2
    have := key o o2 h1 h2
    rwa [← hy, upd_same] at this
  obtain ⟨vt, sl⟩ := o
  cases vt <;> cases sl <;> simp only [Rep] at hr
  · subst hr; exact ⟨_, rfl, key' _ (by simp [Rep, from_]) (by simp [Rep])⟩
  · obtain ⟨hs, hr⟩ := hr
    refine ⟨_, by simp only [moveModel, hn _ _ hs]; rfl, key _ _ ?_ ?_⟩
    · rcases hr with rfl | rfl <;> simp [Rep, from_, hs]
    · rcases hr with rfl | rfl <;> simp [Rep, hs]
  · subst hr; exact ⟨_, rfl, key' _ (by simp [Rep, from_]) (by simp [Rep])⟩
  · subst hr; exact ⟨_, rfl, key _ _ (by simp [Rep, from_]) (by simp [Rep])⟩

theorem moveCtor_ok {P : Types} (hn : NoThrowMove P) {W : World} {sv : Nat → Option SV} {x y : Nat} {v : SV}
    (h : RV P W.obj sv) (hx : sv x = none) (hv : sv y = some v) :
    ∃ obj', moveCtor P W x y = some { W with obj := obj' } ∧
      RV P obj' (upd (upd sv y (some (from_ v))) x (some v)) := by
  have hxo := h.absent.2 hx
  obtain ⟨o, ho, -⟩ := h.present hv
  have hxy : x ≠ y := by rintro rfl; simp [hx] at hv
  have h' : RV P (upd W.obj x none) (upd sv x none) := h.set (by simp [Rep])
  obtain ⟨obj', h1, h2⟩ := moveModel_ok hn hxy h' ho hv
  exact ⟨obj', by simp only [moveCtor, hxo, ho, h1], h2⟩

theorem assign_ok {P : Types} (hn : NoThrowMove P) {W : World} {sv : Nat → Option SV} {x y : Nat} {u v : SV}
    (h : RV P W.obj sv) (hxy : x ≠ y) (hx : sv x = some u) (hv : sv y = some v) :
    ∃ obj', assign P W x y = some { W with obj := obj' } ∧
      RV P obj' (upd (upd sv y (some (from_ v))) x (some v)) := by
  obtain ⟨ox, hox, hrx⟩ := h.present hx
  obtain ⟨oy, hoy, hry⟩ := h.present hv
  have h' : RV P (upd (upd W.obj x (some ⟨ox.vt, .raw⟩)) x none) (upd sv x none) := by
    rw [upd_upd]; exact h.set (by simp [Rep])
  obtain ⟨obj', h1, h2⟩ := moveModel_ok (W := { W with obj := upd W.obj x (some ⟨ox.vt, .raw⟩) }) (o := oy) hn hxy h'
    (by simp [upd, Ne.symm hxy, hoy]) hv
  refine ⟨obj', ?_, h2⟩
  simp only [assign, hox, dtorModel_ok hrx, upd_ne _ _ (Ne.symm hxy), hoy, h1]

theorem dtor_ok {P : Types} {W : World} {sv : Nat → Option SV} {x : Nat} {v : SV}
    (h : RV P W.obj sv) (hx : sv x = some v) :
    ∃ obj', dtor W x = some { W with obj := obj' } ∧ RV P obj' (upd sv x none) := by
  obtain ⟨ox, hox, hrx⟩ := h.present hx
  refine ⟨upd W.obj x none, ?_, h.set (by simp [Rep])⟩
  simp only [dtor, hox, dtorModel_ok hrx, upd_upd]

theorem isEmpty_iff (P : Types) (ty st : Nat) : isEmpty P ty st = true ↔ given P ty st = .empty := by
  unfold isEmpty maybeEmpty given
  cases P.kind ty <;> simp

theorem given_ne (P : Types) (ty st : Nat) (h : given P ty st ≠ .empty) : given P ty st = .holds ty st := by
  revert h; unfold given; split <;> simp

theorem rep_new (P : Types) (ty st : Nat) :
    Rep P (some ⟨if isSmall P ty then .small ty else .large ty, .at st⟩) (some (.holds ty st)) := by
  cases h : isSmall P ty <;> simp [Rep, h]

/-- Constructing a task from a callable. -/
theorem ctorF_ok {P : Types} {W : World} {sv : Nat → Option SV} {x ty st : Nat} (h : RV P W.obj sv) (hx : sv x = none) :
    if given P ty st ≠ .empty ∧ P.ctorThrows ty st = true then ctorF P W x ty st = some (emit W .threw)
    else ∃ obj', ctorF P W x ty st = some { W with obj := obj' } ∧ RV P obj' (upd sv x (some (given P ty st))) := by
  have hxo := h.absent.2 hx
  have he := isEmpty_iff P ty st
  by_cases hg : given P ty st = .empty
  · rw [if_neg (by simp [hg])]
    refine ⟨_, by simp only [ctorF, hxo, he.2 hg, if_true]; rfl, ?_⟩
    rw [hg]; exact h.set (by simp [Rep])
  · have hf : isEmpty P ty st = false := by
      cases h' : isEmpty P ty st
      · rfl
      · exact absurd (he.1 h') hg
    split
    · rename_i hc; simp [ctorF, hxo, hf, hc.2]
    · rename_i hc
      have ht : P.ctorThrows ty st = false := by
        cases h' : P.ctorThrows ty st
        · rfl
        · exact absurd ⟨hg, h'⟩ hc
      refine ⟨_, by simp [ctorF, hxo, hf, ht]; rfl, ?_⟩
      rw [given_ne P ty st hg]
      exact h.set (rep_new P ty st)

/-- A world and the content of its variables. -/
structure R (P : Types) (W : World) (S : Spec) : Prop where
  rep : RV P W.obj S.sv
  tmp : S.sv 0 = none
  mem : W.mem = S.mem
  out : W.out = S.out
  dead : W.dead = S.dead

theorem andThen_some {W : World} {f : World → Option World} (h : W.dead = false) : andThen (some W) f = f W := by
  simp [andThen, h]

theorem R.upd {P : Types} {W : World} {S : Spec} (h : R P W S) {obj' : Nat → Option Obj} {sv' : Nat → Option SV}
    (hr : RV P obj' sv') (h0 : sv' 0 = none) : R P { W with obj := obj' } { S with sv := sv' } :=
  ⟨hr, h0, h.mem, h.out, h.dead⟩

theorem R.emit {P : Types} {W : World} {S : Spec} (h : R P W S) (o : Out) : R P (emit W o) (say S o) :=
  ⟨h.rep, h.tmp, h.mem, by simp [TaskTarget.emit, say, h.out], h.dead⟩

/-- Assignment of a temporary, and its destruction. -/
theorem assign_tmp {P : Types} (hn : NoThrowMove P) {W : World} {sv : Nat → Option SV} {x : Nat} {u v : SV}
    (h : RV P W.obj sv) (hd : W.dead = false) (hx : sv x = some u) (h0 : sv 0 = some v) (hx0 : x ≠ 0) :
    ∃ obj', andThen (assign P W x 0) (fun W => dtor W 0) = some { W with obj := obj' } ∧
      RV P obj' (upd (upd sv 0 none) x (some v)) := by
  obtain ⟨o1, h1, r1⟩ := assign_ok hn h hx0 hx h0
  obtain ⟨o2, h2, r2⟩ := dtor_ok (W := { W with obj := o1 }) (x := 0) (v := from_ v) r1
    (by simp [upd, Ne.symm hx0])
  refine ⟨o2, ?_, ?_⟩
  · rw [h1, andThen_some (by exact hd)]; exact h2
  · rwa [upd_comm _ _ _ hx0, upd_upd] at r2

/-- The observers. -/
theorem pointer_empty {P : Types} {o : Obj} (h : Rep P (some o) (some .empty)) :
    pointer o = some none ∧ targetType o = none := by
  obtain ⟨vt, sl⟩ := o
  cases vt <;> cases sl <;> simp [Rep] at h <;> exact ⟨rfl, rfl⟩

theorem pointer_holds {P : Types} {o : Obj} {ty st : Nat} (h : Rep P (some o) (some (.holds ty st))) :
    pointer o = some (some st) ∧ targetType o = some ty := by
  obtain ⟨vt, sl⟩ := o
  cases vt <;> cases sl <;> simp [Rep] at h
  · obtain ⟨-, rfl, rfl⟩ := h; exact ⟨rfl, rfl⟩
  · obtain ⟨rfl, rfl⟩ := h; exact ⟨rfl, rfl⟩

theorem decay_id {m : Nat → Nat} {r : Ret} (h : ∀ a, r ≠ .ref a) : decay m r = r := by
  cases r <;> simp_all [decay]

theorem R.run {P : Types} (hn : NoThrowMove P) (hf : NoRef P) {W : World} {S S' : Spec} (h : R P W S)
    (hd : S.dead = false) {a : Op} (hs : specRun P S a = some S') :
    ∃ W', TaskTarget.run P W a = some W' ∧ R P W' S' := by
  have hdw : W.dead = false := h.dead.trans hd
  cases a with
  | ctor x =>
    simp only [specRun] at hs; split at hs <;> cases hs; rename_i hc
    refine ⟨_, by simp only [TaskTarget.run, ctor, h.rep.absent.2 hc.2]; rfl, h.upd (h.rep.set (by simp [Rep])) ?_⟩
    rw [upd_ne _ _ (by omega), h.tmp]
  | ctorF x ty st =>
    simp only [specRun] at hs; split at hs <;> try cases hs
    rename_i hc
    have hk := ctorF_ok (ty := ty) (st := st) h.rep hc.2
    split at hs <;> cases hs <;> rename_i hg
    · rw [if_pos hg] at hk; exact ⟨_, hk, h.emit _⟩
    · rw [if_neg hg] at hk
      obtain ⟨o', h1, h2⟩ := hk
      exact ⟨_, h1, h.upd h2 (by rw [upd_ne _ _ (by omega), h.tmp])⟩
  | moveCtor x y =>
    simp only [specRun] at hs; split at hs <;> try cases hs
    rename_i v hv
    split at hs <;> cases hs; rename_i hc
    obtain ⟨o', h1, h2⟩ := moveCtor_ok hn h.rep hc.2 hv
    have hy : y ≠ 0 := by rintro rfl; simp [h.tmp] at hv
    exact ⟨_, h1, h.upd h2 (by rw [upd_ne _ _ (by omega), upd_ne _ _ (Ne.symm hy), h.tmp])⟩
  | assign x y =>
    simp only [specRun] at hs; split at hs <;> try cases hs
    rename_i u v hu hv
    split at hs <;> cases hs; rename_i hc
    obtain ⟨o', h1, h2⟩ := assign_ok hn h.rep hc hu hv
    have hy : y ≠ 0 := by rintro rfl; simp [h.tmp] at hv
    have hx : x ≠ 0 := by rintro rfl; simp [h.tmp] at hu
    exact ⟨_, h1, h.upd h2 (by rw [upd_ne _ _ (Ne.symm hx), upd_ne _ _ (Ne.symm hy), h.tmp])⟩
  | assignF x ty st =>
    simp only [specRun] at hs; split at hs <;> try cases hs
    rename_i hc
    obtain ⟨u, hu⟩ := Option.ne_none_iff_exists'.1 hc
    have hx : x ≠ 0 := by rintro rfl; simp [h.tmp] at hu
    have hk := ctorF_ok (ty := ty) (st := st) h.rep h.tmp
    split at hs <;> cases hs <;> rename_i hg
    · rw [if_pos hg] at hk
      refine ⟨TaskTarget.emit W .threw, ?_, h.emit _⟩
      have : (TaskTarget.emit W .threw).obj 0 = none := h.rep.absent.2 h.tmp
      simp only [TaskTarget.run, assignF, hk, this]
    · rw [if_neg hg] at hk
      obtain ⟨o', h1, h2⟩ := hk
      obtain ⟨o0, ho0, -⟩ := h2.present (upd_self _ _ _)
      obtain ⟨o2, h3, r3⟩ := assign_tmp hn (W := { W with obj := o' }) (x := x) (u := u) h2 hdw
        (by rw [upd_ne _ _ hx, hu]) (upd_self _ _ _) hx
      refine ⟨{ W with obj := o2 }, ?_, h.upd ?_ ?_⟩
      · simp only [TaskTarget.run, assignF, h1, ho0]; exact h3
      · have e : TaskTarget.upd S.sv 0 none = S.sv := by
          have := upd_same S.sv 0; rwa [h.tmp] at this
        rwa [upd_upd, e] at r3
      · rw [upd_ne _ _ (Ne.symm hx), h.tmp]
  | reset x =>
    simp only [specRun] at hs; split at hs <;> cases hs
    rename_i hc
    obtain ⟨u, hu⟩ := Option.ne_none_iff_exists'.1 hc
    have hx : x ≠ 0 := by rintro rfl; simp [h.tmp] at hu
    have h2 : RV P (TaskTarget.upd W.obj 0 (some ⟨.empty, .raw⟩)) (TaskTarget.upd S.sv 0 (some .empty)) :=
      h.rep.set (by simp [Rep])
    obtain ⟨o2, h3, r3⟩ := assign_tmp hn (W := { W with obj := TaskTarget.upd W.obj 0 (some ⟨.empty, .raw⟩) })
      (x := x) (u := u) h2 hdw (by rw [upd_ne _ _ hx, hu]) (upd_self _ _ _) hx
    refine ⟨{ W with obj := o2 }, ?_, h.upd ?_ ?_⟩
    · simp only [TaskTarget.run, reset, ctor, h.rep.absent.2 h.tmp]
      rw [andThen_some (by exact hdw)]; exact h3
    · have e : TaskTarget.upd S.sv 0 none = S.sv := by
        have := upd_same S.sv 0; rwa [h.tmp] at this
      rwa [upd_upd, e] at r3
    · rw [upd_ne _ _ (Ne.symm hx), h.tmp]
  | swap x y =>
    simp only [specRun] at hs; split at hs <;> try cases hs
    rename_i v w hv hw
    split at hs <;> cases hs; rename_i hc
    have hy : y ≠ 0 := by rintro rfl; simp [h.tmp] at hw
    have hx : x ≠ 0 := by rintro rfl; simp [h.tmp] at hv
    obtain ⟨o1, h1, r1⟩ := moveCtor_ok hn h.rep h.tmp hv
    obtain ⟨o2, h2, r2⟩ := assign_ok hn (W := { W with obj := o1 }) (x := x) (y := y) (u := from_ v) (v := w) r1 hc
      (by simp [TaskTarget.upd, hx]) (by simp [TaskTarget.upd, hy, Ne.symm hc, hw])
    obtain ⟨o3, h3, r3⟩ := assign_tmp hn (W := { W with obj := o2 }) (x := y) (u := from_ w) (v := v) r2 hdw
      (by simp [TaskTarget.upd, Ne.symm hc]) (by simp [TaskTarget.upd, Ne.symm hx, Ne.symm hy]) hy
    refine ⟨{ W with obj := o3 }, ?_, h.upd ?_ ?_⟩
    · simp only [TaskTarget.run, swap, h1]
      rw [andThen_some (by exact hdw), h2, andThen_some (by exact hdw)]; exact h3
    · have e : TaskTarget.upd (TaskTarget.upd S.sv x (some w)) y (some v) =
          TaskTarget.upd (TaskTarget.upd (TaskTarget.upd (TaskTarget.upd (TaskTarget.upd (TaskTarget.upd S.sv x
            (some (from_ v))) 0 (some v)) y (some (from_ w))) x (some w)) 0 none) y (some v) := by
        funext i
        simp only [TaskTarget.upd]
        by_cases h1 : i = y
        · simp [h1]
        · by_cases h2 : i = 0
          · simp [h2, Ne.symm hx, Ne.symm hy, h.tmp]
          · by_cases h3 : i = x <;> simp [h1, h2, h3, hx, hc]
      rw [e]; exact r3
    · simp [TaskTarget.upd, Ne.symm hx, Ne.symm hy, h.tmp]
  | dtor x =>
    simp only [specRun] at hs; split at hs <;> cases hs
    rename_i hc
    obtain ⟨u, hu⟩ := Option.ne_none_iff_exists'.1 hc
    have hx : x ≠ 0 := by rintro rfl; simp [h.tmp] at hu
    obtain ⟨o', h1, h2⟩ := dtor_ok h.rep hu
    exact ⟨_, h1, h.upd h2 (by rw [upd_ne _ _ (Ne.symm hx), h.tmp])⟩
  | call x arg =>
    simp only [specRun] at hs; split at hs <;> try cases hs
    · rename_i hv
      obtain ⟨o, ho, hr⟩ := h.rep.present hv
      obtain ⟨vt, sl⟩ := o
      cases vt <;> cases sl <;> simp [Rep] at hr
      simp only [TaskTarget.run, call, ho]
      split at hs <;> cases hs <;> rename_i hx
      · rw [if_pos hx]; exact ⟨_, rfl, h.rep, h.tmp, h.mem, h.out, rfl⟩
      · rw [if_neg hx]; exact ⟨_, rfl, h.emit _⟩
    · rename_i ty st hv
      have hx : x ≠ 0 := by rintro rfl; simp [h.tmp] at hv
      obtain ⟨o, ho, hr⟩ := h.rep.present hv
      obtain ⟨vt, sl⟩ := o
      have h0 : TaskTarget.upd S.sv x (some (.holds ty (P.call ty st arg S.mem).2.1)) 0 = none := by
        rw [upd_ne _ _ (Ne.symm hx), h.tmp]
      cases vt <;> cases sl <;> simp [Rep] at hr
      · obtain ⟨hsm, rfl, rfl⟩ := hr
        refine ⟨_, by simp only [TaskTarget.run, call, ho]; rfl, ?_⟩
        rw [decay_id (hf _ _ _ _), h.mem]
        exact ⟨h.rep.set (by simp [Rep, hsm]), h0, rfl, by simp [TaskTarget.emit, say, h.out], h.dead⟩
      · obtain ⟨rfl, rfl⟩ := hr
        refine ⟨_, by simp only [TaskTarget.run, call, ho]; rfl, ?_⟩
        rw [decay_id (hf _ _ _ _), h.mem]
        exact ⟨h.rep.set (by simp [Rep]), h0, rfl, by simp [TaskTarget.emit, say, h.out], h.dead⟩
  | bool x =>
    simp only [specRun] at hs; split at hs <;> cases hs <;> rename_i hv <;> obtain ⟨o, ho, hr⟩ := h.rep.present hv
    · exact ⟨_, by simp [TaskTarget.run, look, ho, toBool, (pointer_empty hr).1], h.emit _⟩
    · exact ⟨_, by simp [TaskTarget.run, look, ho, toBool, (pointer_holds hr).1], h.emit _⟩
  | isNull x =>
    simp only [specRun] at hs; split at hs <;> cases hs <;> rename_i hv <;> obtain ⟨o, ho, hr⟩ := h.rep.present hv
    · exact ⟨_, by simp [TaskTarget.run, look, ho, toBool, (pointer_empty hr).1], h.emit _⟩
    · exact ⟨_, by simp [TaskTarget.run, look, ho, toBool, (pointer_holds hr).1], h.emit _⟩
  | notNull x =>
    simp only [specRun] at hs; split at hs <;> cases hs <;> rename_i hv <;> obtain ⟨o, ho, hr⟩ := h.rep.present hv
    · exact ⟨_, by simp [TaskTarget.run, look, ho, toBool, (pointer_empty hr).1], h.emit _⟩
    · exact ⟨_, by simp [TaskTarget.run, look, ho, toBool, (pointer_holds hr).1], h.emit _⟩
  | type x =>
    simp only [specRun] at hs; split at hs <;> cases hs <;> rename_i hv <;> obtain ⟨o, ho, hr⟩ := h.rep.present hv
    · exact ⟨_, by simp [TaskTarget.run, look, ho, (pointer_empty hr).2], h.emit _⟩
    · exact ⟨_, by simp [TaskTarget.run, look, ho, (pointer_holds hr).2], h.emit _⟩
  | target x t =>
    simp only [specRun] at hs; split at hs <;> cases hs <;> rename_i hv <;> obtain ⟨o, ho, hr⟩ := h.rep.present hv
    · exact ⟨_, by simp [TaskTarget.run, look, ho, target, (pointer_empty hr).2], h.emit _⟩
    · rename_i ty st
      refine ⟨_, ?_, h.emit _⟩
      by_cases ht : t = ty
      · simp [TaskTarget.run, look, ho, target, (pointer_holds hr).2, (pointer_holds hr).1, ht]
      · simp [TaskTarget.run, look, ho, target, (pointer_holds hr).2, ht, Ne.symm ht]
  | set x t v =>
    simp only [specRun] at hs; split at hs <;> cases hs <;> rename_i hv <;> obtain ⟨o, ho, hr⟩ := h.rep.present hv
    · exact ⟨_, by simp [TaskTarget.run, set, ho, target, (pointer_empty hr).2], h⟩
    · rename_i ty st
      have hx : x ≠ 0 := by rintro rfl; simp [h.tmp] at hv
      by_cases ht : t = ty
      · subst ht
        refine ⟨_, by simp [TaskTarget.run, set, ho, target, (pointer_holds hr).2, (pointer_holds hr).1]; rfl, ?_⟩
        rw [if_pos rfl]
        refine h.upd (h.rep.set ?_) (by rw [upd_ne _ _ (Ne.symm hx), h.tmp])
        obtain ⟨vt, sl⟩ := o
        cases vt <;> cases sl <;> simp [Rep] at hr ⊢
        · exact ⟨hr.1, hr.2.1⟩
        · exact hr.1
      · refine ⟨W, ?_, by rw [if_neg ht]; exact h⟩
        simp [TaskTarget.run, set, ho, target, (pointer_holds hr).2, Ne.symm ht]

theorem R.exec {P : Types} (hn : NoThrowMove P) (hf : NoRef P) {W : World} {S S' : Spec} (h : R P W S)
    (hd : S.dead = false) {as : List Op} (hs : specExec P S as = some S') :
    ∃ W', TaskTarget.exec P W as = some W' ∧ R P W' S' := by
  induction as generalizing W S with
  | nil => cases hs; exact ⟨W, rfl, h⟩
  | cons a as ih =>
    simp only [specExec] at hs
    cases ha : specRun P S a with
    | none => rw [ha] at hs; cases hs
    | some S1 =>
      rw [ha] at hs
      obtain ⟨W1, h1, r1⟩ := h.run hn hf hd ha
      simp only [TaskTarget.exec, h1]
      cases h2 : S1.dead
      · simp only [h2] at hs
        rw [andThen_some (r1.dead.trans h2)]
        exact ih r1 h2 hs
      · simp only [h2] at hs; cases hs
        exact ⟨W1, by simp [andThen, r1.dead, h2], r1⟩

/-- In every allowed history, all that a program sees of its tasks (the results and exceptions of its calls, the
effects of the calls on memory, which tasks are empty, what `target_type` and `target` say, which constructions
and assignments throw, and whether the program is terminated) is what it would see of variables that hold the
callables themselves. In particular an assignment that throws leaves the task as it was. -/
theorem c91_task_partial (P : Types) (hn : NoThrowMove P) (hf : NoRef P) (as : List Op) (S : Spec)
    (hs : specExec P {} as = some S) :
    ∃ W, exec P {} as = some W ∧ W.out = S.out ∧ W.mem = S.mem ∧ W.dead = S.dead := by
  have h0 : R P {} {} := ⟨fun x => by simp [Rep], rfl, rfl, rfl, rfl⟩
  obtain ⟨W, h1, h2⟩ := h0.exec hn hf rfl hs
  exact ⟨W, h1, h2.out, h2.mem, h2.dead⟩

/-- Some callable types, on a machine with pointers of 8 bytes: 0 a pointer to function (null if its state is 0), 1 a
`std::function` with the task's signature (empty if 0), 2 a small counter (each call adds its argument to its
state, which it returns, and writes it to cell 0), 3 the same but large, 4 a small class whose call throws, 5 a
small class whose copy constructor throws, 6 a `std::function` with another signature (empty if 0), 7 a small class
returning a reference to cell 0, 8 a small class whose move constructor throws. -/
def demoTypes (noexc : Bool) (call7 : Bool) : Types where
  kind ty := if ty = 0 then .pointer else if ty = 1 then .sameFunction else .other
  null ty st := (ty = 0 || ty = 1 || ty = 6) && st = 0
  size ty := if ty = 3 then 64 else 16
  align _ := 8
  ctorThrows ty _ := ty = 5
  moveThrows ty _ := ty = 8 && call7
  left _ _ := 0
  call ty st arg m :=
    if ty = 4 then (.exc st, st, m)
    else if ty = 7 && call7 then (.ref 0, st, m)
    else (.val (st + arg), st + arg, upd m 0 (st + arg))
  ptrSize := 8
  maxAlign := 16
  noexc := noexc

theorem demo_noThrow (b : Bool) : NoThrowMove (demoTypes b false) := by
  intro ty st _; simp [demoTypes]

theorem demo_noRef (b : Bool) : NoRef (demoTypes b false) := by
  intro ty st arg m a
  simp only [demoTypes]
  split
  · simp
  · split <;> simp_all

def demo : List Op :=
  [.ctorF 1 2 5, .call 1 1, .moveCtor 2 1, .call 2 1, .ctorF 3 3 10, .swap 2 3, .call 2 7, .target 2 3, .target 2 2,
   .type 3, .bool 3, .assignF 3 5 0, .call 3 1, .assignF 3 0 0, .isNull 3, .type 3, .call 3 9, .assignF 3 1 4,
   .notNull 3, .ctorF 4 4 6, .call 4 0, .set 2 3 100, .call 2 1, .reset 2, .bool 2, .target 2 3, .ctorF 5 6 0, .bool 5,
   .assign 1 4, .call 1 0, .dtor 1]

def demoOut : List Out :=
  [.ret (.val 6), .ret (.val 7), .ret (.val 17), .target (some 17), .target none, .type (some 2), .bool true, .threw,
   .ret (.val 8), .bool true, .type none, .badCall, .bool true, .ret (.exc 6), .ret (.val 101), .bool false,
   .target none, .bool true, .ret (.exc 6)]

example : (specExec (demoTypes false false) {} demo).map (·.out) = some demoOut := by decide
example : (exec (demoTypes false false) {} demo).map (·.out) = some demoOut := by decide
example : (exec (demoTypes true false) {} [.ctor 1, .bool 1, .call 1 0, .bool 1]).map (fun W => (W.out, W.dead)) =
    some ([.bool false], true) := by decide

/-- An assignment `x = f` throws if the construction of the callable does, and then no task has changed (also
when small callables throw on being moved, and whatever `x` holds). -/
theorem c91_assign_throws (P : Types) (W : World) (x ty st : Nat) (h0 : W.obj 0 = none)
    (ht : P.ctorThrows ty st = true) (he : given P ty st ≠ .empty) :
    assignF P W x ty st = some { W with out := W.out ++ [.threw] } := by
  have hf : isEmpty P ty st = false := by
    cases h' : isEmpty P ty st
    · rfl
    · exact absurd ((isEmpty_iff P ty st).1 h') he
  simp [assignF, ctorF, h0, hf, ht, emit]

example : (demoTypes false true).ctorThrows 5 3 = true ∧ given (demoTypes false true) 5 3 ≠ .empty := by decide

/-- The store of a task has room for four pointers (two weak pointers), for an object of the largest
fundamental alignment and, whatever the callable, for the model of a large one; together with the two pointers in
front of it, aligned, it takes the larger of two such objects and eight pointers: a power of two if those are
(the comment in task.hpp:180-184). -/
theorem c91_layout (P : Types) :
    4 * P.ptrSize ≤ smallSize P ∧ P.maxAlign ≤ smallSize P ∧
    max P.maxAlign (2 * P.ptrSize) + smallSize P = max (2 * P.maxAlign) (8 * P.ptrSize) ∧
    ((∃ k, P.ptrSize = 2 ^ k) → (∃ k, P.maxAlign = 2 ^ k) →
      ∃ k, max P.maxAlign (2 * P.ptrSize) + smallSize P = 2 ^ k) := by
  have h : max P.maxAlign (2 * P.ptrSize) + smallSize P = max (2 * P.maxAlign) (8 * P.ptrSize) := by
    unfold smallSize; omega
  refine ⟨by unfold smallSize; omega, by unfold smallSize; omega, h, ?_⟩
  rintro ⟨k, hk⟩ ⟨l, hl⟩
  rw [h, hk, hl, Nat.max_def]
  split
  · exact ⟨k + 3, by rw [Nat.pow_add]; omega⟩
  · exact ⟨l + 1, by rw [Nat.pow_add]; omega⟩

example : smallSize (demoTypes false false) = 48 ∧ isSmall (demoTypes false false) 2 = true ∧
    isSmall (demoTypes false false) 3 = false := by decide

/-- A callable that returns a reference: the task returns a copy of what it refers to (`operator()` is declared
to return `auto`, task.hpp:265), although `result_type` is the reference type. -/
theorem c91_reference_counterexample :
    ∃ P as S W, NoThrowMove P ∧ specExec P {} as = some S ∧ exec P {} as = some W ∧
      S.out = [.ret (.ref 0)] ∧ W.out = [.ret (.val 0)] := by
  refine ⟨{ demoTypes false true with moveThrows := fun _ _ => false }, [.ctorF 1 7 0, .call 1 0], _, _,
    fun _ _ _ => rfl, rfl, rfl, rfl, rfl⟩

/-- A small callable whose move constructor throws (types are chosen to be small by size and alignment only,
task.hpp:211-213): assigning it to a task, or moving the task that holds it, ends the program. -/
theorem c91_throwing_move_counterexample :
    ∃ P, NoRef P ∧
      (∃ S W, specExec P {} [.ctor 1, .assignF 1 8 0] = some S ∧ S.dead = false ∧
        exec P {} [.ctor 1, .assignF 1 8 0] = some W ∧ W.dead = true) ∧
      (∃ S W, specExec P {} [.ctorF 1 8 0, .moveCtor 2 1] = some S ∧ S.dead = false ∧
        exec P {} [.ctorF 1 8 0, .moveCtor 2 1] = some W ∧ W.dead = true) := by
  refine ⟨{ demoTypes false true with call := fun _ st _ m => (.val 0, st, m) }, fun _ _ _ _ _ => by simp,
    ⟨_, _, rfl, rfl, rfl, rfl⟩, ⟨_, _, rfl, rfl, rfl, rfl⟩⟩

/-- A task that has been moved from: if the callable is small it says it is not empty and gives a pointer to what is
left of the callable; if it is large it says that it is empty, but that its target has the callable's type,
although there is no target of that type. -/
theorem c91_moved_from_counterexample :
    ∃ P, NoThrowMove P ∧ NoRef P ∧
      (exec P {} [.ctorF 1 2 5, .moveCtor 2 1, .bool 1, .type 1, .target 1 2]).map (·.out) =
        some [.bool true, .type (some 2), .target (some 0)] ∧
      (exec P {} [.ctorF 1 3 5, .moveCtor 2 1, .bool 1, .type 1, .target 1 3]).map (·.out) =
        some [.bool false, .type (some 3), .target none] :=
  ⟨demoTypes false false, demo_noThrow _, demo_noRef _, rfl, rfl⟩

/-- A task made from an empty `std::function` is empty only if the signatures are the same: with another
signature (or with an empty `task_` of another type) it says that it holds something. -/
theorem c91_other_function_counterexample :
    ∃ P, NoThrowMove P ∧ NoRef P ∧ P.null 1 0 = true ∧ P.null 6 0 = true ∧
      (exec P {} [.ctorF 1 1 0, .bool 1, .ctorF 2 6 0, .bool 2]).map (·.out) = some [.bool false, .bool true] :=
  ⟨demoTypes false false, demo_noThrow _, demo_noRef _, rfl, rfl, rfl⟩

end Verif.TaskTarget
