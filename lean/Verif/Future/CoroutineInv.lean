import Verif.Future.Coroutine

/-! # Invariants of the model of coroutines -/

namespace Verif.Coroutine

open Verif.Shared (Err Outcome upd)

/-- The coroutines a frame is about. -/
def Frame.cos : Frame → List Nat
  | .body i | .detach i _ | .resume i _ | .result i _ => [i]
  | .drain _ es => es

/-- The coroutines a thread is about to run. -/
def cos (fs : List Frame) : List Nat := fs.flatMap Frame.cos

@[simp] theorem cos_nil : cos [] = [] := rfl
@[simp] theorem cos_body (i : Nat) (fs : List Frame) : cos (.body i :: fs) = i :: cos fs := rfl
@[simp] theorem cos_detach (i j : Nat) (fs : List Frame) : cos (.detach i j :: fs) = i :: cos fs := rfl
@[simp] theorem cos_resume (i j : Nat) (fs : List Frame) : cos (.resume i j :: fs) = i :: cos fs := rfl
@[simp] theorem cos_result (i : Nat) (o : Outcome) (fs : List Frame) : cos (.result i o :: fs) = i :: cos fs := rfl
@[simp] theorem cos_drain (j : Nat) (es : List Nat) (fs : List Frame) : cos (.drain j es :: fs) = es ++ cos fs := rfl

theorem mem_cos {i : Nat} {fs : List Frame} : i ∈ cos fs ↔ ∃ f ∈ fs, i ∈ f.cos := by simp [cos, List.mem_flatMap]

/-- What the frame says about the status of the coroutines. -/
def FrameOk (s : St) : Frame → Prop
  | .body i => s.status i = .running
  | .detach i j => s.status i = .suspended j
  | .resume i j => s.status i = .suspended j ∧ s.out j ≠ none
  | .result i o => s.status i = .running ∧ .returned i o ∈ s.trace
  | .drain j es => s.out j ≠ none ∧ ∀ i ∈ es, s.status i = .suspended j

structure Inv (P : Prog) (s : St) : Prop where
  nodup : ∀ t, (cos (s.stack t)).Nodup
  disj : ∀ t u i, i ∈ cos (s.stack t) → i ∈ cos (s.stack u) → t = u
  tnodup : ∀ j, (s.thens j).Nodup
  tdisj : ∀ j k i, i ∈ s.thens j → i ∈ s.thens k → j = k
  tstack : ∀ t j i, i ∈ s.thens j → i ∉ cos (s.stack t)
  frames : ∀ t f, f ∈ s.stack t → FrameOk s f
  thens : ∀ i j, i ∈ s.thens j → s.status i = .suspended j ∧ s.out j = none
  hold : ∀ i j, i ∈ s.hold j ↔ s.status i = .suspended j
  hnodup : ∀ j, (s.hold j).Nodup
  co : ∀ i, P.co i = false → s.status i = .none
  out : ∀ i, P.co i = true → s.out i ≠ none → s.status i = .finished
  run : ∀ i, s.status i = .running → ∃ t, i ∈ cos (s.stack t)
  susp : ∀ i j, s.status i = .suspended j → i ∈ s.thens j ∨ ∃ t, i ∈ cos (s.stack t)

theorem upd_eq {α : Type} (f : Nat → α) (k : Nat) (v : α) (i : Nat) : upd f k v i = if i = k then v else f i := rfl

theorem inv_init (P : Prog) : Inv P (init P) := by
  constructor <;> simp [init]

theorem Inv.active {P : Prog} {s : St} (I : Inv P s) {t i : Nat} (h : i ∈ cos (s.stack t)) :
    s.status i = .running ∨ ∃ j, s.status i = .suspended j := by
  obtain ⟨f, hf, hi⟩ := mem_cos.1 h
  have := I.frames t f hf
  cases f <;> simp_all [Frame.cos, FrameOk] <;> grind

theorem frameOk_mono {s s' : St} {f : Frame} (h : FrameOk s f) (hs : ∀ i ∈ f.cos, s'.status i = s.status i)
    (ho : ∀ j, s.out j ≠ none → s'.out j ≠ none) (ht : ∀ e ∈ s.trace, e ∈ s'.trace) : FrameOk s' f := by
  cases f <;> simp_all [Frame.cos, FrameOk]

theorem inv_call {P : Prog} {s s' : St} {t i : Nat} (I : Inv P s) (h : step P s (.call t i) = .ok s') : Inv P s' := by
  simp only [step] at h
  split at h
  case isFalse => cases h
  case isTrue hc =>
  obtain ⟨-, hco, hn⟩ := hc
  cases h
  have hi : ∀ u, i ∉ cos (s.stack u) := fun u h => by have := I.active h; grind
  have ht : ∀ j, i ∉ s.thens j := fun j h => by have := I.thens _ _ h; grind
  have hh : ∀ j, i ∉ s.hold j := fun j h => by have := (I.hold _ _).1 h; grind
  constructor
  case nodup => intro u; have := I.nodup u; simp only [upd_eq]; grind [cos_body]
  case disj => intro u v k; have := I.disj u v k; simp only [upd_eq]; grind [cos_body]
  case tnodup => exact I.tnodup
  case tdisj => exact I.tdisj
  case tstack => intro u j k h; have := I.tstack u j k h; simp only [upd_eq]; grind [cos_body]
  case frames =>
    intro u f hf
    simp only [upd_eq] at hf
    by_cases h1 : f ∈ s.stack u
    · refine frameOk_mono (I.frames u f h1) (fun k hk => ?_) (fun _ h => h) (by simp +contextual)
      have : k ≠ i := fun e => hi u (mem_cos.2 ⟨f, h1, e ▸ hk⟩)
      simp [upd_eq, this]
    · have : f = .body i := by grind
      subst this
      simp [FrameOk, upd_eq]
  case thens => intro k j h; have := I.thens k j h; simp only [upd_eq]; grind
  case hold => intro k j; have := I.hold k j; simp only [upd_eq]; grind
  case hnodup => exact I.hnodup
  case co => intro k h; have := I.co k h; simp only [upd_eq]; grind
  case out => intro k h h1; have := I.out k h h1; simp only [upd_eq]; grind
  case run =>
    intro k h
    simp only [upd_eq] at h ⊢
    by_cases e : k = i
    · exact ⟨t, by simp [e]⟩
    · rw [if_neg e] at h
      obtain ⟨u, hu⟩ := I.run k h
      exact ⟨u, by grind [cos_body]⟩
  case susp =>
    intro k j h
    simp only [upd_eq] at h ⊢
    have e : k ≠ i := by grind
    rw [if_neg e] at h
    rcases I.susp k j h with h | ⟨u, hu⟩
    · exact .inl h
    · exact .inr ⟨u, by grind [cos_body]⟩

/-- The critical section that resolves `j`, when the frame `fs0` of thread `t` becomes `fs`; maybe coroutine `j` is finished. -/
theorem inv_ready {P : Prog} {s : St} {t j : Nat} {o : Outcome} {fs : List Frame} (I : Inv P s) (b : Bool)
    (h0 : s.stack t = if b then .result j o :: fs else fs) (ho : s.out j = none) (hb : P.co j = b) :
    Inv P { ready s t j o fs with status := fun k => if b = true ∧ k = j then .finished else s.status k } := by
  have hin : b = true → j ∈ cos (s.stack t) := by intro e; simp [h0, e]
  have hnd := I.nodup t
  have hdj : ∀ u, b = true → j ∈ cos (s.stack u) → u = t := fun u e h => I.disj u t j h (hin e)
  have hst : b = true → s.status j = .running := by
    intro e
    have := I.frames t (.result j o) (by simp [h0, e])
    exact this.1
  have hfs : ∀ k, k ∈ cos fs → k ∈ cos (s.stack t) := by intro k hk; rw [h0]; split <;> simp [hk]
  have hjn : b = true → j ∉ cos fs := by intro e; rw [h0, if_pos e] at hnd; simp at hnd; exact hnd.1
  have hfnd : (cos fs).Nodup := by rw [h0] at hnd; split at hnd <;> simp_all
  have hold : ∀ u k, k ∈ cos (s.stack u) → (k = j ∧ b = true) ∨ k ∈ cos (if u = t then fs else s.stack u) := by
    intro u k hk
    by_cases e : u = t
    · subst e; rw [h0] at hk; rw [if_pos rfl]; split at hk <;> simp_all
    · rw [if_neg e]; exact .inr hk
  have hjs : b = true → ∀ k, j ∉ s.thens k := fun e k h => by have := (I.thens _ _ h).1; have := hst e; grind
  constructor
  case nodup =>
    intro u
    simp only [ready, upd_eq]
    split
    · rw [cos_drain, List.nodup_append]
      exact ⟨I.tnodup j, hfnd, fun a ha c hc e => I.tstack t j a ha (hfs _ (e ▸ hc))⟩
    · exact I.nodup u
  case disj =>
    intro u v k
    have h1 := I.disj u v k
    have h2 := I.disj u t k
    have h3 := I.disj t v k
    have h4 := I.tstack u j k
    have h5 := I.tstack v j k
    have h6 := hfs k
    simp only [ready, upd_eq]
    grind [cos_drain]
  case tnodup => intro k; simp only [ready, upd_eq]; split <;> simp [I.tnodup k]
  case tdisj => intro k l i; have := I.tdisj k l i; simp only [ready, upd_eq]; grind
  case tstack =>
    intro u k i
    have h1 := I.tstack u k i
    have h2 := hfs i
    have h3 := I.tdisj k j i
    simp only [ready, upd_eq]
    grind [cos_drain]
  case frames =>
    intro u f hf
    simp only [ready, upd_eq] at hf
    have hf' : f = .drain j (s.thens j) ∨ (f ∈ s.stack u ∧ (b = true → j ∉ f.cos)) := by
      by_cases e : u = t
      · subst e
        rw [if_pos rfl] at hf
        rcases List.mem_cons.1 hf with h | h
        · exact .inl h
        · refine .inr ⟨by rw [h0]; split <;> simp [h], fun e hj => hjn e (mem_cos.2 ⟨f, h, hj⟩)⟩
      · rw [if_neg e] at hf
        exact .inr ⟨hf, fun e' hj => e (hdj u e' (mem_cos.2 ⟨f, hf, hj⟩))⟩
    rcases hf' with rfl | ⟨h1, h2⟩
    · refine ⟨by simp [ready, upd_eq], fun i hi => ?_⟩
      have h1 := (I.thens i j hi).1
      simp only [ready]
      by_cases e : b = true
      · have : i ≠ j := fun e' => hjs e j (e' ▸ hi)
        simp [e, upd_eq, this, h1]
      · simp [e, h1]
    · refine frameOk_mono (I.frames u f h1) (fun k hk => ?_) (fun k h => ?_) (by simp +contextual [ready])
      · simp only
        by_cases e : b = true
        · have : k ≠ j := fun e' => h2 e (e' ▸ hk)
          simp [e, upd_eq, this]
        · simp [e]
      · simp only [ready, upd_eq]; split <;> simp [h]
  case thens =>
    intro i k
    have h1 := I.thens i k
    have h2 := hjs
    simp only [ready, upd_eq]
    grind
  case hold =>
    intro i k
    have h1 := I.hold i k
    simp only [ready, upd_eq]
    grind
  case hnodup => exact I.hnodup
  case co => intro k h; have := I.co k h; simp only [upd_eq]; grind
  case out =>
    intro k h h1
    have := I.out k h
    simp only [ready, upd_eq] at h1 ⊢
    grind
  case run =>
    intro k h
    have hk : k ≠ j ∨ b = false := by simp only [upd_eq] at h; grind
    have hr : s.status k = .running := by simp only [upd_eq] at h; grind
    obtain ⟨u, hu⟩ := I.run k hr
    refine ⟨u, ?_⟩
    have := hold u k hu
    simp only [ready, upd_eq]
    grind [cos_drain]
  case susp =>
    intro k l h
    have hr : s.status k = .suspended l := by simp only [upd_eq] at h; grind
    rcases I.susp k l hr with h1 | ⟨u, hu⟩
    · by_cases e : l = j
      · subst e
        exact .inr ⟨t, by simp [ready, upd_eq, h1]⟩
      · exact .inl (by simp [ready, upd_eq, e, h1])
    · refine .inr ⟨u, ?_⟩
      have := hold u k hu
      simp only [ready, upd_eq]
      grind [cos_drain]

/-- Thread `t` replaces its innermost frame by another of the same coroutine. -/
theorem inv_same {P : Prog} {s s' : St} {t i : Nat} {f g : Frame} {fs : List Frame} (I : Inv P s) (h0 : s.stack t = f :: fs)
    (hf : f.cos = [i]) (hg : g.cos = [i]) (hs : s'.stack = upd s.stack t (g :: fs)) (h1 : s'.thens = s.thens)
    (h2 : s'.out = s.out) (h3 : s'.hold = s.hold) (h4 : s'.status = s.status) (h5 : ∀ e ∈ s.trace, e ∈ s'.trace)
    (hgo : FrameOk s' g) : Inv P s' := by
  have hc : cos (g :: fs) = cos (s.stack t) := by rw [h0]; simp [cos, hf, hg]
  have hcos : ∀ u, cos (s'.stack u) = cos (s.stack u) := by
    intro u; rw [hs, upd_eq]; split
    · next e => rw [hc, e]
    · rfl
  constructor
  case frames =>
    intro u k hk
    rw [hs, upd_eq] at hk
    have : k = g ∨ k ∈ s.stack u := by grind
    rcases this with rfl | h
    · exact hgo
    · exact frameOk_mono (I.frames u k h) (by simp [h4]) (by simp [h2]) h5
  all_goals simp only [hcos, h1, h2, h3, h4]
  · exact I.nodup
  · exact I.disj
  · exact I.tnodup
  · exact I.tdisj
  · exact I.tstack
  · exact I.thens
  · exact I.hold
  · exact I.hnodup
  · exact I.co
  · exact I.out
  · exact I.run
  · exact I.susp

theorem inv_await {P : Prog} {s s' : St} {t j : Nat} {mv : Bool} (I : Inv P s) (h : step P s (.await t j mv) = .ok s') :
    Inv P s' := by
  simp only [step] at h
  split at h
  case h_2 => cases h
  case h_1 i fs h0 =>
  split at h
  case isFalse => cases h
  case isTrue hu =>
  have hr : s.status i = .running := I.frames t (.body i) (by simp [h0])
  split at h
  · cases h
    exact inv_same (f := .body i) (g := .body i) I h0 rfl rfl
      (by funext u; simp only [upd_eq]; split
          · next e => rw [e, h0]
          · rfl) rfl rfl rfl rfl (by simp +contextual) hr
  · next ho =>
    cases h
    have hnd := I.nodup t
    rw [h0, cos_body, List.nodup_cons] at hnd
    have hcos : ∀ u, cos (upd s.stack t (.detach i j :: fs) u) = cos (s.stack u) := by
      intro u; rw [upd_eq]; split
      · next e => rw [e, h0]; rfl
      · rfl
    have hij : ∀ k, i ∉ s.hold k := fun k h => by have := (I.hold _ _).1 h; grind
    have hit : ∀ k, i ∉ s.thens k := fun k h => by have := I.thens _ _ h; grind
    constructor
    case frames =>
      intro u f hf
      simp only [upd_eq] at hf
      by_cases e : f = .detach i j
      · subst e; simp [FrameOk, upd_eq]
      · have h1 : f ∈ s.stack u ∧ i ∉ f.cos := by
          by_cases eu : u = t
          · subst eu
            rw [if_pos rfl] at hf
            have h2 : f ∈ fs := by grind
            exact ⟨by rw [h0]; exact List.mem_cons_of_mem _ h2, fun h => hnd.1 (mem_cos.2 ⟨f, h2, h⟩)⟩
          · rw [if_neg eu] at hf
            exact ⟨hf, fun h => eu (I.disj u t i (mem_cos.2 ⟨f, hf, h⟩) (by simp [h0]))⟩
        refine frameOk_mono (I.frames u f h1.1) (fun k hk => ?_) (fun _ h => h) (by simp +contextual)
        have : k ≠ i := fun e => h1.2 (e ▸ hk)
        simp [upd_eq, this]
    case hold => intro k l; have := I.hold k l; have := hij; simp only [upd_eq]; grind
    case hnodup => intro l; have := I.hnodup l; have := hij l; simp only [upd_eq]; grind
    case co => intro k h; have := I.co k h; simp only [upd_eq]; grind
    case out => intro k h h1; have := I.out k h h1; simp only [upd_eq]; grind
    case run => intro k h; have := I.run k; simp only [hcos]; simp only [upd_eq] at h; grind
    case susp =>
      intro k l h
      simp only [hcos]
      by_cases e : k = i
      · exact .inr ⟨t, by simp [h0, e]⟩
      · exact I.susp k l (by simpa [upd_eq, e] using h)
    case thens => intro k l h; have := I.thens k l h; have := hit l; simp only [upd_eq]; grind
    all_goals simp only [hcos]
    · exact I.nodup
    · exact I.disj
    · exact I.tnodup
    · exact I.tdisj
    · exact I.tstack

theorem inv_ret {P : Prog} {s s' : St} {t : Nat} {o : Outcome} (I : Inv P s) (h : step P s (.ret t o) = .ok s') : Inv P s' := by
  simp only [step] at h
  split at h
  case h_2 => cases h
  case h_1 i fs h0 =>
  cases h
  have hr : s.status i = .running := I.frames t (.body i) (by simp [h0])
  exact inv_same (f := .body i) (g := .result i o) I h0 rfl rfl rfl rfl rfl rfl rfl (by simp +contextual) ⟨hr, by simp⟩

/-- The critical section in `_detach`: the coroutine goes from the stack to `_then`. -/
theorem inv_queue {P : Prog} {s : St} {t i j : Nat} {fs : List Frame} (I : Inv P s) (h0 : s.stack t = .detach i j :: fs)
    (ho : s.out j = none) : Inv P { s with thens := upd s.thens j (s.thens j ++ [i]), stack := upd s.stack t fs } := by
  have hnd := I.nodup t
  rw [h0, cos_detach, List.nodup_cons] at hnd
  have hin : i ∈ cos (s.stack t) := by simp [h0]
  have hst : s.status i = .suspended j := I.frames t (.detach i j) (by simp [h0])
  have hfs : ∀ k, k ∈ cos fs → k ∈ cos (s.stack t) := by intro k hk; simp [h0, hk]
  have hit : ∀ k, i ∉ s.thens k := fun k h => I.tstack t k i h hin
  have hold : ∀ u k, k ∈ cos (s.stack u) → k = i ∨ k ∈ cos (if u = t then fs else s.stack u) := by
    intro u k hk
    by_cases e : u = t
    · subst e; rw [h0] at hk; rw [if_pos rfl]; simpa using hk
    · rw [if_neg e]; exact .inr hk
  constructor
  case nodup => intro u; have := I.nodup u; simp only [upd_eq]; grind
  case disj => intro u v k; have := I.disj u v k; have := hfs k; simp only [upd_eq]; grind
  case tnodup =>
    intro k; have := I.tnodup k; have := hit k; simp only [upd_eq]
    split
    · next e => subst e; rw [List.nodup_append]; simp [*]; grind
    · exact I.tnodup k
  case tdisj =>
    intro k l m; have := I.tdisj k l m; have := hit k; have := hit l; simp only [upd_eq]
    split <;> split <;> simp_all <;> grind
  case tstack =>
    intro u k l
    have h1 := I.tstack u k l
    have h2 := I.disj u t l
    have h3 := hfs l
    simp only [upd_eq]
    split <;> split <;> simp_all <;> grind
  case frames =>
    intro u f hf
    simp only [upd_eq] at hf
    have h1 : f ∈ s.stack u := by grind
    exact frameOk_mono (I.frames u f h1) (fun _ _ => rfl) (fun _ h => h) (fun _ h => h)
  case thens =>
    intro k l; have := I.thens k l; simp only [upd_eq]
    split
    · next e => subst e; simp; grind
    · exact this
  case hold => exact I.hold
  case hnodup => exact I.hnodup
  case co => exact I.co
  case out => exact I.out
  case run =>
    intro k h
    obtain ⟨u, hu⟩ := I.run k h
    have : k ≠ i := by grind
    exact ⟨u, by have := hold u k hu; simp only [upd_eq]; grind⟩
  case susp =>
    intro k l h
    rcases I.susp k l h with h1 | ⟨u, hu⟩
    · exact .inl (by simp only [upd_eq]; split <;> simp_all)
    · rcases hold u k hu with rfl | h2
      · have : l = j := by simp_all
        exact .inl (by simp [upd_eq, this])
      · exact .inr ⟨u, by simp only [upd_eq]; exact h2⟩

/-- The coroutine is resumed. -/
theorem inv_resume {P : Prog} {s : St} {t i j : Nat} {fs : List Frame} {e : Event} (I : Inv P s)
    (h0 : s.stack t = .resume i j :: fs) :
    Inv P { s with status := upd s.status i .running, hold := upd s.hold j ((s.hold j).erase i),
                   stack := upd s.stack t (.body i :: fs), trace := s.trace ++ [e] } := by
  have hnd := I.nodup t
  rw [h0, cos_resume, List.nodup_cons] at hnd
  have hcos : ∀ u, cos (upd s.stack t (.body i :: fs) u) = cos (s.stack u) := by
    intro u; rw [upd_eq]; split
    · next e => rw [e, h0]; rfl
    · rfl
  have hin : i ∈ cos (s.stack t) := by simp [h0]
  have hst : s.status i = .suspended j := (I.frames t (.resume i j) (by simp [h0])).1
  have hit : ∀ k, i ∉ s.thens k := fun k h => I.tstack t k i h hin
  constructor
  case frames =>
    intro u f hf
    simp only [upd_eq] at hf
    by_cases e : f = .body i
    · subst e; simp [FrameOk, upd_eq]
    · have h1 : f ∈ s.stack u ∧ i ∉ f.cos := by
        by_cases eu : u = t
        · subst eu
          rw [if_pos rfl] at hf
          have h2 : f ∈ fs := by grind
          exact ⟨by rw [h0]; exact List.mem_cons_of_mem _ h2, fun h => hnd.1 (mem_cos.2 ⟨f, h2, h⟩)⟩
        · rw [if_neg eu] at hf
          exact ⟨hf, fun h => eu (I.disj u t i (mem_cos.2 ⟨f, hf, h⟩) hin)⟩
      refine frameOk_mono (I.frames u f h1.1) (fun k hk => ?_) (fun _ h => h) (by simp +contextual)
      have : k ≠ i := fun e => h1.2 (e ▸ hk)
      simp [upd_eq, this]
  case hold =>
    intro k l
    have h1 := I.hold k l
    have h2 := I.hnodup j
    have h3 := h2.mem_erase_iff (a := k) (b := i)
    simp only [upd_eq]
    grind
  case hnodup => intro l; have := I.hnodup l; simp only [upd_eq]; split
                 · next e => exact (I.hnodup j).erase _
                 · exact this
  case co => intro k h; have := I.co k h; simp only [upd_eq]; grind
  case out => intro k h h1; have := I.out k h h1; simp only [upd_eq]; grind
  case run =>
    intro k h; simp only [hcos]
    by_cases e : k = i
    · exact ⟨t, e ▸ hin⟩
    · exact I.run k (by simpa [upd_eq, e] using h)
  case susp =>
    intro k l h
    simp only [hcos]
    exact I.susp k l (by simp only [upd_eq] at h; grind)
  case thens => intro k l h; have := I.thens k l h; have := hit l; simp only [upd_eq]; grind
  all_goals simp only [hcos]
  · exact I.nodup
  · exact I.disj
  · exact I.tnodup
  · exact I.tdisj
  · exact I.tstack

/-- Thread `t` changes its frames, which are about the same coroutines. -/
theorem inv_perm {P : Prog} {s : St} {t : Nat} {fs : List Frame} (I : Inv P s) (hc : cos fs = cos (s.stack t))
    (hok : ∀ f ∈ fs, FrameOk s f) : Inv P { s with stack := upd s.stack t fs } := by
  have hcos : ∀ u, cos (upd s.stack t fs u) = cos (s.stack u) := by
    intro u; rw [upd_eq]; split
    · next e => rw [e, hc]
    · rfl
  constructor
  case frames =>
    intro u f hf
    simp only [upd_eq] at hf
    split at hf
    · exact frameOk_mono (hok f hf) (fun _ _ => rfl) (fun _ h => h) (fun _ h => h)
    · exact frameOk_mono (I.frames u f hf) (fun _ _ => rfl) (fun _ h => h) (fun _ h => h)
  all_goals simp only [hcos]
  · exact I.nodup
  · exact I.disj
  · exact I.tnodup
  · exact I.tdisj
  · exact I.tstack
  · exact I.thens
  · exact I.hold
  · exact I.hnodup
  · exact I.co
  · exact I.out
  · exact I.run
  · exact I.susp

/-- The result of a coroutine whose future is gone. -/
theorem inv_gone {P : Prog} {s : St} {t i : Nat} {o : Outcome} {fs : List Frame} (I : Inv P s)
    (h0 : s.stack t = .result i o :: fs) :
    Inv P { s with status := upd s.status i .finished, stack := upd s.stack t fs } := by
  have hnd := I.nodup t
  rw [h0, cos_result, List.nodup_cons] at hnd
  have hin : i ∈ cos (s.stack t) := by simp [h0]
  have hst : s.status i = .running := (I.frames t (.result i o) (by simp [h0])).1
  have hfs : ∀ k, k ∈ cos fs → k ∈ cos (s.stack t) := by intro k hk; simp [h0, hk]
  have hit : ∀ k, i ∉ s.thens k := fun k h => I.tstack t k i h hin
  have hco : P.co i = true := by
    cases h : P.co i with
    | false => have := I.co i h; grind
    | true => rfl
  have hold : ∀ u k, k ∈ cos (s.stack u) → k = i ∨ k ∈ cos (if u = t then fs else s.stack u) := by
    intro u k hk
    by_cases e : u = t
    · subst e; rw [h0] at hk; rw [if_pos rfl]; simpa using hk
    · rw [if_neg e]; exact .inr hk
  constructor
  case nodup => intro u; have := I.nodup u; simp only [upd_eq]; grind
  case disj => intro u v k; have := I.disj u v k; have := hfs k; simp only [upd_eq]; grind
  case tnodup => exact I.tnodup
  case tdisj => exact I.tdisj
  case tstack => intro u k l h; have := I.tstack u k l h; have := hfs l; simp only [upd_eq]; grind
  case frames =>
    intro u f hf
    simp only [upd_eq] at hf
    have h1 : f ∈ s.stack u ∧ i ∉ f.cos := by
      by_cases eu : u = t
      · subst eu
        rw [if_pos rfl] at hf
        exact ⟨by rw [h0]; exact List.mem_cons_of_mem _ hf, fun h => hnd.1 (mem_cos.2 ⟨f, hf, h⟩)⟩
      · rw [if_neg eu] at hf
        exact ⟨hf, fun h => eu (I.disj u t i (mem_cos.2 ⟨f, hf, h⟩) hin)⟩
    refine frameOk_mono (I.frames u f h1.1) (fun k hk => ?_) (fun _ h => h) (by simp +contextual)
    have : k ≠ i := fun e => h1.2 (e ▸ hk)
    simp [upd_eq, this]
  case thens => intro k l h; have := I.thens k l h; have := hit l; simp only [upd_eq]; grind
  case hold => intro k l; have := I.hold k l; simp only [upd_eq]; grind
  case hnodup => exact I.hnodup
  case co => intro k h; have := I.co k h; simp only [upd_eq]; grind
  case out => intro k h h1; have := I.out k h h1; simp only [upd_eq]; grind
  case run =>
    intro k h
    simp only [upd_eq] at h
    have hk : k ≠ i := by grind
    obtain ⟨u, hu⟩ := I.run k (by grind)
    exact ⟨u, by have := hold u k hu; simp only [upd_eq]; grind⟩
  case susp =>
    intro k l h
    simp only [upd_eq] at h
    have hk : k ≠ i := by grind
    rcases I.susp k l (by grind) with h1 | ⟨u, hu⟩
    · exact .inl h1
    · exact .inr ⟨u, by have := hold u k hu; simp only [upd_eq]; grind⟩

theorem inv_step {P : Prog} {s s' : St} {a : Act} (I : Inv P s) (h : step P s a = .ok s') : Inv P s' := by
  cases a with
  | call t i => exact inv_call I h
  | await t j mv => exact inv_await I h
  | ret t o => exact inv_ret I h
  | drop j =>
    simp only [step] at h
    split at h <;> cases h
    constructor
    · exact I.nodup
    · exact I.disj
    · exact I.tnodup
    · exact I.tdisj
    · exact I.tstack
    · intro t f hf; exact frameOk_mono (I.frames t f hf) (fun _ _ => rfl) (fun _ h => h) (fun _ h => h)
    · exact I.thens
    · exact I.hold
    · exact I.hnodup
    · exact I.co
    · exact I.out
    · exact I.run
    · exact I.susp
  | resolve t j o =>
    simp only [step] at h
    split at h
    case isFalse => cases h
    case isTrue hc =>
    cases h
    have := inv_ready (t := t) (o := o) (fs := s.stack t) I false (by simp) hc.2.2.1 hc.2.1
    have e : (fun k => if false = true ∧ k = j then Status.finished else s.status k) = s.status := by funext k; simp
    rw [e] at this
    exact this
  | step t =>
    simp only [step] at h
    split at h
    · cases h
    · cases h
    · next i j fs h0 =>
      have hst : s.status i = .suspended j := I.frames t (.detach i j) (by simp [h0])
      split at h
      · next ho => cases h; exact inv_queue I h0 ho
      · next ho =>
        cases h
        exact inv_same (f := .detach i j) (g := .resume i j) I h0 rfl rfl rfl rfl rfl rfl rfl (fun _ h => h) ⟨hst, ho⟩
    · next i j fs h0 =>
      split at h
      · split at h
        · cases h
        · cases h; exact inv_resume I h0
      · cases h
    · next i o fs h0 =>
      split at h
      · cases h
      · next ho =>
        have ho : s.out i = none := by simpa using ho
        have hst : s.status i = .running := (I.frames t (.result i o) (by simp [h0])).1
        have hco : P.co i = true := by
          cases h : P.co i with
          | false => have := I.co i h; grind
          | true => rfl
        split at h
        · cases h
          have := inv_ready (t := t) (o := o) (fs := fs) I true (by simp [h0]) ho hco
          have e : upd s.status i .finished = fun k => if true = true ∧ k = i then .finished else s.status k := by
            funext k; simp [upd_eq]
          rw [e]
          exact this
        · cases h; exact inv_gone I h0
    · next j i es fs h0 =>
      cases h
      have hok := I.frames t (.drain j (i :: es)) (by simp [h0])
      refine inv_perm I (by simp [h0]) (fun f hf => ?_)
      simp only [FrameOk] at hok
      rcases List.mem_cons.1 hf with rfl | hf
      · exact ⟨hok.2 i (by simp), hok.1⟩
      · rcases List.mem_cons.1 hf with rfl | hf
        · exact ⟨hok.1, fun k hk => hok.2 k (by simp [hk])⟩
        · exact I.frames t f (by simp [h0, hf])
    · next j fs h0 =>
      cases h
      exact inv_perm I (by simp [h0]) (fun f hf => I.frames t f (by simp [h0, hf]))

theorem exec_inv {P : Prog} {s s' : St} {as : List Act} (I : Inv P s) (h : exec P s as = some s') : Inv P s' := by
  induction as generalizing s with
  | nil => cases h; exact I
  | cons a as ih =>
    simp only [exec] at h
    split at h
    · next hs => exact ih (inv_step I hs) h
    · cases h

theorem inv {P : Prog} {s : St} (h : Reachable P s) : Inv P s := by
  obtain ⟨as, h⟩ := h
  exact exec_inv (inv_init P) h

end Verif.Coroutine
