import Mathlib.Data.List.Nodup
import Mathlib.Data.List.Perm.Basic
import Mathlib.Data.List.Range
import Verif.MainExecutor

/-!
# Property theorems C87: the main executor
-/

namespace Verif.MainExecutor

variable {p : Platform} {s s' : St}

/-- The functions that are running. -/
def running (s : St) : List Nat := s.stack.filterMap fun
  | .task k => some k
  | .other => none

/-- The functions given to the executor on the main thread (`true`) or on other threads (`false`), in order. -/
def side (s : St) (b : Bool) (l : List Nat) : List Nat := l.filter fun k => s.posted[k]? = some b

structure Inv (p : Platform) (s : St) : Prop where
  perm : (s.proxy ++ s.queue ++ running s ++ s.freed).Perm (List.range s.posted.length)
  start : s.started.Perm (running s ++ s.finished)
  freed : s.gone = false → s.freed = s.finished
  nest : p ≠ .qt → s.stack.length ≤ 1
  proxy : p ≠ .emscripten → s.proxy = []
  gone : s.gone = true → p = .qt ∧ s.queue = []
  order : p ≠ .emscripten → ∃ d, s.started ++ s.queue ++ d = List.range s.posted.length ∧ (s.gone = false → d = [])
  sides : p = .emscripten → ∀ b, side s b (s.started ++ s.queue ++ s.proxy) = side s b (List.range s.posted.length)
  main : p = .emscripten → ∀ k ∈ s.proxy, s.posted[k]? = some false

theorem Inv.init : Inv p {} := by
  constructor <;> simp [running, side]

theorem Inv.lt (I : Inv p s) {k : Nat} (h : k ∈ s.proxy ++ s.queue ++ running s ++ s.freed) : k < s.posted.length :=
  List.mem_range.mp (I.perm.subset h)

theorem side_append (b : Bool) (l m : List Nat) : side s b (l ++ m) = side s b l ++ side s b m := by simp [side]

theorem side_post {b m : Bool} {l : List Nat} (h : ∀ k ∈ l, k < s.posted.length) (h' : s'.posted = s.posted ++ [m]) : side s' b l = side s b l := by
  unfold side
  apply List.filter_congr
  intro k hk
  rw [h', List.getElem?_append_left (h k hk)]

theorem Inv.started_lt (I : Inv p s) {k : Nat} (h : k ∈ s.started) (hp : p = .emscripten) : k < s.posted.length := by
  rcases List.mem_append.mp (I.start.subset h) with h | h
  · exact I.lt (by simp [h])
  · have hg : s.gone = false := by
      by_contra hg
      have := (I.gone (by simpa using hg)).1
      rw [hp] at this; cases this
    exact I.lt (by simp [I.freed hg, h])

theorem Inv.step (I : Inv p s) {a : Act} (h : step p s a = .ok s') : Inv p s' := by
  cases a with
  | post m =>
    simp only [MainExecutor.step] at h
    split at h
    · cases h
    · rename_i hg
      have hg : s.gone = false := by simpa using hg
      split at h
      · cases h
      · have hperm : ∀ q r, (q ++ r).Perm (s.proxy ++ s.queue ++ [s.posted.length]) →
            (q ++ r ++ running s ++ s.freed).Perm (List.range (s.posted.length + 1)) := by
          intro q r hq
          rw [List.range_succ]
          refine (((hq.append_right _).append_right _).trans ?_).trans (I.perm.append_right _)
          simp only [List.append_assoc]
          refine List.Perm.append_left _ (List.Perm.append_left _ ?_)
          rw [← List.append_assoc (running s)]
          exact List.perm_append_comm
        have hsplit : ∀ (hpe : p ≠ .emscripten), Inv p { s with posted := s.posted ++ [m], queue := s.queue ++ [s.posted.length] } := by
          intro hpe
          refine ⟨?_, I.start, I.freed, I.nest, I.proxy, ?_, ?_, fun e => absurd e hpe, fun e => absurd e hpe⟩
          · simp only [List.length_append, List.length_singleton]
            exact hperm _ _ (by rw [List.append_assoc])
          · intro hg'; simp only at hg'; rw [hg] at hg'; cases hg'
          · intro _
            obtain ⟨d, h1, h2⟩ := I.order hpe
            rw [h2 hg, List.append_nil] at h1
            refine ⟨[], ?_, fun _ => rfl⟩
            simp only [List.length_append, List.length_singleton, List.append_nil]
            rw [List.range_succ, ← h1, List.append_assoc]
        cases p with
        | qt => simp only at h; cases h; exact hsplit (by simp)
        | dispatch => simp only at h; cases h; exact hsplit (by simp)
        | emscripten =>
          have hlt : ∀ k ∈ s.started ++ s.queue ++ s.proxy, k < s.posted.length := by
            intro k hk
            simp only [List.mem_append] at hk
            rcases hk with (hk | hk) | hk
            · exact I.started_lt hk rfl
            · exact I.lt (by simp [hk])
            · exact I.lt (by simp [hk])
          have hside : ∀ (t : St), t.posted = s.posted ++ [m] → ∀ b, side t b (s.started ++ s.queue ++ s.proxy) ++ side t b [s.posted.length] = side t b (List.range (s.posted.length + 1)) := by
            intro t ht b
            rw [List.range_succ, side_append b (List.range _)]
            congr 1
            rw [side_post hlt ht, side_post (fun k hk => List.mem_range.mp hk) ht, I.sides rfl b]
          have hm : ∀ b, m = !b → ∀ (t : St), t.posted = s.posted ++ [m] → side t b [s.posted.length] = [] := by
            intro b hb t ht
            simp [side, ht, hb]
          simp only at h
          split at h
          · rename_i hmm
            cases h
            refine ⟨?_, I.start, I.freed, I.nest, I.proxy, ?_, by simp, ?_, ?_⟩
            · simp only [List.length_append, List.length_singleton]
              exact hperm _ _ (by rw [List.append_assoc])
            · intro hg'; simp only at hg'; rw [hg] at hg'; cases hg'
            · intro _ b
              simp only [List.length_append, List.length_singleton]
              rw [← hside _ rfl b]
              simp only [side_append, List.append_assoc]
              congr 2
              cases b
              · rw [hm false (by simpa using hmm) _ rfl]; simp
              · have : ∀ (t : St), t.posted = s.posted ++ [m] → side t true s.proxy = [] := by
                  intro t ht
                  rw [side_post (fun k hk => hlt k (by simp [hk])) ht]
                  simp only [side, List.filter_eq_nil_iff, decide_eq_true_eq]
                  intro k hk e
                  rw [I.main rfl k hk] at e
                  cases e
                rw [this _ rfl]; simp
            · intro _ k hk
              simp only
              rw [List.getElem?_append_left (hlt k (by simp [hk]))]
              exact I.main rfl k hk
          · rename_i hmm
            have hmm : m = false := by simpa using hmm
            subst hmm
            cases h
            refine ⟨?_, I.start, I.freed, I.nest, by simp, ?_, by simp, ?_, ?_⟩
            · simp only [List.length_append, List.length_singleton]
              refine hperm _ _ ?_
              simp only [List.append_assoc]
              exact List.Perm.append_left _ List.perm_append_comm
            · intro hg'; simp only at hg'; rw [hg] at hg'; cases hg'
            · intro _ b
              simp only [List.length_append, List.length_singleton]
              rw [← hside _ rfl b]
              simp only [side_append, List.append_assoc]
            · intro _ k hk
              simp only at hk ⊢
              rcases List.mem_append.mp hk with hk | hk
              · rw [List.getElem?_append_left (hlt k (by simp [hk]))]
                exact I.main rfl k hk
              · simp only [List.mem_singleton] at hk
                subst hk
                simp
  | proxied =>
    simp only [MainExecutor.step] at h
    split at h
    · cases h
    · rename_i k ks hk
      cases h
      have hpe : p = .emscripten := by
        by_contra hpe
        rw [I.proxy hpe] at hk
        cases hk
      have hg : s.gone = false := by
        by_contra hg
        have := (I.gone (by simpa using hg)).1
        rw [hpe] at this; cases this
      refine ⟨?_, I.start, I.freed, I.nest, fun e => absurd hpe e, ?_, fun e => absurd hpe e, ?_, ?_⟩
      · refine List.Perm.trans ?_ I.perm
        simp only [hk]
        refine List.Perm.append_right _ (List.Perm.append_right _ ?_)
        rw [← List.append_assoc]
        exact (List.perm_append_singleton k (ks ++ s.queue)).trans (by simp)
      · intro hg'; simp only at hg'; rw [hg] at hg'; cases hg'
      · intro e b
        have := I.sides e b
        rw [hk] at this
        simp only [List.append_assoc, List.singleton_append] at this ⊢
        exact this
      · intro e j hj
        exact I.main e j (by rw [hk]; exact List.mem_cons_of_mem _ hj)
  | other =>
    simp only [MainExecutor.step] at h
    split at h
    · rename_i hl
      cases h
      refine ⟨I.perm, I.start, I.freed, ?_, I.proxy, I.gone, I.order, I.sides, I.main⟩
      intro hp
      simp only [loop, hp, decide_false, Bool.or_false, List.isEmpty_iff] at hl
      simp [hl]
    · cases h
  | turn =>
    simp only [MainExecutor.step] at h
    split at h
    · cases h
    · rename_i k ks hk
      split at h
      · rename_i hl
        cases h
        refine ⟨?_, ?_, I.freed, ?_, I.proxy, ?_, ?_, ?_, I.main⟩
        · refine List.Perm.trans ?_ I.perm
          simp only [hk, running, List.filterMap_cons, List.append_assoc]
          refine List.Perm.append_left _ ?_
          exact List.perm_middle
        · simp only [running, List.filterMap_cons]
          exact (List.perm_append_singleton _ _).trans (I.start.cons k)
        · intro hp
          simp only [loop, hp, decide_false, Bool.or_false, List.isEmpty_iff] at hl
          simp [hl]
        · intro hg
          have := (I.gone hg).2
          rw [hk] at this; cases this
        · intro hp
          obtain ⟨d, h1, h2⟩ := I.order hp
          refine ⟨d, ?_, h2⟩
          rw [← h1, hk]
          simp
        · intro hp b
          have := I.sides hp b
          show side s b _ = side s b (List.range s.posted.length)
          rw [← this, hk]
          simp [side]
      · cases h
  | ret =>
    simp only [MainExecutor.step] at h
    split at h
    · cases h
    · rename_i fs hs
      cases h
      have hr : running { s with stack := fs } = running s := by simp [running, hs]
      refine ⟨?_, ?_, I.freed, ?_, I.proxy, I.gone, I.order, I.sides, I.main⟩
      · rw [hr]; exact I.perm
      · rw [hr]; exact I.start
      · intro hp; have := I.nest hp; rw [hs] at this; simp at this; simp [this]
    · rename_i k fs hs
      cases h
      have hr : running s = k :: running { s with stack := fs } := by simp [running, hs]
      refine ⟨?_, ?_, ?_, ?_, I.proxy, I.gone, I.order, I.sides, I.main⟩
      · refine List.Perm.trans ?_ I.perm
        simp only [hr, List.append_assoc, List.cons_append]
        refine List.Perm.append_left _ (List.Perm.append_left _ ?_)
        rw [← List.append_assoc]
        exact List.perm_append_singleton _ _
      · refine I.start.trans ?_
        rw [hr]
        simp only [List.cons_append]
        rw [← List.append_assoc]
        exact (List.perm_append_singleton _ _).symm
      · intro hg; simp only; rw [I.freed hg]
      · intro hp; have := I.nest hp; rw [hs] at this; simp at this; simp [this]
  | quit =>
    simp only [MainExecutor.step] at h
    split at h
    · rename_i hp
      cases h
      have hpe : p ≠ .emscripten := by rw [hp.1]; simp
      have hr : running s = [] := by simp [running, hp.2]
      refine ⟨?_, I.start, by simp, I.nest, I.proxy, fun _ => ⟨hp.1, rfl⟩, ?_, fun e => absurd e hpe, fun e => absurd e hpe⟩
      · refine List.Perm.trans ?_ I.perm
        show (s.proxy ++ [] ++ running s ++ (s.freed ++ s.queue)).Perm _
        rw [I.proxy hpe, hr]
        simp only [List.append_nil, List.nil_append]
        exact List.perm_append_comm
      · intro _
        obtain ⟨d, h1, h2⟩ := I.order hpe
        exact ⟨s.queue ++ d, by rw [← h1]; simp, by simp⟩
    · cases h

theorem Reachable.inv (h : Reachable p s) : Inv p s := by
  induction h with
  | init => exact .init
  | step _ hs ih => exact ih.step hs

/-! ## C87 -/

/-- C87. Every function given to the executor is in exactly one place: it waits, it runs, or it was deleted; and it was deleted after it has returned, or, with Qt, when the application ended. -/
theorem c87_memory (h : Reachable p s) : (s.proxy ++ s.queue ++ running s ++ s.freed).Perm (List.range s.posted.length) ∧
    (s.gone = false → s.freed = s.finished) ∧ (p ≠ .qt → s.gone = false) := by
  refine ⟨h.inv.perm, h.inv.freed, fun hp => ?_⟩
  by_contra hg
  exact hp (h.inv.gone (by simpa using hg)).1

/-- C87. No function is called twice, or before it was given to the executor, or after it was deleted. -/
theorem c87_once (h : Reachable p s) : s.started.Nodup ∧ (∀ k ∈ s.started, k < s.posted.length) ∧ ∀ k ∈ running s, k ∉ s.freed := by
  have I := h.inv
  have hn : (s.proxy ++ s.queue ++ running s ++ s.freed).Nodup := I.perm.nodup_iff.mpr List.nodup_range
  have hr : ∀ k ∈ running s, k ∉ s.freed := by
    intro k hk hf
    exact (List.nodup_append.mp hn).2.2 k (List.mem_append_right _ hk) k hf rfl
  cases hp : decide (p = .emscripten) with
  | false =>
    obtain ⟨d, h1, -⟩ := I.order (by simpa using hp)
    have hnr : (s.started ++ s.queue ++ d).Nodup := by rw [h1]; exact List.nodup_range
    refine ⟨(List.nodup_append.mp (List.nodup_append.mp hnr).1).1, ?_, hr⟩
    intro k hk
    exact List.mem_range.mp (h1 ▸ (by simp [hk]))
  | true =>
    have hp : p = .emscripten := by simpa using hp
    have hg : s.gone = false := by
      by_contra hg
      have := (I.gone (by simpa using hg)).1
      rw [hp] at this; cases this
    refine ⟨?_, fun k hk => I.started_lt hk hp, hr⟩
    rw [I.start.nodup_iff, ← I.freed hg]
    rw [List.append_assoc] at hn
    exact (List.nodup_append.mp hn).2.1

/-- C87, order (Qt, libdispatch): the functions are called in the order in which they were given to the executor, none is passed over. -/
theorem c87_order_partial (h : Reachable p s) (hp : p ≠ .emscripten) : s.started <+: List.range s.posted.length := by
  obtain ⟨d, h1, -⟩ := h.inv.order hp
  exact ⟨s.queue ++ d, by rw [← h1, List.append_assoc]⟩

/-- C87, order (Emscripten): this holds for the functions given to the executor on the main thread, and for those given to it on other threads. Missing:
the order between the two, see `c87_order_counterexample`. -/
theorem c87_order_sides_partial (h : Reachable .emscripten s) (b : Bool) :
    (s.started.filter fun k => s.posted[k]? = some b) <+: (List.range s.posted.length).filter fun k => s.posted[k]? = some b := by
  have := h.inv.sides rfl b
  rw [side_append, side_append] at this
  exact ⟨side s b s.queue ++ side s b s.proxy, by rw [← List.append_assoc]; exact this⟩

/-- C87 (libdispatch, Emscripten). A function is never called while other code runs on the main thread, and no other code runs on it until the function returns. -/
theorem c87_not_nested_partial (h : Reachable p s) (hp : p ≠ .qt) {k : Nat} (hk : .task k ∈ s.stack) : s.stack = [.task k] := by
  have := h.inv.nest hp
  match hs : s.stack, this, hk with
  | [f], _, hk => simp only [List.mem_singleton] at hk; rw [hk]
  | f :: g :: fs, h, _ => simp at h

/-- C87. When the main thread has nothing to do any more, all functions have been called, have returned, and are deleted (with Qt, unless the application ended). -/
theorem c87_complete (h : Reachable p s) (hg : s.gone = false) (h1 : step p s .proxied = .no) (h2 : step p s .turn = .no) (h3 : step p s .ret = .no) :
    s.started.Perm (List.range s.posted.length) ∧ s.finished.Perm (List.range s.posted.length) ∧ s.freed = s.finished := by
  have I := h.inv
  have e3 : s.stack = [] := by
    simp only [step] at h3
    split at h3
    · assumption
    · cases h3
    · cases h3
  have e1 : s.proxy = [] := by
    simp only [step] at h1
    split at h1
    · assumption
    · cases h1
  have e2 : s.queue = [] := by
    simp only [step] at h2
    split at h2
    · assumption
    · rw [if_pos (by simp [loop, e3])] at h2; cases h2
  have hr : running s = [] := by simp [running, e3]
  have hp := I.perm
  have hs := I.start
  rw [e1, e2, hr, I.freed hg] at hp
  rw [hr] at hs
  simp only [List.nil_append] at hp hs
  exact ⟨hs.trans hp, hp, I.freed hg⟩

/-- What the main thread has to do. -/
def work (s : St) : Nat := 3 * s.proxy.length + 2 * s.queue.length + s.stack.length

/-- C87. Each of these steps leaves the main thread with less to do. -/
theorem c87_progress {a : Act} (ha : a = .proxied ∨ a = .turn ∨ a = .ret) (h : step p s a = .ok s') : work s' < work s := by
  rcases ha with rfl | rfl | rfl
  · simp only [step] at h
    split at h
    · cases h
    · rename_i hk; cases h; simp [work, hk]; omega
  · simp only [step] at h
    split at h
    · cases h
    · rename_i hk
      split at h
      · cases h; simp [work, hk]; omega
      · cases h
  · simp only [step] at h
    split at h
    · cases h
    · rename_i hk; cases h; simp [work, hk]
    · rename_i hk; cases h; simp [work, hk]

/-- With Qt, it is undefined behaviour to use the executor after the application has ended, and only then. -/
theorem c87_defined_partial (h : Reachable p s) (a : Act) : step p s a = .ub ↔ ∃ m, a = .post m ∧ s.gone = true := by
  cases a with
  | post m =>
    simp only [step]
    by_cases hg : s.gone = true
    · simp [hg]
    · rw [if_neg hg]
      simp only [hg, and_false, exists_false, iff_false, Bool.false_eq_true]
      split
      · simp
      · cases p <;> simp only <;> (try split) <;> simp
  | proxied => simp only [step]; split <;> simp
  | other => simp only [step]; split <;> simp
  | turn => simp only [step]; split <;> (try split) <;> simp
  | ret => simp only [step]; split <;> simp
  | quit => simp only [step]; split <;> simp

/-! Concrete runs. -/

/-- Perform the actions in turn (from last to first). -/
def run (p : Platform) : List Act → Option St
  | [] => some {}
  | a :: as => match run p as with
    | some s => match step p s a with
      | .ok s' => some s'
      | _ => none
    | none => none

theorem run_reachable {as : List Act} (h : run p as = some s) : Reachable p s := by
  induction as generalizing s with
  | nil => cases h; exact .init
  | cons a as ih =>
    simp only [run] at h
    split at h
    · rename_i s' hs
      split at h
      · rename_i s'' hs'
        cases h
        exact .step (ih hs) hs'
      · cases h
    · cases h

/-- Emscripten: function 0 is given to the executor on another thread, function 1 after that on the main thread; function 1 is called first. -/
theorem c87_order_counterexample : ∃ s, Reachable .emscripten s ∧ s.started = [1, 0] :=
  ⟨_, run_reachable (as := [.turn, .ret, .turn, .proxied, .ret, .post true, .other, .post false]) rfl, rfl⟩

/-- Qt: function 0 runs an event loop, which calls function 1. -/
theorem c87_nested_counterexample : ∃ s, Reachable .qt s ∧ s.stack = [.task 1, .task 0] :=
  ⟨_, run_reachable (as := [.turn, .turn, .post false, .post false]) rfl, rfl⟩

/-- Qt: a function is given to the executor after the application has ended. -/
theorem c87_defined_counterexample : ∃ s, Reachable .qt s ∧ step .qt s (.post false) = .ub :=
  ⟨_, run_reachable (as := [.quit]) rfl, rfl⟩

example : ∃ s, Reachable .emscripten s ∧ s.started = [0, 1, 2] ∧ s.freed = [0, 1] ∧ s.stack = [.task 2] :=
  ⟨_, run_reachable (as := [.turn, .proxied, .ret, .turn, .ret, .turn, .ret, .proxied, .proxied, .other, .post false, .post false, .post false]) rfl, rfl, rfl, rfl⟩

example : ∃ s, Reachable .dispatch s ∧ step .dispatch s .proxied = .no ∧ step .dispatch s .turn = .no ∧ step .dispatch s .ret = .no ∧ s.finished = [0, 1] :=
  ⟨_, run_reachable (as := [.ret, .turn, .ret, .post true, .turn, .post false]) rfl, rfl, rfl, rfl, rfl⟩

end Verif.MainExecutor
