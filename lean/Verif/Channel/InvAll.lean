import Verif.Channel.InvPop
import Verif.Channel.InvOwn
import Verif.Channel.InvSusp
import Verif.Channel.InvSend
import Verif.Channel.InvEnd
import Verif.Channel.InvExt

/-!
# The invariant holds in every reachable state
-/

namespace Verif.Channel

variable {G : Net} {s s' : St}

theorem Inv.stepJob (W : G.Wf) (D : G.Tight) (I : Inv G s) (H : Hist G s) {j : Nat} (h : stepJob G j s = some s') : Inv G s' := by
  unfold Channel.stepJob at h
  cases hpc : s.pc j with
  | none => rw [hpc] at h; cases h
  | dead i m => rw [hpc] at h; cases h
  | pop i =>
    rw [hpc] at h; cases h
    exact I.pop W D H hpc
  | busy i => rw [hpc] at h; cases h
  | taskDone i =>
    rw [hpc] at h; cases h
    exact I.taskDone W hpc
  | cts1 i ks m =>
    have ho1 : (s.pc j).of = some i := by rw [hpc]; rfl
    have hm : s.main i = some j := (I.mn i j).1 ho1
    have hp : pcm s.pc s.main i = .cts1 i ks m := by rw [pcm_some hm, hpc]
    cases ks with
    | nil =>
      cases m with
      | none =>
        rw [hpc] at h; cases h
        refine I.move (p' := .taskDone i) hpc rfl rfl rfl rfl rfl rfl rfl ?_ ?_ (by simp only [Pc.inside]; omega) rfl (fun _ _ => rfl) [] (by simp) rfl
          (fun _ _ => rfl) (.inl rfl) (.inl rfl) <;> simp [Pc.fresh, Pc.sending]
      | some m =>
        rw [hpc] at h
        cases h
        by_cases hv : (m.any fun x => x.2 = Msg.err) = true
        · rw [if_pos hv]
          refine I.move (p' := .dead i m) hpc rfl rfl rfl rfl rfl rfl rfl ?_ ?_ (by simp only [Pc.inside]; omega) rfl (fun _ _ => rfl) [] (by simp) rfl
            (fun _ _ => rfl) (.inl rfl) (.inl rfl) <;> simp
        rw [if_neg hv]
        refine I.move (p' := .call i m) hpc rfl rfl rfl rfl rfl rfl rfl ?_ ?_ (by simp only [Pc.inside]; omega) rfl (fun _ _ => rfl) [] (by simp) rfl
          (fun _ _ => rfl) (.inl rfl) (.inl rfl) <;> simp [Pc.fresh, Pc.sending]
    | cons k ks =>
      rw [hpc] at h
      have hk := (I.pd i).2 k (by rw [hp]; simp [Pc.pend])
      obtain ⟨u, hu⟩ := Option.ne_none_iff_exists'.1 hk.2
      have hin : .edge i k ∈ s.owed u := (I.cr u i k hu hk.1).2 (.inr (.inl (by rw [hp]; simp [Pc.pend])))
      have hf : s.final u = false := by
        refine Bool.eq_false_iff.2 fun hf => ?_
        have := (I.fi u hf).2.2.1; rw [this] at hin; cases hin
      simp only [hu, hf] at h
      cases h
      refine I.move (p' := .cts2 i (k :: ks) m) hpc rfl rfl rfl rfl rfl rfl ?_ ?_ ?_ (by simp only [Pc.inside]; omega) ?_ (fun _ _ => rfl) [] (by simp) rfl
          (fun _ _ => rfl) (.inl rfl) (.inl rfl) <;> cases m <;> simp [Pc.ending, Pc.tocall, Pc.fresh, Pc.sending]
  | cts2 i ks m =>
    have ho1 : (s.pc j).of = some i := by rw [hpc]; rfl
    have hm : s.main i = some j := (I.mn i j).1 ho1
    have hp : pcm s.pc s.main i = .cts2 i ks m := by rw [pcm_some hm, hpc]
    cases ks with
    | nil =>
      rw [hpc] at h; cases h
      refine I.move (p' := .cts1 i [] m) hpc rfl rfl rfl rfl rfl rfl ?_ ?_ ?_ (by simp only [Pc.inside]; omega) ?_ (fun _ _ => rfl) [] (by simp) rfl
          (fun _ _ => rfl) (.inl rfl) (.inl rfl) <;> cases m <;> simp [Pc.ending, Pc.tocall, Pc.fresh, Pc.sending]
    | cons k ks =>
      rw [hpc] at h
      have hk := (I.pd i).2 k (by rw [hp]; simp [Pc.pend])
      obtain ⟨u, hu⟩ := Option.ne_none_iff_exists'.1 hk.2
      simp only [hu] at h
      cases h
      exact I.cts W hpc hu
  | call i m =>
    rw [hpc] at h; cases h
    refine I.move (p' := .busy i) hpc rfl rfl rfl rfl rfl rfl rfl ?_ ?_ (by simp [Pc.inside, upd]; omega) ?_ ?_ [] (by simp) rfl
      (fun _ _ => rfl) (.inl rfl) (.inl rfl) <;> simp +contextual [Pc.fresh, Pc.sending, Pc.tocall, upd]
  | bcast i r =>
    have ho1 : (s.pc j).of = some i := by rw [hpc]; rfl
    have hm : s.main i = some j := (I.mn i j).1 ho1
    have hp : pcm s.pc s.main i = .bcast i r := by rw [pcm_some hm, hpc]
    rw [hpc] at h; cases h
    have hdn : s.down i = G.down i := by
      rcases I.dn i with h | h
      · exact h.1
      · rw [hm] at h; cases h.2.2
    by_cases hd : s.down i = []
    · rw [if_pos hd]
      refine I.move (p' := .susp i r true) hpc rfl rfl rfl rfl rfl rfl rfl ?_ ?_ (by simp only [Pc.inside]; omega) rfl (fun _ _ => rfl) [] (by simp) rfl
        (fun _ _ => rfl) (.inl rfl) (.inl rfl)
      · rintro r' b h; cases h; rfl
      · rintro r' es acc h; cases h
    · rw [if_neg hd]
      refine I.move (p' := .free i r (s.down i) sizeMax) hpc rfl rfl rfl rfl rfl rfl rfl ?_ ?_ (by simp only [Pc.inside]; omega) rfl (fun _ _ => rfl) []
        (by simp) rfl (fun _ _ => rfl) (.inl rfl) (.inl rfl)
      · rintro r' b h; cases h
      · rintro r' es acc h; cases h
        exact ⟨.inl (by rw [hdn]; exact D.one i (hdn ▸ hd)), fun _ h => h⟩
  | free i r es acc =>
    have ho1 : (s.pc j).of = some i := by rw [hpc]; rfl
    have hm : s.main i = some j := (I.mn i j).1 ho1
    have hp : pcm s.pc s.main i = .free i r es acc := by rw [pcm_some hm, hpc]
    have hfa := I.fa i r es acc hp
    cases es with
    | nil =>
      rw [hpc] at h; cases h
      refine I.move (p' := .susp i r (acc ≤ 1)) hpc rfl rfl rfl rfl rfl rfl rfl ?_ ?_ (by simp only [Pc.inside]; omega) rfl (fun _ _ => rfl) [] (by simp) rfl
        (fun _ _ => rfl) (.inl rfl) (.inl rfl)
      · rintro r' b h; cases h
        simpa using hfa.1
      · rintro r' es acc h; cases h
    | cons e es =>
      rw [hpc] at h; cases h
      have hd : s.down i = G.down i := by
        rcases I.dn i with h | h
        · exact h.1
        · rw [hm] at h; cases h.2.2
      refine I.move (p' := .free i r es (min acc (freeBuffer (G.buf e.1) (s.q e.1 e.2).length))) hpc rfl rfl rfl rfl rfl rfl rfl ?_ ?_
        (by simp only [Pc.inside]; omega) rfl (fun _ _ => rfl) [] (by simp) rfl (fun _ _ => rfl) (.inl rfl) (.inl rfl)
      · rintro r' b h; cases h
      · rintro r' es acc h; cases h
        refine ⟨?_, fun e' he' => hfa.2 e' (List.mem_cons_of_mem _ he')⟩
        have hle : ∀ a b : Nat, a ≤ 1 ∨ b ≤ 1 → min a b ≤ 1 := by intro a b; omega
        rcases hfa.1 with ⟨e', he', hb⟩ | hacc
        · rcases List.mem_cons.1 he' with rfl | he'
          · refine .inr (hle _ _ (.inr ?_))
            rw [hb]
            obtain ⟨hu, hk⟩ := (W.edges i e'.1 e'.2).1 (hd ▸ hfa.2 e' (by simp))
            have ho : s.owed i = [] := I.pre i (by rw [hp]; rfl)
            have hq : s.q e'.1 e'.2 = [] := by
              refine Classical.byContradiction fun hq => ?_
              have := (I.cr i e'.1 e'.2 hu hk).2 (.inl hq)
              rw [ho] at this; cases this
            simp [hq, freeBuffer, usub]
          · exact .inl ⟨e', he', hb⟩
        · exact .inr (hle _ _ (.inl hacc))
  | susp i r b =>
    rw [hpc] at h; cases h
    exact I.susp W hpc
  | send i r es =>
    cases es with
    | nil =>
      rw [hpc] at h; cases h
      refine I.move (p' := .own1 i) hpc rfl rfl rfl rfl rfl rfl rfl ?_ ?_ (by simp only [Pc.inside]; omega) rfl (fun _ _ => rfl) [] (by simp) rfl
        (fun _ _ => rfl) (.inl rfl) (.inr rfl) <;> simp [Pc.fresh, Pc.sending]
    | cons e es =>
      rw [hpc] at h; cases h
      exact I.send W hpc
  | own1 i =>
    have ho1 : (s.pc j).of = some i := by rw [hpc]; rfl
    have hm : s.main i = some j := (I.mn i j).1 ho1
    have hp : pcm s.pc s.main i = .own1 i := by rw [pcm_some hm, hpc]
    have hin : .own ∈ s.owed i := (I.own i).2 (by rw [hp]; rfl)
    have hf : s.final i = false := by
      refine Bool.eq_false_iff.2 fun hf => ?_
      have := (I.fi i hf).2.2.1; rw [this] at hin; cases hin
    rw [hpc] at h
    simp only [hf] at h
    cases h
    refine I.move (p' := .own2 i) hpc rfl rfl rfl rfl rfl rfl rfl ?_ ?_ (by simp only [Pc.inside]; omega) rfl (fun _ _ => rfl) [] (by simp) rfl
      (fun _ _ => rfl) (.inl rfl) (.inl rfl) <;> simp [Pc.fresh, Pc.sending]
  | own2 i =>
    rw [hpc] at h; cases h
    exact I.ownCts hpc
  | clear es =>
    cases es with
    | nil => rw [hpc] at h; cases h; exact I.clear_nil hpc
    | cons x es =>
      obtain ⟨d, o⟩ := x
      rw [hpc] at h
      dsimp only at h
      by_cases hn : s.snd d - 1 = 0
      · rw [if_pos (by simpa [upd] using hn)] at h
        cases h
        exact I.clear_zero hpc hn
      · rw [if_neg (by simpa [upd] using hn)] at h
        cases h
        exact I.clear_more hpc hn
  | close2 d es =>
    rw [hpc] at h
    dsimp only at h
    cases h
    by_cases hr : s.rcv d = 0 ∧ s.running d = false
    · rw [if_pos hr]
      have := I.close2_run hpc hr
      simpa only [goto, run, decide_eq_true hr, Bool.or_true] using this
    · rw [if_neg hr]
      have := I.close2_rest hpc hr
      have hx : upd s.running d (s.running d) = s.running := by funext x; unfold upd; split <;> simp_all
      simpa only [goto, decide_eq_false hr, Bool.or_false, hx] using this
  | ready2 i =>
    rw [hpc] at h
    dsimp only at h
    cases h
    by_cases hr : (isEmpty G s i = false ∨ s.closeQ i = true) ∧ s.running i = false
    · rw [if_pos hr]
      have := I.ready2_run hpc hr
      simpa only [goto, run, decide_eq_true hr, Bool.or_true] using this
    · rw [if_neg hr]
      have := I.ready2_rest hpc hr
      have hx : upd s.running i (s.running i) = s.running := by funext x; unfold upd; split <;> simp_all
      simpa only [goto, decide_eq_false hr, Bool.or_false, hx] using this

theorem Inv.step (W : G.Wf) (D : G.Tight) (I : Inv G s) (H : Hist G s) {a : Act} (h : step G s a = some s') :
    Inv G s' := by
  cases a with
  | job j => exact I.stepJob W D H h
  | ret j r =>
    simp only [Channel.step] at h
    split at h
    · rename_i i hpc
      cases h
      refine I.move (p' := .bcast i r) hpc rfl rfl rfl rfl rfl rfl rfl ?_ ?_ (by simp [Pc.inside, upd]; omega) rfl (fun _ _ => rfl) [r] ?_ rfl ?_
        (.inr rfl) (.inl rfl)
      · rintro _ _ h; cases h
      · rintro _ _ _ h; cases h
      · simp [upd]
      · intro i' hi; simp [upd, hi]
    · cases h
  | send i n m =>
    simp only [Channel.step] at h
    split at h
    · rename_i hs
      cases h
      exact I.ext hs
    · cases h
  | copySender i n n' =>
    simp only [Channel.step] at h
    split at h
    · rename_i hs
      cases h
      exact I.copySender hs.1 hs.2
    · cases h
  | dropSender i n =>
    simp only [Channel.step] at h
    split at h
    · rename_i hs
      by_cases hn : s.snd i - 1 = 0
      · rw [if_pos (by simpa [upd] using hn)] at h
        cases h
        exact I.drop_zero hs hn
      · rw [if_neg (by simpa [upd] using hn)] at h
        cases h
        exact I.drop_more hs hn
    · cases h
  | copyRecv i =>
    simp only [Channel.step] at h
    split at h
    · rename_i hs
      cases h
      exact I.copyRecv hs
    · cases h
  | dropRecv i =>
    simp only [Channel.step] at h
    split at h
    · rename_i hs
      by_cases hn : s.rcv i - 1 = 0
      · rw [if_pos (by simpa [upd] using hn)] at h
        cases h
        exact I.recv_zero hs hn
      · rw [if_neg (by simpa [upd] using hn)] at h
        cases h
        exact I.recv_more hs hn
    · cases h

theorem exec_snoc {as : List Act} {a : Act} {s0 : St} (h : exec G s0 as = some s) : exec G s0 (as ++ [a]) = step G s a := by
  induction as generalizing s0 with
  | nil => simp only [exec, Option.some.injEq] at h; subst h; simp [exec]
  | cons b as ih =>
    simp only [exec, List.cons_append] at *
    cases hb : step G s0 b with
    | none => simp [hb] at h
    | some s1 => simp only [hb, Option.bind_some] at *; exact ih h

theorem CleanReachable.reachable (h : CleanReachable G s) : Reachable G s := by
  induction h with
  | init => exact ⟨[], rfl⟩
  | step _ _ h ih =>
    obtain ⟨as, e⟩ := ih
    exact ⟨as ++ [_], (exec_snoc e).trans h⟩

theorem Reachable.induct {P : St → Prop} (h0 : P (init G))
    (h1 : ∀ {s s' : St} {a : Act}, Reachable G s → P s → Channel.step G s a = some s' → P s') (h : Reachable G s) : P s := by
  obtain ⟨as, e⟩ := h
  suffices ∀ (as : List Act) {s0 : St}, Reachable G s0 → P s0 → exec G s0 as = some s → P s from this as ⟨[], rfl⟩ h0 e
  intro as
  induction as with
  | nil => rintro s0 - h e; cases e; exact h
  | cons a as ih =>
    rintro s0 ⟨bs, eb⟩ h e
    simp only [exec] at e
    cases ha : Channel.step G s0 a with
    | none => simp [ha] at e
    | some s1 =>
      rw [ha] at e
      exact ih ⟨bs ++ [a], (exec_snoc eb).trans ha⟩ (h1 ⟨bs, eb⟩ h ha) e

theorem Reachable.inv (W : G.Wf) (D : G.Tight) (h : Reachable G s) : Inv G s :=
  h.induct (Inv.init W) fun hr ih h => ih.step W D (hr.hist W) h

theorem CleanReachable.inv (W : G.Wf) (D : G.Tight) (h : CleanReachable G s) : Inv G s := h.reachable.inv W D

end Verif.Channel
