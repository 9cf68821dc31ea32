import Verif.Channel.InvCts

namespace Verif.Channel

variable {G : Net} {s : St}

attribute [local grind =] upd Pc.of Pc.pre Pc.post Pc.pend Pc.unsent Pc.tocall Pc.fresh
  Pc.sending Pc.inside Pc.ending Pc.rest Pc.closes Pc.readies isEmpty

theorem pcm_end (I : Inv G s) {j i : Nat} (ho1 : (s.pc j).of = some i) (p : Pc) (i' : Nat) :
    pcm (upd s.pc j p) (upd s.main i none) i' = if i' = i then .none else pcm s.pc s.main i' := by
  by_cases hi : i' = i
  · simp [pcm, upd, hi]
  · have := pcm_goto I ho1 p i'
    simp only [hi, ↓reduceIte] at this ⊢
    rw [← this]; simp [pcm, upd, hi]

theorem Inv.done_final (W : G.Wf) (I : Inv G s) {j i : Nat} (h : s.pc j = .taskDone i) (hf : s.final i = true) :
    Inv G { s with
      pc := upd s.pc j (.clear ((s.down i).map fun e => (e.1, .up i e.2)))
      running := upd s.running i false
      main := upd s.main i none
      down := upd s.down i []
      clr := upd s.clr i (some j) } := by
  have ho1 : (s.pc j).of = some i := by rw [h]; rfl
  have hm : s.main i = some j := (I.mn i j).1 ho1
  have hp : pcm s.pc s.main i = .taskDone i := by rw [pcm_some hm, h]
  have ho : s.owed i = [] := I.pre i (by rw [hp]; rfl)
  have hd : s.down i = G.down i ∧ s.clr i = none := by
    rcases I.dn i with h | h
    · exact h
    · rw [hm] at h; cases h.2.2
  have hci : pcm s.pc s.clr i = .none := pcm_none hd.2
  have hdn : (s.down i).Nodup := hd.1 ▸ W.nodup i
  have hnd : ((s.down i).map fun e => (e.1, SOwner.up i e.2)).Nodup := by
    refine List.Pairwise.map _ ?_ hdn
    rintro ⟨a, b⟩ ⟨c, d⟩ h h'
    cases h'
    exact h rfl
  have hmem : ∀ x, x ∈ ((s.down i).map fun e => (e.1, SOwner.up i e.2)) ↔ ∃ k, x.2 = .up i k ∧ (x.1, k) ∈ s.down i := by
    rintro ⟨a, b⟩
    simp only [List.mem_map, Prod.mk.injEq, Prod.exists]
    constructor
    · rintro ⟨a', b', h, rfl, rfl⟩; exact ⟨b', rfl, h⟩
    · rintro ⟨k, rfl, h⟩; exact ⟨a, k, h, rfl, rfl⟩
  have hme : ∀ d i' k, (d, SOwner.up i' k) ∈ ((s.down i).map fun e => (e.1, SOwner.up i e.2)) ↔ i' = i ∧ (d, k) ∈ s.down i := by
    intro d i' k; rw [hmem]; grind
  have hcj : ∀ i', s.clr i' ≠ some j := by
    intro i' h'; have := (I.cp i' j h').1; rw [ho1] at this; cases this
  have hjn : j < s.next := by
    refine Classical.byContradiction fun hj => ?_
    have := I.fr j (by omega); rw [h] at this; cases this
  generalize ((s.down i).map fun e => (e.1, SOwner.up i e.2)) = es at *
  have hg := pcm_end I ho1 (.clear es)
  have hc : ∀ i', pcm (upd s.pc j (.clear es)) (upd s.clr i (some j)) i' = if i' = i then .clear es else pcm s.pc s.clr i' := by
    intro i'
    by_cases hi : i' = i
    · simp [pcm, upd, hi]
    · have := pcm_clr I ho1 (.clear es) i'
      simp only [hi, ↓reduceIte]
      rw [← this]; simp [pcm, upd, hi]
  constructor
  all_goals dsimp only
  case fr => have h_fr := I.fr; clear I; grind
  case mn => have h_mn := I.mn; have h_fr := I.fr; clear I; grind
  case rn => have h_rn := I.rn; clear I; grind
  case rn' => have h_rnp := I.rn'; clear I; grind
  case sl => have h_sl := I.sl; clear I; grind
  case nd => have h_nd := I.nd; clear I; grind
  case pre => have h_pre := I.pre; clear I; grind
  case own => have h_own := I.own; clear I; grind
  case ed => have h_ed := I.ed; clear I; grind
  case cr => have h_cr := I.cr; have h_ex1 := I.ex1; have h_ex2 := I.ex2; clear I; grind
  case ex1 => have h_ex1 := I.ex1; have h_cr := I.cr; have h_ex2 := I.ex2; clear I; grind
  case ex2 => have h_ex2 := I.ex2; have h_cr := I.cr; have h_ex1 := I.ex1; clear I; grind
  case q1 => have h_q1 := I.q1; clear I; grind
  case un => have h_un := I.un; clear I; grind
  case pd => have h_pd := I.pd; clear I; grind
  case en => have h_en := I.en; clear I; grind
  case fi => have h_fi := I.fi; have h_en := I.en; clear I; grind
  case dn => have h_dn := I.dn; have h_fi := I.fi; clear I; grind
  case cs => have h_cs := I.cs; clear I; grind
  case cf => have h_cf := I.cf; clear I; grind
  case sn => have h_sn := I.sn; clear I; grind
  case sd => have h_sd := I.sd; clear I; grind
  case cj => have h_cj := I.cj; have h_fr := I.fr; clear I; grind
  case rj => have h_rj := I.rj; have h_fr := I.fr; clear I; grind
  case rr => have h_rr := I.rr; clear I; grind
  case so => have h_so := I.so; clear I; grind
  case cl => have h_cl := I.cl; have h_fr := I.fr; clear I; grind
  case cn => have h_cn := I.cn; have h_fr := I.fr; clear I; grind
  case cp => have h_cp := I.cp; have h_fr := I.fr; clear I; grind
  case xt => have h_xt := I.xt; clear I; grind
  case wk => have h_wk := I.wk; have h_fi := I.fi; have h_cs := I.cs; clear I; grind
  case su => have h_su := I.su; clear I; grind
  case fa => have h_fa := I.fa; clear I; grind
  case cb => have h_cb := I.cb; clear I; grind
  case ca => have h_ca := I.ca; clear I; grind
  case fl => have h_fl := I.fl; clear I; grind

theorem Inv.done_run (I : Inv G s) {j i : Nat} (h : s.pc j = .taskDone i) (hf : s.final i = false)
    (hq : isEmpty G s i = false ∨ s.closeQ i = true) :
    Inv G { s with
      pc := upd (upd s.pc s.next (.pop i)) j .none
      running := upd s.running i true
      main := upd s.main i (some s.next)
      next := s.next + 1 } := by
  have ho1 : (s.pc j).of = some i := by rw [h]; rfl
  have hm : s.main i = some j := (I.mn i j).1 ho1
  have hp : pcm s.pc s.main i = .taskDone i := by rw [pcm_some hm, h]
  have ho : s.owed i = [] := I.pre i (by rw [hp]; rfl)
  have hj : j ≠ s.next := by rintro rfl; exact I.main_ne i hm
  have hg : ∀ i', pcm (upd (upd s.pc s.next (.pop i)) j .none) (upd s.main i (some s.next)) i' =
      if i' = i then .pop i else pcm s.pc s.main i' := by
    intro i'
    rw [upd_comm (Ne.symm hj), pcm_new (fun i' _ => I.main_ne i'), pcm_goto I ho1]
    grind
  have hc : ∀ i', pcm (upd (upd s.pc s.next (.pop i)) j .none) s.clr i' = pcm s.pc s.clr i' := by
    intro i'
    rw [upd_comm (Ne.symm hj), pcm_same _ I.clr_ne, pcm_clr I ho1]
  have hfr := I.fresh
  constructor
  all_goals dsimp only
  case fr => have h_fr := I.fr; clear I; grind
  case mn => have h_mn := I.mn; have h_fr := I.fr; clear I; grind
  case rn => have h_rn := I.rn; clear I; grind
  case rn' => have h_rnp := I.rn'; clear I; grind
  case sl => have h_sl := I.sl; clear I; grind
  case nd => have h_nd := I.nd; clear I; grind
  case pre => have h_pre := I.pre; clear I; grind
  case own => have h_own := I.own; clear I; grind
  case ed => have h_ed := I.ed; clear I; grind
  case cr => have h_cr := I.cr; have h_ex1 := I.ex1; have h_ex2 := I.ex2; clear I; grind
  case ex1 => have h_ex1 := I.ex1; have h_cr := I.cr; have h_ex2 := I.ex2; clear I; grind
  case ex2 => have h_ex2 := I.ex2; have h_cr := I.cr; have h_ex1 := I.ex1; clear I; grind
  case q1 => have h_q1 := I.q1; clear I; grind
  case un => have h_un := I.un; clear I; grind
  case pd => have h_pd := I.pd; clear I; grind
  case en => have h_en := I.en; clear I; grind
  case fi => have h_fi := I.fi; have h_en := I.en; clear I; grind
  case dn => have h_dn := I.dn; have h_fi := I.fi; clear I; grind
  case cs => have h_cs := I.cs; clear I; grind
  case cf => have h_cf := I.cf; clear I; grind
  case sn => have h_sn := I.sn; clear I; grind
  case sd => have h_sd := I.sd; clear I; grind
  case cj => have h_cj := I.cj; have h_fr := I.fr; clear I; grind
  case rj => have h_rj := I.rj; have h_fr := I.fr; clear I; grind
  case rr => have h_rr := I.rr; clear I; grind
  case so => have h_so := I.so; clear I; grind
  case cl => have h_cl := I.cl; have h_fr := I.fr; clear I; grind
  case cn => have h_cn := I.cn; have h_fr := I.fr; clear I; grind
  case cp => have h_cp := I.cp; have h_fr := I.fr; clear I; grind
  case xt => have h_xt := I.xt; clear I; grind
  case wk => have h_wk := I.wk; have h_fi := I.fi; clear I; grind
  case su => have h_su := I.su; clear I; grind
  case fa => have h_fa := I.fa; clear I; grind
  case cb => have h_cb := I.cb; clear I; grind
  case ca => have h_ca := I.ca; clear I; grind
  case fl => have h_fl := I.fl; clear I; grind

theorem Inv.done_rest (I : Inv G s) {j i : Nat} (h : s.pc j = .taskDone i) (hf : s.final i = false)
    (hq : ¬(isEmpty G s i = false ∨ s.closeQ i = true)) :
    Inv G { s with
      pc := upd s.pc j .none
      running := upd s.running i false
      main := upd s.main i none } := by
  have ho1 : (s.pc j).of = some i := by rw [h]; rfl
  have hm : s.main i = some j := (I.mn i j).1 ho1
  have hp : pcm s.pc s.main i = .taskDone i := by rw [pcm_some hm, h]
  have ho : s.owed i = [] := I.pre i (by rw [hp]; rfl)
  have hg := pcm_end I ho1 .none
  have hc := pcm_clr I ho1 .none
  constructor
  all_goals dsimp only
  case fr => have h_fr := I.fr; clear I; grind
  case mn => have h_mn := I.mn; have h_fr := I.fr; clear I; grind
  case rn => have h_rn := I.rn; clear I; grind
  case rn' => have h_rnp := I.rn'; clear I; grind
  case sl => have h_sl := I.sl; clear I; grind
  case nd => have h_nd := I.nd; clear I; grind
  case pre => have h_pre := I.pre; clear I; grind
  case own => have h_own := I.own; clear I; grind
  case ed => have h_ed := I.ed; clear I; grind
  case cr => have h_cr := I.cr; have h_ex1 := I.ex1; have h_ex2 := I.ex2; clear I; grind
  case ex1 => have h_ex1 := I.ex1; have h_cr := I.cr; have h_ex2 := I.ex2; clear I; grind
  case ex2 => have h_ex2 := I.ex2; have h_cr := I.cr; have h_ex1 := I.ex1; clear I; grind
  case q1 => have h_q1 := I.q1; clear I; grind
  case un => have h_un := I.un; clear I; grind
  case pd => have h_pd := I.pd; clear I; grind
  case en => have h_en := I.en; clear I; grind
  case fi => have h_fi := I.fi; have h_en := I.en; clear I; grind
  case dn => have h_dn := I.dn; have h_fi := I.fi; clear I; grind
  case cs => have h_cs := I.cs; clear I; grind
  case cf => have h_cf := I.cf; clear I; grind
  case sn => have h_sn := I.sn; clear I; grind
  case sd => have h_sd := I.sd; clear I; grind
  case cj => have h_cj := I.cj; have h_fr := I.fr; clear I; grind
  case rj => have h_rj := I.rj; have h_fr := I.fr; clear I; grind
  case rr => have h_rr := I.rr; clear I; grind
  case so => have h_so := I.so; clear I; grind
  case cl => have h_cl := I.cl; have h_fr := I.fr; clear I; grind
  case cn => have h_cn := I.cn; have h_fr := I.fr; clear I; grind
  case cp => have h_cp := I.cp; have h_fr := I.fr; clear I; grind
  case xt => have h_xt := I.xt; clear I; grind
  case wk => have h_wk := I.wk; have h_fi := I.fi; clear I; grind
  case su => have h_su := I.su; clear I; grind
  case fa => have h_fa := I.fa; clear I; grind
  case cb => have h_cb := I.cb; clear I; grind
  case ca => have h_ca := I.ca; clear I; grind
  case fl => have h_fl := I.fl; clear I; grind

theorem Inv.taskDone (W : G.Wf) (I : Inv G s) {j i : Nat} (h : s.pc j = .taskDone i) : Inv G (Channel.taskDone G j i s) := by
  unfold Channel.taskDone
  dsimp only
  by_cases hf : s.final i = true
  · have := I.fi i hf
    have hq : ¬(isEmpty G s i = false ∨ s.closeQ i = true) := by simp [this]
    rw [if_neg hq, if_pos hf]
    have := I.done_final W h hf
    simpa only [goto, decide_eq_false hq] using this
  · have hf' : s.final i = false := by simpa using hf
    by_cases hq : isEmpty G s i = false ∨ s.closeQ i = true
    · rw [if_pos hq, if_neg (by exact hf)]
      have := I.done_run h hf' hq
      simpa only [goto, run, decide_eq_true hq, upd_upd] using this
    · rw [if_neg hq, if_neg hf]
      have := I.done_rest h hf' hq
      simpa only [goto, run, decide_eq_false hq] using this

theorem pcm_clr_other {j : Nat} (p : Pc) (i' : Nat) :
    pcm (upd s.pc j p) s.clr i' = if s.clr i' = some j then p else pcm s.pc s.clr i' := by
  unfold pcm
  split
  · rename_i j' hj
    by_cases h : j' = j <;> simp [upd, h, hj]
  · rename_i hj
    simp [hj]

theorem clear_cl (I : Inv G s) {j : Nat} {x : Nat × SOwner} {es : List (Nat × SOwner)} (h : s.pc j = .clear (x :: es)) {p : Pc}
    (hp : p.rest = es) (j' : Nat) (y : Nat × SOwner) (hy : y ∈ (upd s.pc j p j').rest) :
    ∃ i k, y.2 = .up i k ∧ s.clr i = some j' := by
  refine I.cl j' y ?_
  by_cases hj : j' = j
  · subst hj
    simp only [upd, ↓reduceIte, hp] at hy
    rw [h]
    exact List.mem_cons_of_mem _ hy
  · simpa [upd, hj] using hy

theorem Inv.clear_more (I : Inv G s) {j d : Nat} {o : SOwner} {es : List (Nat × SOwner)} (h : s.pc j = .clear ((d, o) :: es))
    (hn : s.snd d - 1 ≠ 0) :
    Inv G { s with
      pc := upd s.pc j (.clear es)
      snd := upd s.snd d (s.snd d - 1)
      sown := upd s.sown d ((s.sown d).erase o) } := by
  have hof : (s.pc j).of = none := by rw [h]; rfl
  have hg := pcm_other I hof (.clear es)
  have hc := pcm_clr_other (s := s) (j := j) (.clear es)
  obtain ⟨i, k, ho, hi⟩ := I.cl j (d, o) (by rw [h]; simp [Pc.rest])
  simp only at ho
  subst ho
  have hcn := I.cn j
  simp only [h, Pc.rest, List.nodup_cons] at hcn
  have hci : pcm s.pc s.clr i = .clear ((d, .up i k) :: es) := by simp [pcm, hi, h]
  have hcj : ∀ i', s.clr i' = some j → pcm s.pc s.clr i' = .clear ((d, .up i k) :: es) := by
    intro i' h'; simp [pcm, h', h]
  have hin : .up i k ∈ s.sown d := (I.so i d k).2 (.inr (by rw [hci]; simp [Pc.rest]))
  have hme := mem_erase_nd (I.sd d) (.up i k)
  have hle := length_erase_mem hin
  have hnd : ((s.sown d).erase (.up i k)).Nodup := (I.sd d).erase _
  have hne : (s.sown d).erase (.up i k) ≠ [] := by
    intro h0; rw [h0] at hle; have := I.sn d; simp at hle; omega
  have hne' : s.sown d ≠ [] := List.ne_nil_of_mem hin
  have hnotd : (d, k) ∉ s.down i := by
    rcases I.dn i with h' | h'
    · rw [h'.2] at hi; cases hi
    · rw [h'.1]; simp
  have hjn : j < s.next := (I.cp i j hi).2.2
  generalize (s.sown d).erase (.up i k) = ow at *
  constructor
  all_goals dsimp only
  case fr => have h_fr := I.fr; clear I; grind
  case mn => have h_mn := I.mn; have h_fr := I.fr; clear I; grind
  case rn => have h_rn := I.rn; clear I; grind
  case rn' => have h_rnp := I.rn'; clear I; grind
  case sl => have h_sl := I.sl; clear I; grind
  case nd => have h_nd := I.nd; clear I; grind
  case pre => have h_pre := I.pre; clear I; grind
  case own => have h_own := I.own; clear I; grind
  case ed => have h_ed := I.ed; clear I; grind
  case cr => have h_cr := I.cr; have h_ex1 := I.ex1; have h_ex2 := I.ex2; clear I; grind
  case ex1 => have h_ex1 := I.ex1; have h_cr := I.cr; have h_ex2 := I.ex2; clear I; grind
  case ex2 => have h_ex2 := I.ex2; have h_cr := I.cr; have h_ex1 := I.ex1; clear I; grind
  case q1 => have h_q1 := I.q1; clear I; grind
  case un => have h_un := I.un; clear I; grind
  case pd => have h_pd := I.pd; clear I; grind
  case en => have h_en := I.en; clear I; grind
  case fi => have h_fi := I.fi; have h_en := I.en; clear I; grind
  case dn => have h_dn := I.dn; have h_fi := I.fi; clear I; grind
  case cs => have h_cs := I.cs; clear I; grind
  case cf => have h_cf := I.cf; clear I; grind
  case sn => have h_sn := I.sn; clear I; grind
  case sd => have h_sd := I.sd; clear I; grind
  case cj => have h_cj := I.cj; have h_fr := I.fr; clear I; grind
  case rj => have h_rj := I.rj; have h_fr := I.fr; clear I; grind
  case rr => have h_rr := I.rr; clear I; grind
  case so => have h_so := I.so; clear I; grind
  case cl => exact clear_cl I h rfl
  case cn => have h_cn := I.cn; have h_fr := I.fr; clear I; grind
  case cp => have h_cp := I.cp; have h_fr := I.fr; clear I; grind
  case xt => have h_xt := I.xt; clear I; grind
  case wk => have h_wk := I.wk; have h_fi := I.fi; clear I; grind
  case su => have h_su := I.su; clear I; grind
  case fa => have h_fa := I.fa; clear I; grind
  case cb => have h_cb := I.cb; clear I; grind
  case ca => have h_ca := I.ca; clear I; grind
  case fl => have h_fl := I.fl; clear I; grind

theorem Inv.clear_zero (I : Inv G s) {j d : Nat} {o : SOwner} {es : List (Nat × SOwner)} (h : s.pc j = .clear ((d, o) :: es))
    (hn : s.snd d - 1 = 0) :
    Inv G { s with
      pc := upd s.pc j (.close2 d es)
      snd := upd s.snd d (s.snd d - 1)
      sown := upd s.sown d ((s.sown d).erase o)
      clsJob := upd s.clsJob d (some j) } := by
  have hof : (s.pc j).of = none := by rw [h]; rfl
  have hg := pcm_other I hof (.close2 d es)
  have hc := pcm_clr_other (s := s) (j := j) (.close2 d es)
  obtain ⟨i, k, ho, hi⟩ := I.cl j (d, o) (by rw [h]; simp [Pc.rest])
  simp only at ho
  subst ho
  have hcn := I.cn j
  simp only [h, Pc.rest, List.nodup_cons] at hcn
  have hci : pcm s.pc s.clr i = .clear ((d, .up i k) :: es) := by simp [pcm, hi, h]
  have hcj : ∀ i', s.clr i' = some j → pcm s.pc s.clr i' = .clear ((d, .up i k) :: es) := by
    intro i' h'; simp [pcm, h', h]
  have hin : .up i k ∈ s.sown d := (I.so i d k).2 (.inr (by rw [hci]; simp [Pc.rest]))
  have hme := mem_erase_nd (I.sd d) (.up i k)
  have hle := length_erase_mem hin
  have hnd : ((s.sown d).erase (.up i k)).Nodup := (I.sd d).erase _
  have hne : (s.sown d).erase (.up i k) = [] := List.eq_nil_of_length_eq_zero (by have := I.sn d; omega)
  have hne' : s.sown d ≠ [] := List.ne_nil_of_mem hin
  have hnotd : (d, k) ∉ s.down i := by
    rcases I.dn i with h' | h'
    · rw [h'.2] at hi; cases hi
    · rw [h'.1]; simp
  have hjn : j < s.next := (I.cp i j hi).2.2
  have hcs : ¬(s.closeQ d = true ∨ s.final d = true ∨ s.clsJob d ≠ none) := fun h => hne' ((I.cs d).2 h)
  generalize (s.sown d).erase (.up i k) = ow at *
  constructor
  all_goals dsimp only
  case fr => have h_fr := I.fr; clear I; grind
  case mn => have h_mn := I.mn; have h_fr := I.fr; clear I; grind
  case rn => have h_rn := I.rn; clear I; grind
  case rn' => have h_rnp := I.rn'; clear I; grind
  case sl => have h_sl := I.sl; clear I; grind
  case nd => have h_nd := I.nd; clear I; grind
  case pre => have h_pre := I.pre; clear I; grind
  case own => have h_own := I.own; clear I; grind
  case ed => have h_ed := I.ed; clear I; grind
  case cr => have h_cr := I.cr; have h_ex1 := I.ex1; have h_ex2 := I.ex2; clear I; grind
  case ex1 => have h_ex1 := I.ex1; have h_cr := I.cr; have h_ex2 := I.ex2; clear I; grind
  case ex2 => have h_ex2 := I.ex2; have h_cr := I.cr; have h_ex1 := I.ex1; clear I; grind
  case q1 => have h_q1 := I.q1; clear I; grind
  case un => have h_un := I.un; clear I; grind
  case pd => have h_pd := I.pd; clear I; grind
  case en => have h_en := I.en; clear I; grind
  case fi => have h_fi := I.fi; have h_en := I.en; clear I; grind
  case dn => have h_dn := I.dn; have h_fi := I.fi; clear I; grind
  case cs => have h_cs := I.cs; clear I; grind
  case cf => have h_cf := I.cf; clear I; grind
  case sn => have h_sn := I.sn; clear I; grind
  case sd => have h_sd := I.sd; clear I; grind
  case cj => have h_cj := I.cj; have h_fr := I.fr; clear I; grind
  case rj => have h_rj := I.rj; have h_fr := I.fr; clear I; grind
  case rr => have h_rr := I.rr; clear I; grind
  case so => have h_so := I.so; clear I; grind
  case cl => exact clear_cl I h rfl
  case cn => have h_cn := I.cn; have h_fr := I.fr; clear I; grind
  case cp => have h_cp := I.cp; have h_fr := I.fr; clear I; grind
  case xt => have h_xt := I.xt; clear I; grind
  case wk => have h_wk := I.wk; have h_fi := I.fi; clear I; grind
  case su => have h_su := I.su; clear I; grind
  case fa => have h_fa := I.fa; clear I; grind
  case cb => have h_cb := I.cb; clear I; grind
  case ca => have h_ca := I.ca; clear I; grind
  case fl => have h_fl := I.fl; clear I; grind

theorem Inv.clear_nil (I : Inv G s) {j : Nat} (h : s.pc j = .clear []) : Inv G { s with pc := upd s.pc j .none } := by
  have hof : (s.pc j).of = none := by rw [h]; rfl
  have hg := pcm_other I hof .none
  have hc := pcm_clr_other (s := s) (j := j) .none
  have hcj : ∀ i', s.clr i' = some j → pcm s.pc s.clr i' = .clear [] := by
    intro i' h'; simp [pcm, h', h]
  constructor
  all_goals dsimp only
  case fr => have h_fr := I.fr; clear I; grind
  case mn => have h_mn := I.mn; have h_fr := I.fr; clear I; grind
  case rn => have h_rn := I.rn; clear I; grind
  case rn' => have h_rnp := I.rn'; clear I; grind
  case sl => have h_sl := I.sl; clear I; grind
  case nd => have h_nd := I.nd; clear I; grind
  case pre => have h_pre := I.pre; clear I; grind
  case own => have h_own := I.own; clear I; grind
  case ed => have h_ed := I.ed; clear I; grind
  case cr => have h_cr := I.cr; have h_ex1 := I.ex1; have h_ex2 := I.ex2; clear I; grind
  case ex1 => have h_ex1 := I.ex1; have h_cr := I.cr; have h_ex2 := I.ex2; clear I; grind
  case ex2 => have h_ex2 := I.ex2; have h_cr := I.cr; have h_ex1 := I.ex1; clear I; grind
  case q1 => have h_q1 := I.q1; clear I; grind
  case un => have h_un := I.un; clear I; grind
  case pd => have h_pd := I.pd; clear I; grind
  case en => have h_en := I.en; clear I; grind
  case fi => have h_fi := I.fi; have h_en := I.en; clear I; grind
  case dn => have h_dn := I.dn; have h_fi := I.fi; clear I; grind
  case cs => have h_cs := I.cs; clear I; grind
  case cf => have h_cf := I.cf; clear I; grind
  case sn => have h_sn := I.sn; clear I; grind
  case sd => have h_sd := I.sd; clear I; grind
  case cj => have h_cj := I.cj; have h_fr := I.fr; clear I; grind
  case rj => have h_rj := I.rj; have h_fr := I.fr; clear I; grind
  case rr => have h_rr := I.rr; clear I; grind
  case so => have h_so := I.so; clear I; grind
  case cl => have h_cl := I.cl; have h_fr := I.fr; clear I; grind
  case cn => have h_cn := I.cn; have h_fr := I.fr; clear I; grind
  case cp => have h_cp := I.cp; have h_fr := I.fr; clear I; grind
  case xt => have h_xt := I.xt; clear I; grind
  case wk => have h_wk := I.wk; have h_fi := I.fi; clear I; grind
  case su => have h_su := I.su; clear I; grind
  case fa => have h_fa := I.fa; clear I; grind
  case cb => have h_cb := I.cb; clear I; grind
  case ca => have h_ca := I.ca; clear I; grind
  case fl => have h_fl := I.fl; clear I; grind

theorem Inv.close2_run (I : Inv G s) {j d : Nat} {es : List (Nat × SOwner)} (h : s.pc j = .close2 d es)
    (hr : s.rcv d = 0 ∧ s.running d = false) :
    Inv G { s with
      pc := upd (upd s.pc s.next (.pop d)) j (.clear es)
      main := upd s.main d (some s.next)
      next := s.next + 1
      closeQ := upd s.closeQ d true
      running := upd s.running d true
      clsJob := upd s.clsJob d none } := by
  have hof : (s.pc j).of = none := by rw [h]; rfl
  have hj : j ≠ s.next := by rintro rfl; rw [I.fresh] at h; cases h
  have hg : ∀ i', pcm (upd (upd s.pc s.next (.pop d)) j (.clear es)) (upd s.main d (some s.next)) i' =
      if i' = d then .pop d else pcm s.pc s.main i' := by
    intro i'
    rw [upd_comm (Ne.symm hj), pcm_new (fun i' _ => I.main_ne i'), pcm_other I hof]
  have hc : ∀ i', pcm (upd (upd s.pc s.next (.pop d)) j (.clear es)) s.clr i' =
      if s.clr i' = some j then .clear es else pcm s.pc s.clr i' := by
    intro i'
    rw [upd_comm (Ne.symm hj), pcm_same _ I.clr_ne, pcm_clr_other]
  have hcj : ∀ i', s.clr i' = some j → pcm s.pc s.clr i' = .close2 d es := by
    intro i' h'; simp [pcm, h', h]
  have hcl : s.clsJob d = some j := (I.cj d j).1 (by rw [h]; rfl)
  obtain ⟨hmd, hod⟩ := I.rn d hr.2
  have hpd : pcm s.pc s.main d = .none := pcm_none hmd
  have hfr := I.fresh
  constructor
  all_goals dsimp only
  case fr => have h_fr := I.fr; clear I; grind
  case mn => have h_mn := I.mn; have h_fr := I.fr; clear I; grind
  case rn => have h_rn := I.rn; clear I; grind
  case rn' => have h_rnp := I.rn'; clear I; grind
  case sl => have h_sl := I.sl; clear I; grind
  case nd => have h_nd := I.nd; clear I; grind
  case pre => have h_pre := I.pre; clear I; grind
  case own => have h_own := I.own; clear I; grind
  case ed => have h_ed := I.ed; clear I; grind
  case cr => have h_cr := I.cr; have h_ex1 := I.ex1; have h_ex2 := I.ex2; clear I; grind
  case ex1 => have h_ex1 := I.ex1; have h_cr := I.cr; have h_ex2 := I.ex2; clear I; grind
  case ex2 => have h_ex2 := I.ex2; have h_cr := I.cr; have h_ex1 := I.ex1; clear I; grind
  case q1 => have h_q1 := I.q1; clear I; grind
  case un => have h_un := I.un; clear I; grind
  case pd => have h_pd := I.pd; clear I; grind
  case en => have h_en := I.en; clear I; grind
  case fi => have h_fi := I.fi; have h_en := I.en; have h_cf := I.cf; clear I; grind
  case dn => have h_dn := I.dn; have h_fi := I.fi; have h_cf := I.cf; clear I; grind
  case cs => have h_cs := I.cs; have h_cf := I.cf; clear I; grind
  case cf => have h_cf := I.cf; clear I; grind
  case sn => have h_sn := I.sn; clear I; grind
  case sd => have h_sd := I.sd; clear I; grind
  case cj => have h_cj := I.cj; have h_fr := I.fr; clear I; grind
  case rj => have h_rj := I.rj; have h_fr := I.fr; clear I; grind
  case rr => have h_rr := I.rr; clear I; grind
  case so => have h_so := I.so; clear I; grind
  case cl => exact fun j' y hy => I.cl j' y (by grind)
  case cn => have h_cn := I.cn; have h_fr := I.fr; clear I; grind
  case cp => have h_cp := I.cp; have h_fr := I.fr; clear I; grind
  case xt => have h_xt := I.xt; clear I; grind
  case wk => have h_wk := I.wk; have h_fi := I.fi; clear I; grind
  case su => have h_su := I.su; clear I; grind
  case fa => have h_fa := I.fa; clear I; grind
  case cb => have h_cb := I.cb; clear I; grind
  case ca => have h_ca := I.ca; clear I; grind
  case fl => have h_fl := I.fl; clear I; grind

theorem Inv.close2_rest (I : Inv G s) {j d : Nat} {es : List (Nat × SOwner)} (h : s.pc j = .close2 d es)
    (hr : ¬(s.rcv d = 0 ∧ s.running d = false)) :
    Inv G { s with
      pc := upd s.pc j (.clear es)
      closeQ := upd s.closeQ d true
      clsJob := upd s.clsJob d none } := by
  have hof : (s.pc j).of = none := by rw [h]; rfl
  have hg := pcm_other I hof (.clear es)
  have hc := pcm_clr_other (s := s) (j := j) (.clear es)
  have hcj : ∀ i', s.clr i' = some j → pcm s.pc s.clr i' = .close2 d es := by
    intro i' h'; simp [pcm, h', h]
  have hcl : s.clsJob d = some j := (I.cj d j).1 (by rw [h]; rfl)
  constructor
  all_goals dsimp only
  case fr => have h_fr := I.fr; clear I; grind
  case mn => have h_mn := I.mn; have h_fr := I.fr; clear I; grind
  case rn => have h_rn := I.rn; clear I; grind
  case rn' => have h_rnp := I.rn'; clear I; grind
  case sl => have h_sl := I.sl; clear I; grind
  case nd => have h_nd := I.nd; clear I; grind
  case pre => have h_pre := I.pre; clear I; grind
  case own => have h_own := I.own; clear I; grind
  case ed => have h_ed := I.ed; clear I; grind
  case cr => have h_cr := I.cr; have h_ex1 := I.ex1; have h_ex2 := I.ex2; clear I; grind
  case ex1 => have h_ex1 := I.ex1; have h_cr := I.cr; have h_ex2 := I.ex2; clear I; grind
  case ex2 => have h_ex2 := I.ex2; have h_cr := I.cr; have h_ex1 := I.ex1; clear I; grind
  case q1 => have h_q1 := I.q1; clear I; grind
  case un => have h_un := I.un; clear I; grind
  case pd => have h_pd := I.pd; clear I; grind
  case en => have h_en := I.en; clear I; grind
  case fi => have h_fi := I.fi; have h_en := I.en; have h_cf := I.cf; clear I; grind
  case dn => have h_dn := I.dn; have h_fi := I.fi; clear I; grind
  case cs => have h_cs := I.cs; have h_cf := I.cf; clear I; grind
  case cf => have h_cf := I.cf; clear I; grind
  case sn => have h_sn := I.sn; clear I; grind
  case sd => have h_sd := I.sd; clear I; grind
  case cj => have h_cj := I.cj; have h_fr := I.fr; clear I; grind
  case rj => have h_rj := I.rj; have h_fr := I.fr; clear I; grind
  case rr => have h_rr := I.rr; clear I; grind
  case so => have h_so := I.so; clear I; grind
  case cl => exact fun j' y hy => I.cl j' y (by grind)
  case cn => have h_cn := I.cn; have h_fr := I.fr; clear I; grind
  case cp => have h_cp := I.cp; have h_fr := I.fr; clear I; grind
  case xt => have h_xt := I.xt; clear I; grind
  case wk => have h_wk := I.wk; have h_fi := I.fi; clear I; grind
  case su => have h_su := I.su; clear I; grind
  case fa => have h_fa := I.fa; clear I; grind
  case cb => have h_cb := I.cb; clear I; grind
  case ca => have h_ca := I.ca; clear I; grind
  case fl => have h_fl := I.fl; clear I; grind

theorem Inv.ready2_run (I : Inv G s) {j i : Nat} (h : s.pc j = .ready2 i)
    (hr : (isEmpty G s i = false ∨ s.closeQ i = true) ∧ s.running i = false) :
    Inv G { s with
      pc := upd (upd s.pc s.next (.pop i)) j .none
      main := upd s.main i (some s.next)
      next := s.next + 1
      running := upd s.running i true
      rdyJob := upd s.rdyJob i none } := by
  have hof : (s.pc j).of = none := by rw [h]; rfl
  have hj : j ≠ s.next := by rintro rfl; rw [I.fresh] at h; cases h
  have hg : ∀ i', pcm (upd (upd s.pc s.next (.pop i)) j .none) (upd s.main i (some s.next)) i' =
      if i' = i then .pop i else pcm s.pc s.main i' := by
    intro i'
    rw [upd_comm (Ne.symm hj), pcm_new (fun i' _ => I.main_ne i'), pcm_other I hof]
  have hcj : ∀ i', s.clr i' ≠ some j := by
    intro i' h'; have := (I.cp i' j h').2.1; rw [h] at this; cases this
  have hc : ∀ i', pcm (upd (upd s.pc s.next (.pop i)) j .none) s.clr i' = pcm s.pc s.clr i' := by
    intro i'
    rw [upd_comm (Ne.symm hj), pcm_same _ I.clr_ne, pcm_same _ hcj]
  have hcl : s.rdyJob i = some j := (I.rj i j).1 (by rw [h]; rfl)
  obtain ⟨hmd, hod⟩ := I.rn i hr.2
  have hpd : pcm s.pc s.main i = .none := pcm_none hmd
  have hfr := I.fresh
  constructor
  all_goals dsimp only
  case fr => have h_fr := I.fr; clear I; grind
  case mn => have h_mn := I.mn; have h_fr := I.fr; clear I; grind
  case rn => have h_rn := I.rn; clear I; grind
  case rn' => have h_rnp := I.rn'; clear I; grind
  case sl => have h_sl := I.sl; clear I; grind
  case nd => have h_nd := I.nd; clear I; grind
  case pre => have h_pre := I.pre; clear I; grind
  case own => have h_own := I.own; clear I; grind
  case ed => have h_ed := I.ed; clear I; grind
  case cr => have h_cr := I.cr; have h_ex1 := I.ex1; have h_ex2 := I.ex2; clear I; grind
  case ex1 => have h_ex1 := I.ex1; have h_cr := I.cr; have h_ex2 := I.ex2; clear I; grind
  case ex2 => have h_ex2 := I.ex2; have h_cr := I.cr; have h_ex1 := I.ex1; clear I; grind
  case q1 => have h_q1 := I.q1; clear I; grind
  case un => have h_un := I.un; clear I; grind
  case pd => have h_pd := I.pd; clear I; grind
  case en => have h_en := I.en; clear I; grind
  case fi => have h_fi := I.fi; have h_en := I.en; clear I; grind
  case dn => have h_dn := I.dn; have h_fi := I.fi; clear I; grind
  case cs => have h_cs := I.cs; clear I; grind
  case cf => have h_cf := I.cf; clear I; grind
  case sn => have h_sn := I.sn; clear I; grind
  case sd => have h_sd := I.sd; clear I; grind
  case cj => have h_cj := I.cj; have h_fr := I.fr; clear I; grind
  case rj => have h_rj := I.rj; have h_fr := I.fr; clear I; grind
  case rr => have h_rr := I.rr; clear I; grind
  case so => have h_so := I.so; clear I; grind
  case cl => have h_cl := I.cl; have h_fr := I.fr; clear I; grind
  case cn => have h_cn := I.cn; have h_fr := I.fr; clear I; grind
  case cp => have h_cp := I.cp; have h_fr := I.fr; clear I; grind
  case xt => have h_xt := I.xt; clear I; grind
  case wk => have h_wk := I.wk; have h_fi := I.fi; clear I; grind
  case su => have h_su := I.su; clear I; grind
  case fa => have h_fa := I.fa; clear I; grind
  case cb => have h_cb := I.cb; clear I; grind
  case ca => have h_ca := I.ca; clear I; grind
  case fl => have h_fl := I.fl; clear I; grind

theorem Inv.ready2_rest (I : Inv G s) {j i : Nat} (h : s.pc j = .ready2 i)
    (hr : ¬((isEmpty G s i = false ∨ s.closeQ i = true) ∧ s.running i = false)) :
    Inv G { s with
      pc := upd s.pc j .none
      rdyJob := upd s.rdyJob i none } := by
  have hof : (s.pc j).of = none := by rw [h]; rfl
  have hg := pcm_other I hof .none
  have hcj : ∀ i', s.clr i' ≠ some j := by
    intro i' h'; have := (I.cp i' j h').2.1; rw [h] at this; cases this
  have hc := pcm_same (pc := s.pc) .none hcj
  have hcl : s.rdyJob i = some j := (I.rj i j).1 (by rw [h]; rfl)
  constructor
  all_goals dsimp only
  case fr => have h_fr := I.fr; clear I; grind
  case mn => have h_mn := I.mn; have h_fr := I.fr; clear I; grind
  case rn => have h_rn := I.rn; clear I; grind
  case rn' => have h_rnp := I.rn'; clear I; grind
  case sl => have h_sl := I.sl; clear I; grind
  case nd => have h_nd := I.nd; clear I; grind
  case pre => have h_pre := I.pre; clear I; grind
  case own => have h_own := I.own; clear I; grind
  case ed => have h_ed := I.ed; clear I; grind
  case cr => have h_cr := I.cr; have h_ex1 := I.ex1; have h_ex2 := I.ex2; clear I; grind
  case ex1 => have h_ex1 := I.ex1; have h_cr := I.cr; have h_ex2 := I.ex2; clear I; grind
  case ex2 => have h_ex2 := I.ex2; have h_cr := I.cr; have h_ex1 := I.ex1; clear I; grind
  case q1 => have h_q1 := I.q1; clear I; grind
  case un => have h_un := I.un; clear I; grind
  case pd => have h_pd := I.pd; clear I; grind
  case en => have h_en := I.en; clear I; grind
  case fi => have h_fi := I.fi; have h_en := I.en; clear I; grind
  case dn => have h_dn := I.dn; have h_fi := I.fi; clear I; grind
  case cs => have h_cs := I.cs; clear I; grind
  case cf => have h_cf := I.cf; clear I; grind
  case sn => have h_sn := I.sn; clear I; grind
  case sd => have h_sd := I.sd; clear I; grind
  case cj => have h_cj := I.cj; have h_fr := I.fr; clear I; grind
  case rj => have h_rj := I.rj; have h_fr := I.fr; clear I; grind
  case rr => have h_rr := I.rr; clear I; grind
  case so => have h_so := I.so; clear I; grind
  case cl => have h_cl := I.cl; have h_fr := I.fr; clear I; grind
  case cn => have h_cn := I.cn; have h_fr := I.fr; clear I; grind
  case cp => have h_cp := I.cp; have h_fr := I.fr; clear I; grind
  case xt => have h_xt := I.xt; clear I; grind
  case wk => have h_wk := I.wk; have h_fi := I.fi; clear I; grind
  case su => have h_su := I.su; clear I; grind
  case fa => have h_fa := I.fa; clear I; grind
  case cb => have h_cb := I.cb; clear I; grind
  case ca => have h_ca := I.ca; clear I; grind
  case fl => have h_fl := I.fl; clear I; grind

end Verif.Channel
