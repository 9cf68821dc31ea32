import Verif.Channel.InvCts

namespace Verif.Channel

variable {G : Net} {s : St}

attribute [local grind =] upd Pc.of Pc.pre Pc.post Pc.pend Pc.unsent Pc.tocall Pc.fresh
  Pc.sending Pc.inside Pc.ending Pc.rest Pc.closes Pc.readies isEmpty

theorem enqueue_q {α : Type} {q : Nat → Nat → List α} (d k : Nat) (m : α) (d' k' : Nat) :
    upd q d (upd (q d) k (q d k ++ [m])) d' k' = if d' = d ∧ k' = k then q d k ++ [m] else q d' k' := by
  unfold upd
  by_cases h : d' = d <;> by_cases h' : k' = k <;> simp [h, h']

theorem enqueue_f {α : Type} {q : Nat → Nat → List α} (d k : Nat) (m : α) (d' : Nat) (h : d' ≠ d) :
    upd q d (upd (q d) k (q d k ++ [m])) d' = q d' := by simp [upd, h]

theorem Inv.send_more (W : G.Wf) (I : Inv G s) {j i d k : Nat} {r : Msg} {es : List Edge} (h : s.pc j = .send i r ((d, k) :: es))
    (hr : ¬(s.rcv d = 0 ∧ s.running d = false)) :
    Inv G { s with
      pc := upd s.pc j (.send i r es)
      q := upd s.q d (upd (s.q d) k (s.q d k ++ [r]))
      inp := upd s.inp d (upd (s.inp d) k (s.inp d k ++ [r])) } := by
  have ho1 : (s.pc j).of = some i := by rw [h]; rfl
  have hm : s.main i = some j := (I.mn i j).1 ho1
  have hp : pcm s.pc s.main i = .send i r ((d, k) :: es) := by rw [pcm_some hm, h]
  have hg := pcm_goto I ho1 (.send i r es)
  have hc := pcm_clr I ho1 (.send i r es)
  have hu := I.un i
  simp only [hp, Pc.unsent, List.nodup_cons, List.forall_mem_cons] at hu
  obtain ⟨⟨hdk, hes⟩, hin, hin'⟩ := hu
  have hd : s.down i = G.down i := by
    rcases I.dn i with h | h
    · exact h.1
    · rw [hm] at h; cases h.2.2
  have hup : G.up d k = some i ∧ k < G.slots d := (W.edges i d k).1 (hd ▸ hin)
  have hid : i < d := W.order _ _ _ hup.1
  have hq0 : s.q d k = [] := by
    refine Classical.byContradiction fun hq => ?_
    have := (I.ex1 i d k hup.1 hup.2 hq).2
    rw [hp] at this; simp [Pc.unsent] at this
  have hso : s.sown d ≠ [] := List.ne_nil_of_mem ((I.so i d k).2 (.inl hin))
  have hcs : ¬(s.closeQ d = true ∨ s.final d = true ∨ s.clsJob d ≠ none) := fun h => hso ((I.cs d).2 h)
  have hq := enqueue_q (q := s.q) d k r
  have hqf := enqueue_f (q := s.q) d k r
  have hi := enqueue_q (q := s.inp) d k r
  generalize upd s.q d (upd (s.q d) k (s.q d k ++ [r])) = q' at *
  generalize upd s.inp d (upd (s.inp d) k (s.inp d k ++ [r])) = inp' at *
  constructor
  all_goals dsimp only
  case fr => have h_fr := I.fr; clear I; grind
  case mn => have h_mn := I.mn; have h_fr := I.fr; clear I; grind
  case rn => have h_rn := I.rn; clear I; grind
  case rn' => have h_rnp := I.rn'; clear I; grind
  case sl => have h_sl := I.sl; clear I; grind
  case nd => have h_nd := I.nd; clear I; grind
  case pre => have h_pre := I.pre; clear I; grind
  case own => have h_own := I.own; clear I; grind
  case ed => have h_ed := I.ed; clear I; grind
  case cr => have h_cr := I.cr; have h_ex1 := I.ex1; have h_ex2 := I.ex2; clear I; grind
  case ex1 => have h_ex1 := I.ex1; have h_cr := I.cr; have h_ex2 := I.ex2; clear I; grind
  case ex2 => have h_ex2 := I.ex2; have h_cr := I.cr; have h_ex1 := I.ex1; clear I; grind
  case q1 => have h_q1 := I.q1; clear I; grind
  case un => have h_un := I.un; clear I; grind
  case pd => have h_pd := I.pd; clear I; grind
  case en => have h_en := I.en; clear I; grind
  case fi => have h_fi := I.fi; have h_en := I.en; clear I; grind
  case dn => have h_dn := I.dn; have h_fi := I.fi; clear I; grind
  case cs => have h_cs := I.cs; clear I; grind
  case cf => have h_cf := I.cf; clear I; grind
  case sn => have h_sn := I.sn; clear I; grind
  case sd => have h_sd := I.sd; clear I; grind
  case cj => have h_cj := I.cj; have h_fr := I.fr; clear I; grind
  case rj => have h_rj := I.rj; have h_fr := I.fr; clear I; grind
  case rr => have h_rr := I.rr; clear I; grind
  case so => have h_so := I.so; clear I; grind
  case cl => have h_cl := I.cl; have h_fr := I.fr; clear I; grind
  case cn => have h_cn := I.cn; have h_fr := I.fr; clear I; grind
  case cp => have h_cp := I.cp; have h_fr := I.fr; clear I; grind
  case xt => have h_xt := I.xt; clear I; grind
  case wk => have h_wk := I.wk; have h_fi := I.fi; clear I; grind
  case su => have h_su := I.su; clear I; grind
  case fa => have h_fa := I.fa; clear I; grind
  case cb => have h_cb := I.cb; clear I; grind
  case ca => have h_ca := I.ca; clear I; grind
  case fl => have h_fl := I.fl; clear I; grind

theorem Inv.send_run (W : G.Wf) (I : Inv G s) {j i d k : Nat} {r : Msg} {es : List Edge} (h : s.pc j = .send i r ((d, k) :: es))
    (hr : s.rcv d = 0 ∧ s.running d = false) :
    Inv G { s with
      pc := upd (upd s.pc s.next (.pop d)) j (.send i r es)
      main := upd s.main d (some s.next)
      next := s.next + 1
      running := upd s.running d true
      q := upd s.q d (upd (s.q d) k (s.q d k ++ [r]))
      inp := upd s.inp d (upd (s.inp d) k (s.inp d k ++ [r])) } := by
  have ho1 : (s.pc j).of = some i := by rw [h]; rfl
  have hm : s.main i = some j := (I.mn i j).1 ho1
  have hp : pcm s.pc s.main i = .send i r ((d, k) :: es) := by rw [pcm_some hm, h]
  have hj : j ≠ s.next := by rintro rfl; exact I.main_ne i hm
  have hg : ∀ i', pcm (upd (upd s.pc s.next (.pop d)) j (.send i r es)) (upd s.main d (some s.next)) i' =
      if i' = d then .pop d else if i' = i then .send i r es else pcm s.pc s.main i' := by
    intro i'
    rw [upd_comm (Ne.symm hj), pcm_new (fun i' _ => I.main_ne i'), pcm_goto I ho1]
  have hc : ∀ i', pcm (upd (upd s.pc s.next (.pop d)) j (.send i r es)) s.clr i' = pcm s.pc s.clr i' := by
    intro i'
    rw [upd_comm (Ne.symm hj), pcm_same _ I.clr_ne, pcm_clr I ho1]
  have hu := I.un i
  simp only [hp, Pc.unsent, List.nodup_cons, List.forall_mem_cons] at hu
  obtain ⟨⟨hdk, hes⟩, hin, hin'⟩ := hu
  have hd : s.down i = G.down i := by
    rcases I.dn i with h | h
    · exact h.1
    · rw [hm] at h; cases h.2.2
  have hup : G.up d k = some i ∧ k < G.slots d := (W.edges i d k).1 (hd ▸ hin)
  have hid : i < d := W.order _ _ _ hup.1
  have hq0 : s.q d k = [] := by
    refine Classical.byContradiction fun hq => ?_
    have := (I.ex1 i d k hup.1 hup.2 hq).2
    rw [hp] at this; simp [Pc.unsent] at this
  have hso : s.sown d ≠ [] := List.ne_nil_of_mem ((I.so i d k).2 (.inl hin))
  have hcs : ¬(s.closeQ d = true ∨ s.final d = true ∨ s.clsJob d ≠ none) := fun h => hso ((I.cs d).2 h)
  obtain ⟨hmd, hod⟩ := I.rn d hr.2
  have hpd : pcm s.pc s.main d = .none := pcm_none hmd
  have hfr := I.fresh
  have hq := enqueue_q (q := s.q) d k r
  have hqf := enqueue_f (q := s.q) d k r
  have hi := enqueue_q (q := s.inp) d k r
  generalize upd s.q d (upd (s.q d) k (s.q d k ++ [r])) = q' at *
  generalize upd s.inp d (upd (s.inp d) k (s.inp d k ++ [r])) = inp' at *
  constructor
  all_goals dsimp only
  case fr => have h_fr := I.fr; clear I; grind
  case mn => have h_mn := I.mn; have h_fr := I.fr; clear I; grind
  case rn => have h_rn := I.rn; clear I; grind
  case rn' => have h_rnp := I.rn'; clear I; grind
  case sl => have h_sl := I.sl; clear I; grind
  case nd => have h_nd := I.nd; clear I; grind
  case pre => have h_pre := I.pre; clear I; grind
  case own => have h_own := I.own; clear I; grind
  case ed => have h_ed := I.ed; clear I; grind
  case cr => have h_cr := I.cr; have h_ex1 := I.ex1; have h_ex2 := I.ex2; clear I; grind
  case ex1 => have h_ex1 := I.ex1; have h_cr := I.cr; have h_ex2 := I.ex2; clear I; grind
  case ex2 => have h_ex2 := I.ex2; have h_cr := I.cr; have h_ex1 := I.ex1; clear I; grind
  case q1 => have h_q1 := I.q1; clear I; grind
  case un => have h_un := I.un; clear I; grind
  case pd => have h_pd := I.pd; clear I; grind
  case en => have h_en := I.en; clear I; grind
  case fi => have h_fi := I.fi; have h_en := I.en; clear I; grind
  case dn => have h_dn := I.dn; have h_fi := I.fi; clear I; grind
  case cs => have h_cs := I.cs; clear I; grind
  case cf => have h_cf := I.cf; clear I; grind
  case sn => have h_sn := I.sn; clear I; grind
  case sd => have h_sd := I.sd; clear I; grind
  case cj => have h_cj := I.cj; have h_fr := I.fr; clear I; grind
  case rj => have h_rj := I.rj; have h_fr := I.fr; clear I; grind
  case rr => have h_rr := I.rr; clear I; grind
  case so => have h_so := I.so; clear I; grind
  case cl => have h_cl := I.cl; have h_fr := I.fr; clear I; grind
  case cn => have h_cn := I.cn; have h_fr := I.fr; clear I; grind
  case cp => have h_cp := I.cp; have h_fr := I.fr; clear I; grind
  case xt => have h_xt := I.xt; clear I; grind
  case wk => have h_wk := I.wk; have h_fi := I.fi; clear I; grind
  case su => have h_su := I.su; clear I; grind
  case fa => have h_fa := I.fa; clear I; grind
  case cb => have h_cb := I.cb; clear I; grind
  case ca => have h_ca := I.ca; clear I; grind
  case fl => have h_fl := I.fl; clear I; grind

theorem enqueue_more {i k : Nat} {m : Msg} (hr : ¬(s.rcv i = 0 ∧ s.running i = false)) :
    enqueue i k m s = { s with q := upd s.q i (upd (s.q i) k (s.q i k ++ [m])),
                               inp := upd s.inp i (upd (s.inp i) k (s.inp i k ++ [m])) } := by
  unfold enqueue
  dsimp only
  rw [if_neg hr]

theorem enqueue_run {i k : Nat} {m : Msg} (hr : s.rcv i = 0 ∧ s.running i = false) :
    enqueue i k m s = run i { s with running := upd s.running i true, q := upd s.q i (upd (s.q i) k (s.q i k ++ [m])),
                                     inp := upd s.inp i (upd (s.inp i) k (s.inp i k ++ [m])) } := by
  unfold enqueue
  dsimp only
  rw [if_pos hr]

theorem Inv.send (W : G.Wf) (I : Inv G s) {j i : Nat} {e : Edge} {r : Msg} {es : List Edge} (h : s.pc j = .send i r (e :: es)) :
    Inv G (goto j (.send i r es) (enqueue e.1 e.2 r s)) := by
  by_cases hr : s.rcv e.1 = 0 ∧ s.running e.1 = false
  · rw [enqueue_run hr]
    exact I.send_run W h hr
  · rw [enqueue_more hr]
    exact I.send_more W h hr

theorem Inv.ext_more (I : Inv G s) {i n : Nat} {m : Msg} (hs : .ext n ∈ s.sown i)
    (hr : ¬(s.rcv i = 0 ∧ s.running i = false)) :
    Inv G { s with
      q := upd s.q i (upd (s.q i) 0 (s.q i 0 ++ [m]))
      inp := upd s.inp i (upd (s.inp i) 0 (s.inp i 0 ++ [m])) } := by
  have hso : s.sown i ≠ [] := List.ne_nil_of_mem hs
  have hcs : ¬(s.closeQ i = true ∨ s.final i = true ∨ s.clsJob i ≠ none) := fun h => hso ((I.cs i).2 h)
  have hx := I.xt i n hs
  have hq := enqueue_q (q := s.q) i 0 m
  have hqf := enqueue_f (q := s.q) i 0 m
  have hi := enqueue_q (q := s.inp) i 0 m
  generalize upd s.q i (upd (s.q i) 0 (s.q i 0 ++ [m])) = q' at *
  generalize upd s.inp i (upd (s.inp i) 0 (s.inp i 0 ++ [m])) = inp' at *
  constructor
  all_goals dsimp only
  case fr => have h_fr := I.fr; clear I; grind
  case mn => have h_mn := I.mn; have h_fr := I.fr; clear I; grind
  case rn => have h_rn := I.rn; clear I; grind
  case rn' => have h_rnp := I.rn'; clear I; grind
  case sl => have h_sl := I.sl; clear I; grind
  case nd => have h_nd := I.nd; clear I; grind
  case pre => have h_pre := I.pre; clear I; grind
  case own => have h_own := I.own; clear I; grind
  case ed => have h_ed := I.ed; clear I; grind
  case cr => have h_cr := I.cr; have h_ex1 := I.ex1; have h_ex2 := I.ex2; clear I; grind
  case ex1 => have h_ex1 := I.ex1; have h_cr := I.cr; have h_ex2 := I.ex2; clear I; grind
  case ex2 => have h_ex2 := I.ex2; have h_cr := I.cr; have h_ex1 := I.ex1; clear I; grind
  case q1 => have h_q1 := I.q1; clear I; grind
  case un => have h_un := I.un; clear I; grind
  case pd => have h_pd := I.pd; clear I; grind
  case en => have h_en := I.en; clear I; grind
  case fi => have h_fi := I.fi; have h_en := I.en; clear I; grind
  case dn => have h_dn := I.dn; have h_fi := I.fi; clear I; grind
  case cs => have h_cs := I.cs; clear I; grind
  case cf => have h_cf := I.cf; clear I; grind
  case sn => have h_sn := I.sn; clear I; grind
  case sd => have h_sd := I.sd; clear I; grind
  case cj => have h_cj := I.cj; have h_fr := I.fr; clear I; grind
  case rj => have h_rj := I.rj; have h_fr := I.fr; clear I; grind
  case rr => have h_rr := I.rr; clear I; grind
  case so => have h_so := I.so; clear I; grind
  case cl => have h_cl := I.cl; have h_fr := I.fr; clear I; grind
  case cn => have h_cn := I.cn; have h_fr := I.fr; clear I; grind
  case cp => have h_cp := I.cp; have h_fr := I.fr; clear I; grind
  case xt => have h_xt := I.xt; clear I; grind
  case wk => have h_wk := I.wk; have h_fi := I.fi; clear I; grind
  case su => have h_su := I.su; clear I; grind
  case fa => have h_fa := I.fa; clear I; grind
  case cb => have h_cb := I.cb; clear I; grind
  case ca => have h_ca := I.ca; clear I; grind
  case fl => have h_fl := I.fl; clear I; grind

theorem Inv.ext_run (I : Inv G s) {i n : Nat} {m : Msg} (hs : .ext n ∈ s.sown i)
    (hr : s.rcv i = 0 ∧ s.running i = false) :
    Inv G { s with
      pc := upd s.pc s.next (.pop i)
      main := upd s.main i (some s.next)
      next := s.next + 1
      running := upd s.running i true
      q := upd s.q i (upd (s.q i) 0 (s.q i 0 ++ [m]))
      inp := upd s.inp i (upd (s.inp i) 0 (s.inp i 0 ++ [m])) } := by
  have hso : s.sown i ≠ [] := List.ne_nil_of_mem hs
  have hcs : ¬(s.closeQ i = true ∨ s.final i = true ∨ s.clsJob i ≠ none) := fun h => hso ((I.cs i).2 h)
  have hx := I.xt i n hs
  obtain ⟨hmd, hod⟩ := I.rn i hr.2
  have hpd : pcm s.pc s.main i = .none := pcm_none hmd
  have hfr := I.fresh
  have hg := pcm_new (pc := s.pc) (u := i) (fun i' _ => I.main_ne i')
  have hc := pcm_same (pc := s.pc) (.pop i) I.clr_ne
  have hq := enqueue_q (q := s.q) i 0 m
  have hqf := enqueue_f (q := s.q) i 0 m
  have hi := enqueue_q (q := s.inp) i 0 m
  generalize upd s.q i (upd (s.q i) 0 (s.q i 0 ++ [m])) = q' at *
  generalize upd s.inp i (upd (s.inp i) 0 (s.inp i 0 ++ [m])) = inp' at *
  constructor
  all_goals dsimp only
  case fr => have h_fr := I.fr; clear I; grind
  case mn => have h_mn := I.mn; have h_fr := I.fr; clear I; grind
  case rn => have h_rn := I.rn; clear I; grind
  case rn' => have h_rnp := I.rn'; clear I; grind
  case sl => have h_sl := I.sl; clear I; grind
  case nd => have h_nd := I.nd; clear I; grind
  case pre => have h_pre := I.pre; clear I; grind
  case own => have h_own := I.own; clear I; grind
  case ed => have h_ed := I.ed; clear I; grind
  case cr => have h_cr := I.cr; have h_ex1 := I.ex1; have h_ex2 := I.ex2; clear I; grind
  case ex1 => have h_ex1 := I.ex1; have h_cr := I.cr; have h_ex2 := I.ex2; clear I; grind
  case ex2 => have h_ex2 := I.ex2; have h_cr := I.cr; have h_ex1 := I.ex1; clear I; grind
  case q1 => have h_q1 := I.q1; clear I; grind
  case un => have h_un := I.un; clear I; grind
  case pd => have h_pd := I.pd; clear I; grind
  case en => have h_en := I.en; clear I; grind
  case fi => have h_fi := I.fi; have h_en := I.en; clear I; grind
  case dn => have h_dn := I.dn; have h_fi := I.fi; clear I; grind
  case cs => have h_cs := I.cs; clear I; grind
  case cf => have h_cf := I.cf; clear I; grind
  case sn => have h_sn := I.sn; clear I; grind
  case sd => have h_sd := I.sd; clear I; grind
  case cj => have h_cj := I.cj; have h_fr := I.fr; clear I; grind
  case rj => have h_rj := I.rj; have h_fr := I.fr; clear I; grind
  case rr => have h_rr := I.rr; clear I; grind
  case so => have h_so := I.so; clear I; grind
  case cl => have h_cl := I.cl; have h_fr := I.fr; clear I; grind
  case cn => have h_cn := I.cn; have h_fr := I.fr; clear I; grind
  case cp => have h_cp := I.cp; have h_fr := I.fr; clear I; grind
  case xt => have h_xt := I.xt; clear I; grind
  case wk => have h_wk := I.wk; have h_fi := I.fi; clear I; grind
  case su => have h_su := I.su; clear I; grind
  case fa => have h_fa := I.fa; clear I; grind
  case cb => have h_cb := I.cb; clear I; grind
  case ca => have h_ca := I.ca; clear I; grind
  case fl => have h_fl := I.fl; clear I; grind

theorem Inv.ext (I : Inv G s) {i n : Nat} {m : Msg} (hs : .ext n ∈ s.sown i) : Inv G (enqueue i 0 m s) := by
  by_cases hr : s.rcv i = 0 ∧ s.running i = false
  · rw [enqueue_run hr]
    exact I.ext_run hs hr
  · rw [enqueue_more hr]
    exact I.ext_more hs hr

end Verif.Channel
