import Verif.Channel.InvCts

namespace Verif.Channel

variable {G : Net} {s : St}

attribute [local grind =] upd Pc.of Pc.pre Pc.post Pc.pend Pc.unsent Pc.tocall Pc.fresh
  Pc.sending Pc.inside Pc.ending Pc.rest Pc.closes Pc.readies isEmpty

theorem Inv.copySender (I : Inv G s) {i n n' : Nat} (h : .ext n ∈ s.sown i) (h' : .ext n' ∉ s.sown i) :
    Inv G { s with sown := upd s.sown i (.ext n' :: s.sown i), snd := upd s.snd i (s.snd i + 1) } := by
  have hne : s.sown i ≠ [] := List.ne_nil_of_mem h
  constructor
  all_goals dsimp only
  case fr => have h_fr := I.fr; clear I; grind
  case mn => have h_mn := I.mn; have h_fr := I.fr; clear I; grind
  case rn => have h_rn := I.rn; clear I; grind
  case rn' => have h_rnp := I.rn'; clear I; grind
  case sl => have h_sl := I.sl; clear I; grind
  case nd => have h_nd := I.nd; clear I; grind
  case pre => have h_pre := I.pre; clear I; grind
  case own => have h_own := I.own; clear I; grind
  case ed => have h_ed := I.ed; clear I; grind
  case cr => have h_cr := I.cr; have h_ex1 := I.ex1; have h_ex2 := I.ex2; clear I; grind
  case ex1 => have h_ex1 := I.ex1; have h_cr := I.cr; have h_ex2 := I.ex2; clear I; grind
  case ex2 => have h_ex2 := I.ex2; have h_cr := I.cr; have h_ex1 := I.ex1; clear I; grind
  case q1 => have h_q1 := I.q1; clear I; grind
  case un => have h_un := I.un; clear I; grind
  case pd => have h_pd := I.pd; clear I; grind
  case en => have h_en := I.en; clear I; grind
  case fi => have h_fi := I.fi; have h_en := I.en; clear I; grind
  case dn => have h_dn := I.dn; have h_fi := I.fi; clear I; grind
  case cs => have h_cs := I.cs; clear I; grind
  case cf => have h_cf := I.cf; clear I; grind
  case sn => have h_sn := I.sn; clear I; grind
  case sd => have h_sd := I.sd; clear I; grind
  case cj => have h_cj := I.cj; have h_fr := I.fr; clear I; grind
  case rj => have h_rj := I.rj; have h_fr := I.fr; clear I; grind
  case rr => have h_rr := I.rr; clear I; grind
  case so => have h_so := I.so; clear I; grind
  case cl => have h_cl := I.cl; have h_fr := I.fr; clear I; grind
  case cn => have h_cn := I.cn; have h_fr := I.fr; clear I; grind
  case cp => have h_cp := I.cp; have h_fr := I.fr; clear I; grind
  case xt => have h_xt := I.xt; clear I; grind
  case wk => have h_wk := I.wk; have h_fi := I.fi; clear I; grind
  case su => have h_su := I.su; clear I; grind
  case fa => have h_fa := I.fa; clear I; grind
  case cb => have h_cb := I.cb; clear I; grind
  case ca => have h_ca := I.ca; clear I; grind
  case fl => have h_fl := I.fl; clear I; grind

theorem Inv.drop_more (I : Inv G s) {i n : Nat} (h : .ext n ∈ s.sown i) (hn : s.snd i - 1 ≠ 0) :
    Inv G { s with snd := upd s.snd i (s.snd i - 1), sown := upd s.sown i ((s.sown i).erase (.ext n)) } := by
  have hme := mem_erase_nd (I.sd i) (.ext n)
  have hle := length_erase_mem h
  have hnd : ((s.sown i).erase (.ext n)).Nodup := (I.sd i).erase _
  have hne : (s.sown i).erase (.ext n) ≠ [] := by
    intro h0; rw [h0] at hle; have := I.sn i; simp at hle; omega
  have hne' : s.sown i ≠ [] := List.ne_nil_of_mem h
  generalize (s.sown i).erase (.ext n) = ow at *
  constructor
  all_goals dsimp only
  case fr => have h_fr := I.fr; clear I; grind
  case mn => have h_mn := I.mn; have h_fr := I.fr; clear I; grind
  case rn => have h_rn := I.rn; clear I; grind
  case rn' => have h_rnp := I.rn'; clear I; grind
  case sl => have h_sl := I.sl; clear I; grind
  case nd => have h_nd := I.nd; clear I; grind
  case pre => have h_pre := I.pre; clear I; grind
  case own => have h_own := I.own; clear I; grind
  case ed => have h_ed := I.ed; clear I; grind
  case cr => have h_cr := I.cr; have h_ex1 := I.ex1; have h_ex2 := I.ex2; clear I; grind
  case ex1 => have h_ex1 := I.ex1; have h_cr := I.cr; have h_ex2 := I.ex2; clear I; grind
  case ex2 => have h_ex2 := I.ex2; have h_cr := I.cr; have h_ex1 := I.ex1; clear I; grind
  case q1 => have h_q1 := I.q1; clear I; grind
  case un => have h_un := I.un; clear I; grind
  case pd => have h_pd := I.pd; clear I; grind
  case en => have h_en := I.en; clear I; grind
  case fi => have h_fi := I.fi; have h_en := I.en; clear I; grind
  case dn => have h_dn := I.dn; have h_fi := I.fi; clear I; grind
  case cs => have h_cs := I.cs; clear I; grind
  case cf => have h_cf := I.cf; clear I; grind
  case sn => have h_sn := I.sn; clear I; grind
  case sd => have h_sd := I.sd; clear I; grind
  case cj => have h_cj := I.cj; have h_fr := I.fr; clear I; grind
  case rj => have h_rj := I.rj; have h_fr := I.fr; clear I; grind
  case rr => have h_rr := I.rr; clear I; grind
  case so => have h_so := I.so; clear I; grind
  case cl => have h_cl := I.cl; have h_fr := I.fr; clear I; grind
  case cn => have h_cn := I.cn; have h_fr := I.fr; clear I; grind
  case cp => have h_cp := I.cp; have h_fr := I.fr; clear I; grind
  case xt => have h_xt := I.xt; clear I; grind
  case wk => have h_wk := I.wk; have h_fi := I.fi; clear I; grind
  case su => have h_su := I.su; clear I; grind
  case fa => have h_fa := I.fa; clear I; grind
  case cb => have h_cb := I.cb; clear I; grind
  case ca => have h_ca := I.ca; clear I; grind
  case fl => have h_fl := I.fl; clear I; grind

theorem Inv.drop_zero (I : Inv G s) {i n : Nat} (h : .ext n ∈ s.sown i) (hn : s.snd i - 1 = 0) :
    Inv G { s with snd := upd s.snd i (s.snd i - 1), sown := upd s.sown i ((s.sown i).erase (.ext n)),
                   pc := upd s.pc s.next (.close2 i []), clsJob := upd s.clsJob i (some s.next), next := s.next + 1 } := by
  have hme := mem_erase_nd (I.sd i) (.ext n)
  have hle := length_erase_mem h
  have hnd : ((s.sown i).erase (.ext n)).Nodup := (I.sd i).erase _
  have hne : (s.sown i).erase (.ext n) = [] := List.eq_nil_of_length_eq_zero (by have := I.sn i; omega)
  have hne' : s.sown i ≠ [] := List.ne_nil_of_mem h
  have hcs : ¬(s.closeQ i = true ∨ s.final i = true ∨ s.clsJob i ≠ none) := fun h => hne' ((I.cs i).2 h)
  have hg := pcm_same (pc := s.pc) (.close2 i []) I.main_ne
  have hc := pcm_same (pc := s.pc) (.close2 i []) I.clr_ne
  have hfr := I.fresh
  have hcj : ∀ i', s.clsJob i' ≠ some s.next := by
    intro i' h'; have := (I.cj i' _).2 h'; rw [hfr] at this; cases this
  have hmn := I.main_ne
  have hrj : ∀ i', s.rdyJob i' ≠ some s.next := by
    intro i' h'; have := (I.rj i' _).2 h'; rw [hfr] at this; cases this
  generalize (s.sown i).erase (.ext n) = ow at *
  constructor
  all_goals dsimp only
  case fr => have h_fr := I.fr; clear I; grind
  case mn => have h_mn := I.mn; have h_fr := I.fr; clear I; grind
  case rn => have h_rn := I.rn; clear I; grind
  case rn' => have h_rnp := I.rn'; clear I; grind
  case sl => have h_sl := I.sl; clear I; grind
  case nd => have h_nd := I.nd; clear I; grind
  case pre => have h_pre := I.pre; clear I; grind
  case own => have h_own := I.own; clear I; grind
  case ed => have h_ed := I.ed; clear I; grind
  case cr => have h_cr := I.cr; have h_ex1 := I.ex1; have h_ex2 := I.ex2; clear I; grind
  case ex1 => have h_ex1 := I.ex1; have h_cr := I.cr; have h_ex2 := I.ex2; clear I; grind
  case ex2 => have h_ex2 := I.ex2; have h_cr := I.cr; have h_ex1 := I.ex1; clear I; grind
  case q1 => have h_q1 := I.q1; clear I; grind
  case un => have h_un := I.un; clear I; grind
  case pd => have h_pd := I.pd; clear I; grind
  case en => have h_en := I.en; clear I; grind
  case fi => have h_fi := I.fi; have h_en := I.en; clear I; grind
  case dn => have h_dn := I.dn; have h_fi := I.fi; clear I; grind
  case cs => have h_cs := I.cs; clear I; grind
  case cf => have h_cf := I.cf; clear I; grind
  case sn => have h_sn := I.sn; clear I; grind
  case sd => have h_sd := I.sd; clear I; grind
  case cj => have h_cj := I.cj; have h_fr := I.fr; clear I; grind
  case rj => have h_rj := I.rj; have h_fr := I.fr; clear I; grind
  case rr => have h_rr := I.rr; clear I; grind
  case so => have h_so := I.so; clear I; grind
  case cl => have h_cl := I.cl; have h_fr := I.fr; clear I; grind
  case cn => have h_cn := I.cn; have h_fr := I.fr; clear I; grind
  case cp => have h_cp := I.cp; have h_fr := I.fr; clear I; grind
  case xt => have h_xt := I.xt; clear I; grind
  case wk => have h_wk := I.wk; have h_fi := I.fi; clear I; grind
  case su => have h_su := I.su; clear I; grind
  case fa => have h_fa := I.fa; clear I; grind
  case cb => have h_cb := I.cb; clear I; grind
  case ca => have h_ca := I.ca; clear I; grind
  case fl => have h_fl := I.fl; clear I; grind

theorem Inv.copyRecv (I : Inv G s) {i : Nat} (h : s.rcv i ≠ 0) : Inv G { s with rcv := upd s.rcv i (s.rcv i + 1) } := by
  constructor
  all_goals dsimp only
  case fr => have h_fr := I.fr; clear I; grind
  case mn => have h_mn := I.mn; have h_fr := I.fr; clear I; grind
  case rn => have h_rn := I.rn; clear I; grind
  case rn' => have h_rnp := I.rn'; clear I; grind
  case sl => have h_sl := I.sl; clear I; grind
  case nd => have h_nd := I.nd; clear I; grind
  case pre => have h_pre := I.pre; clear I; grind
  case own => have h_own := I.own; clear I; grind
  case ed => have h_ed := I.ed; clear I; grind
  case cr => have h_cr := I.cr; have h_ex1 := I.ex1; have h_ex2 := I.ex2; clear I; grind
  case ex1 => have h_ex1 := I.ex1; have h_cr := I.cr; have h_ex2 := I.ex2; clear I; grind
  case ex2 => have h_ex2 := I.ex2; have h_cr := I.cr; have h_ex1 := I.ex1; clear I; grind
  case q1 => have h_q1 := I.q1; clear I; grind
  case un => have h_un := I.un; clear I; grind
  case pd => have h_pd := I.pd; clear I; grind
  case en => have h_en := I.en; clear I; grind
  case fi => have h_fi := I.fi; have h_en := I.en; clear I; grind
  case dn => have h_dn := I.dn; have h_fi := I.fi; clear I; grind
  case cs => have h_cs := I.cs; clear I; grind
  case cf => have h_cf := I.cf; clear I; grind
  case sn => have h_sn := I.sn; clear I; grind
  case sd => have h_sd := I.sd; clear I; grind
  case cj => have h_cj := I.cj; have h_fr := I.fr; clear I; grind
  case rj => have h_rj := I.rj; have h_fr := I.fr; clear I; grind
  case rr => have h_rr := I.rr; clear I; grind
  case so => have h_so := I.so; clear I; grind
  case cl => have h_cl := I.cl; have h_fr := I.fr; clear I; grind
  case cn => have h_cn := I.cn; have h_fr := I.fr; clear I; grind
  case cp => have h_cp := I.cp; have h_fr := I.fr; clear I; grind
  case xt => have h_xt := I.xt; clear I; grind
  case wk => have h_wk := I.wk; have h_fi := I.fi; clear I; grind
  case su => have h_su := I.su; clear I; grind
  case fa => have h_fa := I.fa; clear I; grind
  case cb => have h_cb := I.cb; clear I; grind
  case ca => have h_ca := I.ca; clear I; grind
  case fl => have h_fl := I.fl; clear I; grind

theorem Inv.recv_more (I : Inv G s) {i : Nat} (h : s.rcv i ≠ 0) (hn : s.rcv i - 1 ≠ 0) :
    Inv G { s with rcv := upd s.rcv i (s.rcv i - 1) } := by
  constructor
  all_goals dsimp only
  case fr => have h_fr := I.fr; clear I; grind
  case mn => have h_mn := I.mn; have h_fr := I.fr; clear I; grind
  case rn => have h_rn := I.rn; clear I; grind
  case rn' => have h_rnp := I.rn'; clear I; grind
  case sl => have h_sl := I.sl; clear I; grind
  case nd => have h_nd := I.nd; clear I; grind
  case pre => have h_pre := I.pre; clear I; grind
  case own => have h_own := I.own; clear I; grind
  case ed => have h_ed := I.ed; clear I; grind
  case cr => have h_cr := I.cr; have h_ex1 := I.ex1; have h_ex2 := I.ex2; clear I; grind
  case ex1 => have h_ex1 := I.ex1; have h_cr := I.cr; have h_ex2 := I.ex2; clear I; grind
  case ex2 => have h_ex2 := I.ex2; have h_cr := I.cr; have h_ex1 := I.ex1; clear I; grind
  case q1 => have h_q1 := I.q1; clear I; grind
  case un => have h_un := I.un; clear I; grind
  case pd => have h_pd := I.pd; clear I; grind
  case en => have h_en := I.en; clear I; grind
  case fi => have h_fi := I.fi; have h_en := I.en; clear I; grind
  case dn => have h_dn := I.dn; have h_fi := I.fi; clear I; grind
  case cs => have h_cs := I.cs; clear I; grind
  case cf => have h_cf := I.cf; clear I; grind
  case sn => have h_sn := I.sn; clear I; grind
  case sd => have h_sd := I.sd; clear I; grind
  case cj => have h_cj := I.cj; have h_fr := I.fr; clear I; grind
  case rj => have h_rj := I.rj; have h_fr := I.fr; clear I; grind
  case rr => have h_rr := I.rr; clear I; grind
  case so => have h_so := I.so; clear I; grind
  case cl => have h_cl := I.cl; have h_fr := I.fr; clear I; grind
  case cn => have h_cn := I.cn; have h_fr := I.fr; clear I; grind
  case cp => have h_cp := I.cp; have h_fr := I.fr; clear I; grind
  case xt => have h_xt := I.xt; clear I; grind
  case wk => have h_wk := I.wk; have h_fi := I.fi; clear I; grind
  case su => have h_su := I.su; clear I; grind
  case fa => have h_fa := I.fa; clear I; grind
  case cb => have h_cb := I.cb; clear I; grind
  case ca => have h_ca := I.ca; clear I; grind
  case fl => have h_fl := I.fl; clear I; grind

theorem Inv.recv_zero (I : Inv G s) {i : Nat} (h : s.rcv i ≠ 0) (hn : s.rcv i - 1 = 0) :
    Inv G { s with rcv := upd s.rcv i (s.rcv i - 1), pc := upd s.pc s.next (.ready2 i),
                   rdyJob := upd s.rdyJob i (some s.next), next := s.next + 1 } := by
  have hr : s.rdyJob i = none := by
    refine Classical.byContradiction fun h' => h (I.rr i h')
  have hg := pcm_same (pc := s.pc) (.ready2 i) I.main_ne
  have hc := pcm_same (pc := s.pc) (.ready2 i) I.clr_ne
  have hfr := I.fresh
  have hcj : ∀ i', s.clsJob i' ≠ some s.next := by
    intro i' h'; have := (I.cj i' _).2 h'; rw [hfr] at this; cases this
  have hmn := I.main_ne
  have hcn := I.clr_ne
  have hrj : ∀ i', s.rdyJob i' ≠ some s.next := by
    intro i' h'; have := (I.rj i' _).2 h'; rw [hfr] at this; cases this
  constructor
  all_goals dsimp only
  case fr => have h_fr := I.fr; clear I; grind
  case mn => have h_mn := I.mn; have h_fr := I.fr; clear I; grind
  case rn => have h_rn := I.rn; clear I; grind
  case rn' => have h_rnp := I.rn'; clear I; grind
  case sl => have h_sl := I.sl; clear I; grind
  case nd => have h_nd := I.nd; clear I; grind
  case pre => have h_pre := I.pre; clear I; grind
  case own => have h_own := I.own; clear I; grind
  case ed => have h_ed := I.ed; clear I; grind
  case cr => have h_cr := I.cr; have h_ex1 := I.ex1; have h_ex2 := I.ex2; clear I; grind
  case ex1 => have h_ex1 := I.ex1; have h_cr := I.cr; have h_ex2 := I.ex2; clear I; grind
  case ex2 => have h_ex2 := I.ex2; have h_cr := I.cr; have h_ex1 := I.ex1; clear I; grind
  case q1 => have h_q1 := I.q1; clear I; grind
  case un => have h_un := I.un; clear I; grind
  case pd => have h_pd := I.pd; clear I; grind
  case en => have h_en := I.en; clear I; grind
  case fi => have h_fi := I.fi; have h_en := I.en; clear I; grind
  case dn => have h_dn := I.dn; have h_fi := I.fi; clear I; grind
  case cs => have h_cs := I.cs; clear I; grind
  case cf => have h_cf := I.cf; clear I; grind
  case sn => have h_sn := I.sn; clear I; grind
  case sd => have h_sd := I.sd; clear I; grind
  case cj => have h_cj := I.cj; have h_fr := I.fr; clear I; grind
  case rj => have h_rj := I.rj; have h_fr := I.fr; clear I; grind
  case rr => have h_rr := I.rr; clear I; grind
  case so => have h_so := I.so; clear I; grind
  case cl => have h_cl := I.cl; have h_fr := I.fr; clear I; grind
  case cn => have h_cn := I.cn; have h_fr := I.fr; clear I; grind
  case cp => have h_cp := I.cp; have h_fr := I.fr; clear I; grind
  case xt => have h_xt := I.xt; clear I; grind
  case wk => have h_wk := I.wk; have h_fi := I.fi; clear I; grind
  case su => have h_su := I.su; clear I; grind
  case fa => have h_fa := I.fa; clear I; grind
  case cb => have h_cb := I.cb; clear I; grind
  case ca => have h_ca := I.ca; clear I; grind
  case fl => have h_fl := I.fl; clear I; grind

end Verif.Channel
