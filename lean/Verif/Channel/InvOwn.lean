import Verif.Channel.InvCts

namespace Verif.Channel

variable {G : Net} {s : St}

attribute [local grind =] upd Pc.of Pc.pre Pc.post Pc.pend Pc.unsent Pc.tocall Pc.fresh
  Pc.sending Pc.inside Pc.ending Pc.rest Pc.closes Pc.readies isEmpty
attribute [local grind] Inv

theorem Inv.own_more (I : Inv G s) {j i : Nat} (h : s.pc j = .own2 i) (hne : (s.owed i).erase .own ≠ []) :
    Inv G { s with pc := upd s.pc j .none, main := upd s.main i none, susp := upd s.susp i (s.susp i - 1),
                   owed := upd s.owed i ((s.owed i).erase .own) } := by
  have ho1 : (s.pc j).of = some i := by rw [h]; rfl
  have hm : s.main i = some j := (I.mn i j).1 ho1
  have hp : pcm s.pc s.main i = .own2 i := by rw [pcm_some hm, h]
  have hg : ∀ i', pcm (upd s.pc j .none) (upd s.main i none) i' = if i' = i then .none else pcm s.pc s.main i' := by
    intro i'
    by_cases hi : i' = i
    · simp [pcm, upd, hi]
    · have := pcm_goto I ho1 .none i'
      simp only [hi, ↓reduceIte] at this ⊢
      rw [← this]; simp [pcm, upd, hi]
  have hc := pcm_clr I ho1 .none
  have hin : .own ∈ s.owed i := (I.own i).2 (by rw [hp]; rfl)
  have hme := mem_erase_nd (I.nd i) .own
  have hle := length_erase_mem hin
  have hnd : ((s.owed i).erase .own).Nodup := (I.nd i).erase _
  generalize (s.owed i).erase .own = ow at *
  constructor
  all_goals dsimp only
  case fr => have h_fr := I.fr; clear I; grind
  case mn => have h_mn := I.mn; have h_fr := I.fr; clear I; grind
  case rn => have h_rn := I.rn; clear I; grind
  case rn' => have h_rnp := I.rn'; clear I; grind
  case sl => have h_sl := I.sl; clear I; grind
  case nd => have h_nd := I.nd; clear I; grind
  case pre => have h_pre := I.pre; clear I; grind
  case own => have h_own := I.own; clear I; grind
  case ed => have h_ed := I.ed; clear I; grind
  case cr => have h_cr := I.cr; have h_ex1 := I.ex1; have h_ex2 := I.ex2; clear I; grind
  case ex1 => have h_ex1 := I.ex1; have h_cr := I.cr; have h_ex2 := I.ex2; clear I; grind
  case ex2 => have h_ex2 := I.ex2; have h_cr := I.cr; have h_ex1 := I.ex1; clear I; grind
  case q1 => have h_q1 := I.q1; clear I; grind
  case un => have h_un := I.un; clear I; grind
  case pd => have h_pd := I.pd; clear I; grind
  case en => have h_en := I.en; clear I; grind
  case fi => have h_fi := I.fi; have h_en := I.en; clear I; grind
  case dn => have h_dn := I.dn; have h_fi := I.fi; clear I; grind
  case cs => have h_cs := I.cs; clear I; grind
  case cf => have h_cf := I.cf; clear I; grind
  case sn => have h_sn := I.sn; clear I; grind
  case sd => have h_sd := I.sd; clear I; grind
  case cj => have h_cj := I.cj; have h_fr := I.fr; clear I; grind
  case rj => have h_rj := I.rj; have h_fr := I.fr; clear I; grind
  case rr => have h_rr := I.rr; clear I; grind
  case so => have h_so := I.so; clear I; grind
  case cl => have h_cl := I.cl; have h_fr := I.fr; clear I; grind
  case cn => have h_cn := I.cn; have h_fr := I.fr; clear I; grind
  case cp => have h_cp := I.cp; have h_fr := I.fr; clear I; grind
  case xt => have h_xt := I.xt; clear I; grind
  case wk => have h_wk := I.wk; have h_fi := I.fi; clear I; grind
  case su => have h_su := I.su; clear I; grind
  case fa => have h_fa := I.fa; clear I; grind
  case cb => have h_cb := I.cb; clear I; grind
  case ca => have h_ca := I.ca; clear I; grind
  case fl => have h_fl := I.fl; clear I; grind

theorem Inv.own_rest (I : Inv G s) {j i : Nat} (h : s.pc j = .own2 i) (he : (s.owed i).erase .own = [])
    (hq : isEmpty G s i = true) (hcl : s.closeQ i = false) :
    Inv G { s with pc := upd s.pc j .none, main := upd s.main i none, susp := upd s.susp i (s.susp i - 1),
                   owed := upd s.owed i ((s.owed i).erase .own), running := upd s.running i false } := by
  have ho1 : (s.pc j).of = some i := by rw [h]; rfl
  have hm : s.main i = some j := (I.mn i j).1 ho1
  have hp : pcm s.pc s.main i = .own2 i := by rw [pcm_some hm, h]
  have hg : ∀ i', pcm (upd s.pc j .none) (upd s.main i none) i' = if i' = i then .none else pcm s.pc s.main i' := by
    intro i'
    by_cases hi : i' = i
    · simp [pcm, upd, hi]
    · have := pcm_goto I ho1 .none i'
      simp only [hi, ↓reduceIte] at this ⊢
      rw [← this]; simp [pcm, upd, hi]
  have hc := pcm_clr I ho1 .none
  have hin : .own ∈ s.owed i := (I.own i).2 (by rw [hp]; rfl)
  have hme := mem_erase_nd (I.nd i) .own
  have hle := length_erase_mem hin
  have hnd : ((s.owed i).erase .own).Nodup := (I.nd i).erase _
  generalize (s.owed i).erase .own = ow at *
  constructor
  all_goals dsimp only
  case fr => have h_fr := I.fr; clear I; grind
  case mn => have h_mn := I.mn; have h_fr := I.fr; clear I; grind
  case rn => have h_rn := I.rn; clear I; grind
  case rn' => have h_rnp := I.rn'; clear I; grind
  case sl => have h_sl := I.sl; clear I; grind
  case nd => have h_nd := I.nd; clear I; grind
  case pre => have h_pre := I.pre; clear I; grind
  case own => have h_own := I.own; clear I; grind
  case ed => have h_ed := I.ed; clear I; grind
  case cr => have h_cr := I.cr; have h_ex1 := I.ex1; have h_ex2 := I.ex2; clear I; grind
  case ex1 => have h_ex1 := I.ex1; have h_cr := I.cr; have h_ex2 := I.ex2; clear I; grind
  case ex2 => have h_ex2 := I.ex2; have h_cr := I.cr; have h_ex1 := I.ex1; clear I; grind
  case q1 => have h_q1 := I.q1; clear I; grind
  case un => have h_un := I.un; clear I; grind
  case pd => have h_pd := I.pd; clear I; grind
  case en => have h_en := I.en; clear I; grind
  case fi => have h_fi := I.fi; have h_en := I.en; clear I; grind
  case dn => have h_dn := I.dn; have h_fi := I.fi; clear I; grind
  case cs => have h_cs := I.cs; clear I; grind
  case cf => have h_cf := I.cf; clear I; grind
  case sn => have h_sn := I.sn; clear I; grind
  case sd => have h_sd := I.sd; clear I; grind
  case cj => have h_cj := I.cj; have h_fr := I.fr; clear I; grind
  case rj => have h_rj := I.rj; have h_fr := I.fr; clear I; grind
  case rr => have h_rr := I.rr; clear I; grind
  case so => have h_so := I.so; clear I; grind
  case cl => have h_cl := I.cl; have h_fr := I.fr; clear I; grind
  case cn => have h_cn := I.cn; have h_fr := I.fr; clear I; grind
  case cp => have h_cp := I.cp; have h_fr := I.fr; clear I; grind
  case xt => have h_xt := I.xt; clear I; grind
  case wk => have h_wk := I.wk; have h_fi := I.fi; clear I; grind
  case su => have h_su := I.su; clear I; grind
  case fa => have h_fa := I.fa; clear I; grind
  case cb => have h_cb := I.cb; clear I; grind
  case ca => have h_ca := I.ca; clear I; grind
  case fl => have h_fl := I.fl; clear I; grind

theorem Inv.own_run (I : Inv G s) {j i : Nat} (h : s.pc j = .own2 i) (he : (s.owed i).erase .own = [])
    (hq : isEmpty G s i = false ∨ s.closeQ i = true) :
    Inv G { s with pc := upd (upd s.pc s.next (.pop i)) j .none, main := upd s.main i (some s.next),
                   susp := upd s.susp i (s.susp i - 1),
                   owed := upd s.owed i ((s.owed i).erase .own), next := s.next + 1 } := by
  have ho1 : (s.pc j).of = some i := by rw [h]; rfl
  have hm : s.main i = some j := (I.mn i j).1 ho1
  have hp : pcm s.pc s.main i = .own2 i := by rw [pcm_some hm, h]
  have hj : j ≠ s.next := by rintro rfl; exact I.main_ne i hm
  have hg : ∀ i', pcm (upd (upd s.pc s.next (.pop i)) j .none) (upd s.main i (some s.next)) i' =
      if i' = i then .pop i else pcm s.pc s.main i' := by
    intro i'
    rw [upd_comm (Ne.symm hj), pcm_new (fun i' _ => I.main_ne i'), pcm_goto I ho1]
    grind
  have hc : ∀ i', pcm (upd (upd s.pc s.next (.pop i)) j .none) s.clr i' = pcm s.pc s.clr i' := by
    intro i'
    rw [upd_comm (Ne.symm hj), pcm_same _ I.clr_ne, pcm_clr I ho1]
  have hin : .own ∈ s.owed i := (I.own i).2 (by rw [hp]; rfl)
  have hme := mem_erase_nd (I.nd i) .own
  have hle := length_erase_mem hin
  have hnd : ((s.owed i).erase .own).Nodup := (I.nd i).erase _
  have hfr := I.fresh
  generalize (s.owed i).erase .own = ow at *
  constructor
  all_goals dsimp only
  case fr => have h_fr := I.fr; clear I; grind
  case mn => have h_mn := I.mn; have h_fr := I.fr; clear I; grind
  case rn => have h_rn := I.rn; clear I; grind
  case rn' => have h_rnp := I.rn'; clear I; grind
  case sl => have h_sl := I.sl; clear I; grind
  case nd => have h_nd := I.nd; clear I; grind
  case pre => have h_pre := I.pre; clear I; grind
  case own => have h_own := I.own; clear I; grind
  case ed => have h_ed := I.ed; clear I; grind
  case cr => have h_cr := I.cr; have h_ex1 := I.ex1; have h_ex2 := I.ex2; clear I; grind
  case ex1 => have h_ex1 := I.ex1; have h_cr := I.cr; have h_ex2 := I.ex2; clear I; grind
  case ex2 => have h_ex2 := I.ex2; have h_cr := I.cr; have h_ex1 := I.ex1; clear I; grind
  case q1 => have h_q1 := I.q1; clear I; grind
  case un => have h_un := I.un; clear I; grind
  case pd => have h_pd := I.pd; clear I; grind
  case en => have h_en := I.en; clear I; grind
  case fi => have h_fi := I.fi; have h_en := I.en; clear I; grind
  case dn => have h_dn := I.dn; have h_fi := I.fi; clear I; grind
  case cs => have h_cs := I.cs; clear I; grind
  case cf => have h_cf := I.cf; clear I; grind
  case sn => have h_sn := I.sn; clear I; grind
  case sd => have h_sd := I.sd; clear I; grind
  case cj => have h_cj := I.cj; have h_fr := I.fr; clear I; grind
  case rj => have h_rj := I.rj; have h_fr := I.fr; clear I; grind
  case rr => have h_rr := I.rr; clear I; grind
  case so => have h_so := I.so; clear I; grind
  case cl => have h_cl := I.cl; have h_fr := I.fr; clear I; grind
  case cn => have h_cn := I.cn; have h_fr := I.fr; clear I; grind
  case cp => have h_cp := I.cp; have h_fr := I.fr; clear I; grind
  case xt => have h_xt := I.xt; clear I; grind
  case wk => have h_wk := I.wk; have h_fi := I.fi; clear I; grind
  case su => have h_su := I.su; clear I; grind
  case fa => have h_fa := I.fa; clear I; grind
  case cb => have h_cb := I.cb; clear I; grind
  case ca => have h_ca := I.ca; clear I; grind
  case fl => have h_fl := I.fl; clear I; grind

theorem Inv.ownCts (I : Inv G s) {j i : Nat} (h : s.pc j = .own2 i) :
    Inv G (goto j .none (ctsCrit G i .own { s with main := upd s.main i none })) := by
  have ho1 : (s.pc j).of = some i := by rw [h]; rfl
  have hm : s.main i = some j := (I.mn i j).1 ho1
  have hp : pcm s.pc s.main i = .own2 i := by rw [pcm_some hm, h]
  have hin : .own ∈ s.owed i := (I.own i).2 (by rw [hp]; rfl)
  have hle := length_erase_mem hin
  have hsl := I.sl i
  by_cases h0 : s.susp i - 1 = 0
  · have he : (s.owed i).erase .own = [] := List.eq_nil_of_length_eq_zero (by omega)
    by_cases hq : isEmpty G s i = false ∨ s.closeQ i = true
    · rw [ctsCrit_run (s := { s with main := upd s.main i none }) h0 hq]
      have := I.own_run h he hq
      simpa only [run, goto, upd_upd] using this
    · rw [ctsCrit_rest (s := { s with main := upd s.main i none }) h0 hq]
      simp only [not_or, Bool.not_eq_false, Bool.not_eq_true] at hq
      exact I.own_rest h he hq.1 hq.2
  · have hne : (s.owed i).erase .own ≠ [] := by intro h; rw [h] at hle; simp at hle; omega
    rw [ctsCrit_more (s := { s with main := upd s.main i none }) h0]
    exact I.own_more h hne

end Verif.Channel
