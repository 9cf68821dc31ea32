import Verif.Channel.InvCts

namespace Verif.Channel

variable {G : Net} {s : St}

attribute [local grind =] upd Pc.of Pc.pre Pc.post Pc.pend Pc.unsent Pc.tocall Pc.fresh
  Pc.sending Pc.inside Pc.ending Pc.rest Pc.closes Pc.readies isEmpty

theorem Inv.susp (W : G.Wf) (I : Inv G s) {j i : Nat} {r : Msg} {b : Bool} (h : s.pc j = .susp i r b) :
    Inv G { s with
      pc := upd s.pc j (.send i r (s.down i))
      susp := upd s.susp i (if b then (s.down i).length + 1 else 1)
      owed := upd s.owed i (.own :: if b then (s.down i).map fun e => .edge e.1 e.2 else []) } := by
  have ho1 : (s.pc j).of = some i := by rw [h]; rfl
  have hm : s.main i = some j := (I.mn i j).1 ho1
  have hp : pcm s.pc s.main i = .susp i r b := by rw [pcm_some hm, h]
  have hb : b = true := I.su i r b hp
  subst hb
  simp only [↓reduceIte]
  have hg := pcm_goto I ho1 (.send i r (s.down i))
  have hc := pcm_clr I ho1 (.send i r (s.down i))
  have hd : s.down i = G.down i := by
    rcases I.dn i with h | h
    · exact h.1
    · rw [hm] at h; cases h.2.2
  have ho : s.owed i = [] := I.pre i (by rw [hp]; rfl)
  have he := W.edges i
  have hn := W.nodup i
  have hmem : ∀ c, c ∈ Credit.own :: (s.down i).map (fun e => Credit.edge e.1 e.2) ↔
      c = .own ∨ ∃ d k, c = .edge d k ∧ (d, k) ∈ G.down i := by
    intro c
    rw [hd]
    simp only [List.mem_cons, List.mem_map, Prod.exists]
    grind
  have hedge : ∀ d k, Credit.edge d k ∈ Credit.own :: (s.down i).map (fun e => Credit.edge e.1 e.2) ↔ (d, k) ∈ G.down i := by
    intro d k; rw [hmem]; grind
  have hown : Credit.own ∈ Credit.own :: (s.down i).map (fun e => Credit.edge e.1 e.2) := by simp
  have hnd : (Credit.own :: (s.down i).map (fun e => Credit.edge e.1 e.2)).Nodup := by
    refine List.nodup_cons.2 ⟨by simp, ?_⟩
    rw [hd]
    refine List.Pairwise.map _ ?_ hn
    rintro ⟨a, b⟩ ⟨c, d⟩ h h'
    cases h'
    exact h rfl
  have hlen : (Credit.own :: (s.down i).map (fun e => Credit.edge e.1 e.2)).length = (s.down i).length + 1 := by simp
  have hne : Credit.own :: (s.down i).map (fun e => Credit.edge e.1 e.2) ≠ [] := by simp
  generalize Credit.own :: (s.down i).map (fun e => Credit.edge e.1 e.2) = ow at *
  constructor
  all_goals dsimp only
  case fr => have h_fr := I.fr; clear I; grind
  case mn => have h_mn := I.mn; have h_fr := I.fr; clear I; grind
  case rn => have h_rn := I.rn; clear I; grind
  case rn' => have h_rnp := I.rn'; clear I; grind
  case sl => have h_sl := I.sl; clear I; grind
  case nd => have h_nd := I.nd; clear I; grind
  case pre => have h_pre := I.pre; clear I; grind
  case own => have h_own := I.own; clear I; grind
  case ed => have h_ed := I.ed; clear I; grind
  case cr => have h_cr := I.cr; have h_ex1 := I.ex1; have h_ex2 := I.ex2; clear I; grind
  case ex1 => have h_ex1 := I.ex1; have h_cr := I.cr; have h_ex2 := I.ex2; clear I; grind
  case ex2 => have h_ex2 := I.ex2; have h_cr := I.cr; have h_ex1 := I.ex1; clear I; grind
  case q1 => have h_q1 := I.q1; clear I; grind
  case un => have h_un := I.un; clear I; grind
  case pd => have h_pd := I.pd; clear I; grind
  case en => have h_en := I.en; clear I; grind
  case fi => have h_fi := I.fi; have h_en := I.en; have h_pre := I.pre; clear I; grind
  case dn => have h_dn := I.dn; have h_fi := I.fi; clear I; grind
  case cs => have h_cs := I.cs; clear I; grind
  case cf => have h_cf := I.cf; clear I; grind
  case sn => have h_sn := I.sn; clear I; grind
  case sd => have h_sd := I.sd; clear I; grind
  case cj => have h_cj := I.cj; have h_fr := I.fr; clear I; grind
  case rj => have h_rj := I.rj; have h_fr := I.fr; clear I; grind
  case rr => have h_rr := I.rr; clear I; grind
  case so => have h_so := I.so; clear I; grind
  case cl => have h_cl := I.cl; have h_fr := I.fr; clear I; grind
  case cn => have h_cn := I.cn; have h_fr := I.fr; clear I; grind
  case cp => have h_cp := I.cp; have h_fr := I.fr; clear I; grind
  case xt => have h_xt := I.xt; clear I; grind
  case wk => have h_wk := I.wk; have h_fi := I.fi; clear I; grind
  case su => have h_su := I.su; clear I; grind
  case fa => have h_fa := I.fa; clear I; grind
  case cb => have h_cb := I.cb; clear I; grind
  case ca => have h_ca := I.ca; clear I; grind
  case fl => have h_fl := I.fl; clear I; grind

end Verif.Channel
