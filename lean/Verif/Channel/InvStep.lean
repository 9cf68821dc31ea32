import Verif.Channel.Inv

namespace Verif.Channel

variable {G : Net} {s : St}

theorem pcm_goto (I : Inv G s) {j i : Nat} (h : (s.pc j).of = some i) (p : Pc) (i' : Nat) :
    pcm (upd s.pc j p) s.main i' = if i' = i then p else pcm s.pc s.main i' := by
  have hm := (I.mn i j).1 h
  unfold pcm
  split
  · rename_i j' hj
    by_cases hjj : j' = j
    · subst hjj
      have := (I.mn i' j').2 hj
      rw [h] at this
      cases this
      simp [upd]
    · have : i' ≠ i := by rintro rfl; rw [hm] at hj; cases hj; exact hjj rfl
      simp [upd, hjj, this]
  · have : i' ≠ i := by rintro rfl; simp_all
    simp [this]

theorem pcm_other (I : Inv G s) {j : Nat} (h : (s.pc j).of = none) (p : Pc) (i' : Nat) :
    pcm (upd s.pc j p) s.main i' = pcm s.pc s.main i' := by
  unfold pcm
  split
  · rename_i j' hj
    have : j' ≠ j := by rintro rfl; have := (I.mn i' j').2 hj; simp_all
    simp [upd, this]
  · rfl

theorem pcm_some {pc : Nat → Pc} {main : Nat → Option Nat} {i j : Nat} (h : main i = some j) : pcm pc main i = pc j := by
  simp [pcm, h]

theorem pcm_none {pc : Nat → Pc} {main : Nat → Option Nat} {i : Nat} (h : main i = none) : pcm pc main i = .none := by
  simp [pcm, h]

attribute [local grind =] upd Pc.of Pc.pre Pc.post Pc.pend Pc.unsent Pc.tocall Pc.fresh
  Pc.sending Pc.inside Pc.ending Pc.rest Pc.closes Pc.readies isEmpty
attribute [local grind] Inv

theorem pcm_clr (I : Inv G s) {j i : Nat} (h : (s.pc j).of = some i) (p : Pc) (i' : Nat) :
    pcm (upd s.pc j p) s.clr i' = pcm s.pc s.clr i' := by
  unfold pcm
  split
  · rename_i j' hj
    have : j' ≠ j := by rintro rfl; have := (I.cp i' j' hj).1; simp_all
    simp [upd, this]
  · rfl

theorem of_facts {p : Pc} {i : Nat} (h : p.of = some i) : p.rest = [] ∧ p.closes = none ∧ p.readies = none ∧ p ≠ .none := by
  cases p <;> simp_all [Pc.of, Pc.rest, Pc.closes, Pc.readies]

/-- Steps of a thread that only concern its own position. -/
theorem Inv.move (I : Inv G s) {j i : Nat} {p p' : Pc} (h : s.pc j = p) (ho : p.of = some i) (ho' : p'.of = some i)
    {calls' : Nat → List Args} {outs' : Nat → List Msg}
    (hpre : p'.pre = p.pre) (hpost : p'.post = p.post) (hpend : p'.pend = p.pend) (hun : p'.unsent = p.unsent)
    (hend : p'.ending = p.ending) (hsu : ∀ r b, p' = .susp i r b → b = true)
    (hfa : ∀ r es acc, p' = .free i r es acc → ((∃ e ∈ es, G.buf e.1 = 1) ∨ acc ≤ 1) ∧ ∀ e ∈ es, e ∈ s.down i)
    (hcb : (calls' i).length + (s.outs i).length + p.inside = (outs' i).length + (s.calls i).length + p'.inside)
    (hca : calls' i ++ p'.tocall = s.calls i ++ p.tocall) (hca' : ∀ i', i' ≠ i → calls' i' = s.calls i')
    (δ : List Msg) (hou : outs' i = s.outs i ++ δ) (hfr : p'.fresh = p.fresh ++ δ) (hou' : ∀ i', i' ≠ i → outs' i' = s.outs i')
    (hδ : δ = [] ∨ p.unsent = [])
    (hse : p'.sending = p.sending ∨ p.unsent = []) :
    Inv G { s with pc := upd s.pc j p', calls := calls', outs := outs' } := by
  have ho1 : (s.pc j).of = some i := by rw [h]; exact ho
  have hm : s.main i = some j := (I.mn i j).1 ho1
  have hp : pcm s.pc s.main i = p := by rw [pcm_some hm, h]
  have hg := pcm_goto I ho1 p'
  have hc := pcm_clr I ho1 p'
  have hf := of_facts ho
  have hf' := of_facts ho'
  constructor
  all_goals dsimp only
  case fr => have h_fr := I.fr; clear I; grind
  case mn => have h_mn := I.mn; have h_fr := I.fr; clear I; grind
  case rn => have h_rn := I.rn; clear I; grind
  case rn' => have h_rnp := I.rn'; clear I; grind
  case sl => have h_sl := I.sl; clear I; grind
  case nd => have h_nd := I.nd; clear I; grind
  case pre => have h_pre := I.pre; clear I; grind
  case own => have h_own := I.own; clear I; grind
  case ed => have h_ed := I.ed; clear I; grind
  case cr => have h_cr := I.cr; have h_ex1 := I.ex1; have h_ex2 := I.ex2; clear I; grind
  case ex1 => have h_ex1 := I.ex1; have h_cr := I.cr; have h_ex2 := I.ex2; clear I; grind
  case ex2 => have h_ex2 := I.ex2; have h_cr := I.cr; have h_ex1 := I.ex1; clear I; grind
  case q1 => have h_q1 := I.q1; clear I; grind
  case un => have h_un := I.un; clear I; grind
  case pd => have h_pd := I.pd; clear I; grind
  case en => have h_en := I.en; clear I; grind
  case fi => have h_fi := I.fi; have h_en := I.en; clear I; grind
  case dn => have h_dn := I.dn; have h_fi := I.fi; clear I; grind
  case cs => have h_cs := I.cs; clear I; grind
  case cf => have h_cf := I.cf; clear I; grind
  case sn => have h_sn := I.sn; clear I; grind
  case sd => have h_sd := I.sd; clear I; grind
  case cj => have h_cj := I.cj; have h_fr := I.fr; clear I; grind
  case rj => have h_rj := I.rj; have h_fr := I.fr; clear I; grind
  case rr => have h_rr := I.rr; clear I; grind
  case so => have h_so := I.so; clear I; grind
  case cl => have h_cl := I.cl; have h_fr := I.fr; clear I; grind
  case cn => have h_cn := I.cn; have h_fr := I.fr; clear I; grind
  case cp => have h_cp := I.cp; have h_fr := I.fr; clear I; grind
  case xt => have h_xt := I.xt; clear I; grind
  case wk => have h_wk := I.wk; have h_fi := I.fi; clear I; grind
  case su => have h_su := I.su; clear I; grind
  case fa => have h_fa := I.fa; clear I; grind
  case cb => have h_cb := I.cb; clear I; grind
  case ca => have h_ca := I.ca; clear I; grind
  case fl => have h_fl := I.fl; clear I; grind

end Verif.Channel
