import Verif.Channel.InvStep

namespace Verif.Channel

variable {G : Net} {s : St}

attribute [local grind =] upd Pc.of Pc.pre Pc.post Pc.pend Pc.unsent Pc.tocall Pc.fresh
  Pc.sending Pc.inside Pc.ending Pc.rest Pc.closes Pc.readies isEmpty
attribute [local grind] Inv

theorem Inv.pop_empty (I : Inv G s) {j i : Nat} (h : s.pc j = .pop i) (he : isEmpty G s i = true) :
    Inv G { s with pc := upd s.pc j (.cts1 i [] none), closeQ := upd s.closeQ i false,
                   final := upd s.final i (s.closeQ i) } := by
  have ho1 : (s.pc j).of = some i := by rw [h]; rfl
  have hm : s.main i = some j := (I.mn i j).1 ho1
  have hp : pcm s.pc s.main i = .pop i := by rw [pcm_some hm, h]
  have hg := pcm_goto I ho1 (.cts1 i [] none)
  have hc := pcm_clr I ho1 (.cts1 i [] none)
  constructor
  all_goals dsimp only
  case fr => have h_fr := I.fr; clear I; grind
  case mn => have h_mn := I.mn; have h_fr := I.fr; clear I; grind
  case rn => have h_rn := I.rn; clear I; grind
  case rn' => have h_rnp := I.rn'; clear I; grind
  case sl => have h_sl := I.sl; clear I; grind
  case nd => have h_nd := I.nd; clear I; grind
  case pre => have h_pre := I.pre; clear I; grind
  case own => have h_own := I.own; clear I; grind
  case ed => have h_ed := I.ed; clear I; grind
  case cr => have h_cr := I.cr; have h_ex1 := I.ex1; have h_ex2 := I.ex2; clear I; grind
  case ex1 => have h_ex1 := I.ex1; have h_cr := I.cr; have h_ex2 := I.ex2; clear I; grind
  case ex2 => have h_ex2 := I.ex2; have h_cr := I.cr; have h_ex1 := I.ex1; clear I; grind
  case q1 => have h_q1 := I.q1; clear I; grind
  case un => have h_un := I.un; clear I; grind
  case pd => have h_pd := I.pd; clear I; grind
  case en => have h_en := I.en; clear I; grind
  case fi => have h_fi := I.fi; have h_en := I.en; have h_pre := I.pre; clear I; grind
  case dn => have h_dn := I.dn; have h_fi := I.fi; clear I; grind
  case cs => have h_cs := I.cs; have h_fi := I.fi; clear I; grind
  case cf => have h_cf := I.cf; clear I; grind
  case sn => have h_sn := I.sn; clear I; grind
  case sd => have h_sd := I.sd; clear I; grind
  case cj => have h_cj := I.cj; have h_fr := I.fr; clear I; grind
  case rj => have h_rj := I.rj; have h_fr := I.fr; clear I; grind
  case rr => have h_rr := I.rr; clear I; grind
  case so => have h_so := I.so; clear I; grind
  case cl => have h_cl := I.cl; have h_fr := I.fr; clear I; grind
  case cn => have h_cn := I.cn; have h_fr := I.fr; clear I; grind
  case cp => have h_cp := I.cp; have h_fr := I.fr; clear I; grind
  case xt => have h_xt := I.xt; clear I; grind
  case wk => have h_wk := I.wk; have h_fi := I.fi; clear I; grind
  case su => have h_su := I.su; clear I; grind
  case fa => have h_fa := I.fa; clear I; grind
  case cb => have h_cb := I.cb; clear I; grind
  case ca => have h_ca := I.ca; clear I; grind
  case fl => have h_fl := I.fl; clear I; grind

theorem mem_ctsSlots {st : Strat} {n buf : Nat} {ks : List Nat} {up : Nat → Option Nat} {q : Nat → List Msg}
    (h1 : st = .dflt → n = 1 ∧ ks = [0]) (h2 : st = .zip → ks = List.range n) (hk : ∀ k ∈ ks, k < n)
    (h3 : st = .rr ∨ st = .unord → 0 < buf ∧ buf < 2 ^ 64)
    (hb : ∀ k < n, up k ≠ none → k ∈ ks → q k = []) (k : Nat) :
    k ∈ ctsSlots st n buf ks up q ↔ k ∈ ks ∧ up k ≠ none := by
  unfold ctsSlots
  simp only [List.mem_filter, List.mem_range, decide_eq_true_eq]
  constructor
  · rintro ⟨hn, h, hu⟩
    refine ⟨?_, hu⟩
    cases st with
    | dflt => obtain ⟨rfl, rfl⟩ := h1 rfl; simp; omega
    | zip => rw [h2 rfl]; simpa using hn
    | rr =>
      have := h3 (.inl rfl)
      refine Classical.byContradiction fun hk => ?_
      simp [hk, sizeMax, usub] at h
      split at h <;> omega
    | unord =>
      have := h3 (.inr rfl)
      refine Classical.byContradiction fun hk => ?_
      simp [hk, sizeMax, usub] at h
      split at h <;> omega
  · rintro ⟨hk', hu⟩
    have hn := hk k hk'
    simp [hn, hk', hu, hb k hn hu hk']

theorem ctsSlots_nodup {st : Strat} {n buf : Nat} {ks : List Nat} {up : Nat → Option Nat} {q : Nat → List Msg} :
    (ctsSlots st n buf ks up q).Nodup := List.Nodup.sublist List.filter_sublist List.nodup_range

theorem mem_popMsg {ks : List Nat} {q : Nat → List Msg} {x : Nat × Msg} (h : x ∈ popMsg ks q) : x.2 ∈ q x.1 := by
  simp only [popMsg, List.mem_filterMap, Option.map_eq_some_iff] at h
  obtain ⟨k, -, m, hm, rfl⟩ := h
  exact List.mem_of_head? hm

theorem Inv.pop_some (I : Inv G s) {j i : Nat} (h : s.pc j = .pop i) (hne : isEmpty G s i = false) {ks cts : List Nat}
    {m : Args} {idx' : Nat → Nat}
    (hks : ∀ k ∈ ks, k < G.slots i ∧ s.q i k ≠ []) (hcts : ∀ k, k ∈ cts ↔ k ∈ ks ∧ G.up i k ≠ none) (hnd : cts.Nodup)
    (hm' : ∀ x ∈ m, x.2 ∈ s.q i x.1) (hidx : ∀ i', i' ≠ i → idx' i' = s.idx i') :
    Inv G { s with pc := upd s.pc j (.cts1 i cts (some m)), q := upd s.q i (popQ ks (s.q i)), idx := idx',
                   pops := upd s.pops i (s.pops i ++ [m]) } := by
  have ho1 : (s.pc j).of = some i := by rw [h]; rfl
  have hm : s.main i = some j := (I.mn i j).1 ho1
  have hp : pcm s.pc s.main i = .pop i := by rw [pcm_some hm, h]
  have hg := pcm_goto I ho1 (.cts1 i cts (some m))
  have hc := pcm_clr I ho1 (.cts1 i cts (some m))
  have hq : ∀ i' k, upd s.q i (popQ ks (s.q i)) i' k =
      if i' = i ∧ k ∈ ks then (s.q i k).tail else s.q i' k := by
    intro i' k
    unfold upd popQ
    by_cases hi : i' = i <;> simp [hi]
  have hqf : ∀ i', i' ≠ i → upd s.q i (popQ ks (s.q i)) i' = s.q i' := fun i' hi => by simp [upd, hi]
  have hq1 : ∀ u k, G.up i k = some u → k ∈ ks → (s.q i k).tail = [] := by
    intro u k hu hk
    have := I.q1 u i k hu (hks k hk).1
    cases hqk : s.q i k with
    | nil => rfl
    | cons a as => rw [hqk] at this; cases as <;> simp_all
  have hv : ∀ k m, m ∈ (s.q i k).tail → m ∈ s.q i k := fun k m => List.mem_of_mem_tail
  have hl : ∀ k, (s.q i k).tail.length ≤ (s.q i k).length := by simp
  generalize upd s.q i (popQ ks (s.q i)) = q' at *
  constructor
  all_goals dsimp only
  case fr => have h_fr := I.fr; clear I; grind
  case mn => have h_mn := I.mn; have h_fr := I.fr; clear I; grind
  case rn => have h_rn := I.rn; clear I; grind
  case rn' => have h_rnp := I.rn'; clear I; grind
  case sl => have h_sl := I.sl; clear I; grind
  case nd => have h_nd := I.nd; clear I; grind
  case pre => have h_pre := I.pre; clear I; grind
  case own => have h_own := I.own; clear I; grind
  case ed => have h_ed := I.ed; clear I; grind
  case cr => have h_cr := I.cr; have h_ex1 := I.ex1; have h_ex2 := I.ex2; clear I; grind
  case ex1 => have h_ex1 := I.ex1; have h_cr := I.cr; have h_ex2 := I.ex2; clear I; grind
  case ex2 => have h_ex2 := I.ex2; have h_cr := I.cr; have h_ex1 := I.ex1; clear I; grind
  case q1 => have h_q1 := I.q1; clear I; grind
  case un => have h_un := I.un; clear I; grind
  case pd => have h_pd := I.pd; clear I; grind
  case en => have h_en := I.en; clear I; grind
  case fi => have h_fi := I.fi; have h_en := I.en; have h_pre := I.pre; clear I; grind
  case dn => have h_dn := I.dn; have h_fi := I.fi; clear I; grind
  case cs => have h_cs := I.cs; have h_fi := I.fi; clear I; grind
  case cf => have h_cf := I.cf; clear I; grind
  case sn => have h_sn := I.sn; clear I; grind
  case sd => have h_sd := I.sd; clear I; grind
  case cj => have h_cj := I.cj; have h_fr := I.fr; clear I; grind
  case rj => have h_rj := I.rj; have h_fr := I.fr; clear I; grind
  case rr => have h_rr := I.rr; clear I; grind
  case so => have h_so := I.so; clear I; grind
  case cl => have h_cl := I.cl; have h_fr := I.fr; clear I; grind
  case cn => have h_cn := I.cn; have h_fr := I.fr; clear I; grind
  case cp => have h_cp := I.cp; have h_fr := I.fr; clear I; grind
  case xt => have h_xt := I.xt; clear I; grind
  case wk => have h_wk := I.wk; have h_fi := I.fi; clear I; grind
  case su => have h_su := I.su; clear I; grind
  case fa => have h_fa := I.fa; clear I; grind
  case cb => have h_cb := I.cb; clear I; grind
  case ca => have h_ca := I.ca; clear I; grind
  case fl => have h_fl := I.fl; clear I; grind

theorem Inv.pop (W : G.Wf) (D : G.Tight) (I : Inv G s) (H : Hist G s) {j i : Nat} (h : s.pc j = .pop i) :
    Inv G (popCrit G j i s) := by
  unfold popCrit
  split
  · exact I.pop_empty h ‹_›
  · rename_i he
    have he : isEmpty G s i = false := by simpa using he
    have hidx : G.strat i = .rr → s.idx i < G.slots i := by
      intro h; rw [H.idx i h]; exact Nat.mod_lt _ (W.slots i)
    obtain ⟨nd, hks, h1, h2, -, -⟩ := popSlots_spec (W.dflt i) hidx he
    refine I.pop_some h he hks (fun k => mem_ctsSlots ?_ h2 (fun k hk => (hks k hk).1) (D.merge i) ?_ k) ctsSlots_nodup
      (fun x hx => mem_popMsg hx) (fun i' hi => by simp [upd, hi])
    · intro hd; exact ⟨W.dflt i hd, h1 hd⟩
    · intro k hk hu
      obtain ⟨u, hu⟩ := Option.ne_none_iff_exists'.1 hu
      intro hk'
      have := I.q1 u i k hu hk
      simp only [popQ, hk', ↓reduceIte]
      cases hqk : s.q i k with
      | nil => rfl
      | cons a as => rw [hqk] at this; cases as <;> simp_all

end Verif.Channel
