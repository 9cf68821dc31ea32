import Verif.Channel.InvStep

namespace Verif.Channel

variable {G : Net} {s : St}

theorem pcm_new {pc : Nat → Pc} {main : Nat → Option Nat} {n u : Nat} (h : ∀ i', i' ≠ u → main i' ≠ some n) (i' : Nat) :
    pcm (upd pc n (.pop u)) (upd main u (some n)) i' = if i' = u then .pop u else pcm pc main i' := by
  unfold pcm
  by_cases hi : i' = u
  · subst hi; simp [upd]
  · simp only [upd, hi, ↓reduceIte]
    have := h i' hi
    split
    · rename_i j hj
      have : j ≠ n := by rintro rfl; exact this hj
      simp [this]
    · rfl

theorem pcm_same {pc : Nat → Pc} {main : Nat → Option Nat} {n : Nat} (p : Pc) (h : ∀ i', main i' ≠ some n) (i' : Nat) :
    pcm (upd pc n p) main i' = pcm pc main i' := by
  unfold pcm
  split
  · rename_i j hj
    have : j ≠ n := by rintro rfl; exact h i' hj
    simp [upd, this]
  · rfl

theorem upd_comm {α : Type} {f : Nat → α} {a b : Nat} {x y : α} (h : a ≠ b) :
    upd (upd f a x) b y = upd (upd f b y) a x := by
  funext i; unfold upd; grind

theorem upd_upd {α : Type} {f : Nat → α} {a : Nat} {x y : α} : upd (upd f a x) a y = upd f a y := by
  funext i; unfold upd; grind

theorem of_prepost {p : Pc} {i : Nat} (h : p.of = some i) : p.pre = true ∨ p.post = true := by
  cases p <;> simp_all [Pc.of, Pc.pre, Pc.post]

theorem mem_erase_nd {α : Type} [DecidableEq α] {l : List α} (h : l.Nodup) (c x : α) : x ∈ l.erase c ↔ x ≠ c ∧ x ∈ l :=
  h.mem_erase_iff

theorem length_erase_mem {α : Type} [DecidableEq α] {l : List α} {c : α} (h : c ∈ l) : (l.erase c).length = l.length - 1 := by
  rw [List.length_erase]; simp [h]

theorem Inv.fresh (I : Inv G s) : s.pc s.next = .none := I.fr _ (Nat.le_refl _)

theorem Inv.main_ne (I : Inv G s) (i : Nat) : s.main i ≠ some s.next := by
  intro h
  have := (I.mn i s.next).2 h
  rw [I.fresh] at this
  cases this

theorem Inv.clr_ne (I : Inv G s) (i : Nat) : s.clr i ≠ some s.next := by
  intro h
  have := (I.cp i s.next h).2.2
  omega

attribute [local grind =] upd Pc.of Pc.pre Pc.post Pc.pend Pc.unsent Pc.tocall Pc.fresh
  Pc.sending Pc.inside Pc.ending Pc.rest Pc.closes Pc.readies isEmpty
attribute [local grind] Inv

/-- If all is given back, then no thread runs the process. -/
theorem Inv.idle (I : Inv G s) {u : Nat} {c : Credit} (hc : c ∈ s.owed u) (he : (s.owed u).erase c = []) (hm : c = .own ∨
    .own ∉ s.owed u) : s.main u ≠ none → c = .own := by
  intro h
  obtain ⟨j, hj⟩ := Option.ne_none_iff_exists'.1 h
  have ho := (I.mn u j).2 hj
  have hp : pcm s.pc s.main u = s.pc j := pcm_some hj
  rcases of_prepost ho with h1 | h1
  · have := I.pre u (by rw [hp]; exact h1); rw [this] at hc; cases hc
  · have := (I.own u).2 (by rw [hp]; exact h1)
    grind

theorem Inv.edge_idle (I : Inv G s) {u d k : Nat} (hc : .edge d k ∈ s.owed u) (he : (s.owed u).erase (.edge d k) = []) :
    s.main u = none ∧ .own ∉ s.owed u := by
  have ho : .own ∉ s.owed u := by
    intro h
    have := (mem_erase_nd (I.nd u) (.edge d k) .own).2 ⟨by simp, h⟩
    rw [he] at this; cases this
  refine ⟨?_, ho⟩
  refine Classical.byContradiction fun h => ?_
  cases I.idle hc he (.inr ho) h

theorem Inv.cts_more (W : G.Wf) (I : Inv G s) {j i k u : Nat} {ks : List Nat} {m : Option Args} (h : s.pc j = .cts2 i (k :: ks) m)
    (hu : G.up i k = some u) (hne : (s.owed u).erase (.edge i k) ≠ []) :
    Inv G { s with pc := upd s.pc j (.cts1 i ks m), susp := upd s.susp u (s.susp u - 1),
                   owed := upd s.owed u ((s.owed u).erase (.edge i k)) } := by
  have ho1 : (s.pc j).of = some i := by rw [h]; rfl
  have hm : s.main i = some j := (I.mn i j).1 ho1
  have hp : pcm s.pc s.main i = .cts2 i (k :: ks) m := by rw [pcm_some hm, h]
  have hg := pcm_goto I ho1 (.cts1 i ks m)
  have hc := pcm_clr I ho1 (.cts1 i ks m)
  have hui : u < i := W.order _ _ _ hu
  have hk : k < G.slots i := ((I.pd i).2 k (by rw [hp]; simp [Pc.pend])).1
  have hin : .edge i k ∈ s.owed u := (I.cr u i k hu hk).2 (.inr (.inl (by rw [hp]; simp [Pc.pend])))
  have hme := mem_erase_nd (I.nd u) (.edge i k)
  have hle := length_erase_mem hin
  have hnd : ((s.owed u).erase (.edge i k)).Nodup := (I.nd u).erase _
  have hkn : k ∉ ks ∧ ks.Nodup := by simpa [hp, Pc.pend] using (I.pd i).1
  have htc : (Pc.cts1 i ks m).tocall = (Pc.cts2 i (k :: ks) m).tocall := by cases m <;> rfl
  have hen : (Pc.cts1 i ks m).ending = false := by
    have := I.en i
    rw [hp] at this
    cases m with
    | none => simp [Pc.ending, Pc.pend] at this
    | some m => rfl
  generalize (s.owed u).erase (.edge i k) = ow at *
  constructor
  all_goals dsimp only
  case fr => have h_fr := I.fr; clear I; grind
  case mn => have h_mn := I.mn; have h_fr := I.fr; clear I; grind
  case rn => have h_rn := I.rn; clear I; grind
  case rn' => have h_rnp := I.rn'; clear I; grind
  case sl => have h_sl := I.sl; clear I; grind
  case nd => have h_nd := I.nd; clear I; grind
  case pre => have h_pre := I.pre; clear I; grind
  case own => have h_own := I.own; clear I; grind
  case ed => have h_ed := I.ed; clear I; grind
  case cr => have h_cr := I.cr; have h_ex1 := I.ex1; have h_ex2 := I.ex2; clear I; grind
  case ex1 => have h_ex1 := I.ex1; have h_cr := I.cr; have h_ex2 := I.ex2; clear I; grind
  case ex2 => have h_ex2 := I.ex2; have h_cr := I.cr; have h_ex1 := I.ex1; clear I; grind
  case q1 => have h_q1 := I.q1; clear I; grind
  case un => have h_un := I.un; clear I; grind
  case pd => have h_pd := I.pd; clear I; grind
  case en => have h_en := I.en; clear I; grind
  case fi => have h_fi := I.fi; have h_en := I.en; clear I; grind
  case dn => have h_dn := I.dn; have h_fi := I.fi; clear I; grind
  case cs => have h_cs := I.cs; clear I; grind
  case cf => have h_cf := I.cf; clear I; grind
  case sn => have h_sn := I.sn; clear I; grind
  case sd => have h_sd := I.sd; clear I; grind
  case cj => have h_cj := I.cj; have h_fr := I.fr; clear I; grind
  case rj => have h_rj := I.rj; have h_fr := I.fr; clear I; grind
  case rr => have h_rr := I.rr; clear I; grind
  case so => have h_so := I.so; clear I; grind
  case cl => have h_cl := I.cl; have h_fr := I.fr; clear I; grind
  case cn => have h_cn := I.cn; have h_fr := I.fr; clear I; grind
  case cp => have h_cp := I.cp; have h_fr := I.fr; clear I; grind
  case xt => have h_xt := I.xt; clear I; grind
  case wk => have h_wk := I.wk; have h_fi := I.fi; clear I; grind
  case su => have h_su := I.su; clear I; grind
  case fa => have h_fa := I.fa; clear I; grind
  case cb => have h_cb := I.cb; clear I; grind
  case ca => have h_ca := I.ca; clear I; grind
  case fl => have h_fl := I.fl; clear I; grind

theorem Inv.cts_rest (W : G.Wf) (I : Inv G s) {j i k u : Nat} {ks : List Nat} {m : Option Args} (h : s.pc j = .cts2 i (k :: ks) m)
    (hu : G.up i k = some u) (he : (s.owed u).erase (.edge i k) = []) (hq : isEmpty G s u = true) (hcl : s.closeQ u = false) :
    Inv G { s with pc := upd s.pc j (.cts1 i ks m), susp := upd s.susp u (s.susp u - 1),
                   owed := upd s.owed u ((s.owed u).erase (.edge i k)), running := upd s.running u false } := by
  have ho1 : (s.pc j).of = some i := by rw [h]; rfl
  have hm : s.main i = some j := (I.mn i j).1 ho1
  have hp : pcm s.pc s.main i = .cts2 i (k :: ks) m := by rw [pcm_some hm, h]
  have hg := pcm_goto I ho1 (.cts1 i ks m)
  have hc := pcm_clr I ho1 (.cts1 i ks m)
  have hui : u < i := W.order _ _ _ hu
  have hk : k < G.slots i := ((I.pd i).2 k (by rw [hp]; simp [Pc.pend])).1
  have hin : .edge i k ∈ s.owed u := (I.cr u i k hu hk).2 (.inr (.inl (by rw [hp]; simp [Pc.pend])))
  have hme := mem_erase_nd (I.nd u) (.edge i k)
  have hle := length_erase_mem hin
  have hnd : ((s.owed u).erase (.edge i k)).Nodup := (I.nd u).erase _
  have hkn : k ∉ ks ∧ ks.Nodup := by simpa [hp, Pc.pend] using (I.pd i).1
  have htc : (Pc.cts1 i ks m).tocall = (Pc.cts2 i (k :: ks) m).tocall := by cases m <;> rfl
  have hen : (Pc.cts1 i ks m).ending = false := by
    have := I.en i
    rw [hp] at this
    cases m with
    | none => simp [Pc.ending, Pc.pend] at this
    | some m => rfl
  obtain ⟨hmu, hou⟩ := I.edge_idle hin he
  have hpu : pcm s.pc s.main u = .none := pcm_none hmu
  generalize (s.owed u).erase (.edge i k) = ow at *
  constructor
  all_goals dsimp only
  case fr => have h_fr := I.fr; clear I; grind
  case mn => have h_mn := I.mn; have h_fr := I.fr; clear I; grind
  case rn => have h_rn := I.rn; clear I; grind
  case rn' => have h_rnp := I.rn'; clear I; grind
  case sl => have h_sl := I.sl; clear I; grind
  case nd => have h_nd := I.nd; clear I; grind
  case pre => have h_pre := I.pre; clear I; grind
  case own => have h_own := I.own; clear I; grind
  case ed => have h_ed := I.ed; clear I; grind
  case cr => have h_cr := I.cr; have h_ex1 := I.ex1; have h_ex2 := I.ex2; clear I; grind
  case ex1 => have h_ex1 := I.ex1; have h_cr := I.cr; have h_ex2 := I.ex2; clear I; grind
  case ex2 => have h_ex2 := I.ex2; have h_cr := I.cr; have h_ex1 := I.ex1; clear I; grind
  case q1 => have h_q1 := I.q1; clear I; grind
  case un => have h_un := I.un; clear I; grind
  case pd => have h_pd := I.pd; clear I; grind
  case en => have h_en := I.en; clear I; grind
  case fi => have h_fi := I.fi; have h_en := I.en; clear I; grind
  case dn => have h_dn := I.dn; have h_fi := I.fi; clear I; grind
  case cs => have h_cs := I.cs; clear I; grind
  case cf => have h_cf := I.cf; clear I; grind
  case sn => have h_sn := I.sn; clear I; grind
  case sd => have h_sd := I.sd; clear I; grind
  case cj => have h_cj := I.cj; have h_fr := I.fr; clear I; grind
  case rj => have h_rj := I.rj; have h_fr := I.fr; clear I; grind
  case rr => have h_rr := I.rr; clear I; grind
  case so => have h_so := I.so; clear I; grind
  case cl => have h_cl := I.cl; have h_fr := I.fr; clear I; grind
  case cn => have h_cn := I.cn; have h_fr := I.fr; clear I; grind
  case cp => have h_cp := I.cp; have h_fr := I.fr; clear I; grind
  case xt => have h_xt := I.xt; clear I; grind
  case wk => have h_wk := I.wk; have h_fi := I.fi; clear I; grind
  case su => have h_su := I.su; clear I; grind
  case fa => have h_fa := I.fa; clear I; grind
  case cb => have h_cb := I.cb; clear I; grind
  case ca => have h_ca := I.ca; clear I; grind
  case fl => have h_fl := I.fl; clear I; grind

theorem Inv.cts_run (W : G.Wf) (I : Inv G s) {j i k u : Nat} {ks : List Nat} {m : Option Args} (h : s.pc j = .cts2 i (k :: ks) m)
    (hu : G.up i k = some u) (he : (s.owed u).erase (.edge i k) = []) (hq : isEmpty G s u = false ∨ s.closeQ u = true) :
    Inv G { s with pc := upd (upd s.pc s.next (.pop u)) j (.cts1 i ks m), susp := upd s.susp u (s.susp u - 1),
                   owed := upd s.owed u ((s.owed u).erase (.edge i k)), main := upd s.main u (some s.next),
                   next := s.next + 1 } := by
  have ho1 : (s.pc j).of = some i := by rw [h]; rfl
  have hm : s.main i = some j := (I.mn i j).1 ho1
  have hp : pcm s.pc s.main i = .cts2 i (k :: ks) m := by rw [pcm_some hm, h]
  have hj : j ≠ s.next := by rintro rfl; exact I.main_ne i hm
  have hg : ∀ i', pcm (upd (upd s.pc s.next (.pop u)) j (.cts1 i ks m)) (upd s.main u (some s.next)) i' =
      if i' = u then .pop u else if i' = i then .cts1 i ks m else pcm s.pc s.main i' := by
    intro i'
    rw [upd_comm (Ne.symm hj), pcm_new (fun i' _ => I.main_ne i'), pcm_goto I ho1]
  have hc : ∀ i', pcm (upd (upd s.pc s.next (.pop u)) j (.cts1 i ks m)) s.clr i' = pcm s.pc s.clr i' := by
    intro i'
    rw [upd_comm (Ne.symm hj), pcm_same _ I.clr_ne, pcm_clr I ho1]
  have hui : u < i := W.order _ _ _ hu
  have hk : k < G.slots i := ((I.pd i).2 k (by rw [hp]; simp [Pc.pend])).1
  have hin : .edge i k ∈ s.owed u := (I.cr u i k hu hk).2 (.inr (.inl (by rw [hp]; simp [Pc.pend])))
  have hme := mem_erase_nd (I.nd u) (.edge i k)
  have hle := length_erase_mem hin
  have hnd : ((s.owed u).erase (.edge i k)).Nodup := (I.nd u).erase _
  have hkn : k ∉ ks ∧ ks.Nodup := by simpa [hp, Pc.pend] using (I.pd i).1
  have htc : (Pc.cts1 i ks m).tocall = (Pc.cts2 i (k :: ks) m).tocall := by cases m <;> rfl
  have hen : (Pc.cts1 i ks m).ending = false := by
    have := I.en i
    rw [hp] at this
    cases m with
    | none => simp [Pc.ending, Pc.pend] at this
    | some m => rfl
  obtain ⟨hmu, hou⟩ := I.edge_idle hin he
  have hpu : pcm s.pc s.main u = .none := pcm_none hmu
  have hfr := I.fresh
  generalize (s.owed u).erase (.edge i k) = ow at *
  constructor
  all_goals dsimp only
  case fr => have h_fr := I.fr; clear I; grind
  case mn => have h_mn := I.mn; have h_fr := I.fr; clear I; grind
  case rn => have h_rn := I.rn; clear I; grind
  case rn' => have h_rnp := I.rn'; clear I; grind
  case sl => have h_sl := I.sl; clear I; grind
  case nd => have h_nd := I.nd; clear I; grind
  case pre => have h_pre := I.pre; clear I; grind
  case own => have h_own := I.own; clear I; grind
  case ed => have h_ed := I.ed; clear I; grind
  case cr => have h_cr := I.cr; have h_ex1 := I.ex1; have h_ex2 := I.ex2; clear I; grind
  case ex1 => have h_ex1 := I.ex1; have h_cr := I.cr; have h_ex2 := I.ex2; clear I; grind
  case ex2 => have h_ex2 := I.ex2; have h_cr := I.cr; have h_ex1 := I.ex1; clear I; grind
  case q1 => have h_q1 := I.q1; clear I; grind
  case un => have h_un := I.un; clear I; grind
  case pd => have h_pd := I.pd; clear I; grind
  case en => have h_en := I.en; clear I; grind
  case fi => have h_fi := I.fi; have h_en := I.en; clear I; grind
  case dn => have h_dn := I.dn; have h_fi := I.fi; clear I; grind
  case cs => have h_cs := I.cs; clear I; grind
  case cf => have h_cf := I.cf; clear I; grind
  case sn => have h_sn := I.sn; clear I; grind
  case sd => have h_sd := I.sd; clear I; grind
  case cj => have h_cj := I.cj; have h_fr := I.fr; clear I; grind
  case rj => have h_rj := I.rj; have h_fr := I.fr; clear I; grind
  case rr => have h_rr := I.rr; clear I; grind
  case so => have h_so := I.so; clear I; grind
  case cl => have h_cl := I.cl; have h_fr := I.fr; clear I; grind
  case cn => have h_cn := I.cn; have h_fr := I.fr; clear I; grind
  case cp => have h_cp := I.cp; have h_fr := I.fr; clear I; grind
  case xt => have h_xt := I.xt; clear I; grind
  case wk => have h_wk := I.wk; have h_fi := I.fi; clear I; grind
  case su => have h_su := I.su; clear I; grind
  case fa => have h_fa := I.fa; clear I; grind
  case cb => have h_cb := I.cb; clear I; grind
  case ca => have h_ca := I.ca; clear I; grind
  case fl => have h_fl := I.fl; clear I; grind

theorem ctsCrit_more {u : Nat} {c : Credit} (h0 : ¬s.susp u - 1 = 0) :
    ctsCrit G u c s = { s with susp := upd s.susp u (s.susp u - 1), owed := upd s.owed u ((s.owed u).erase c) } := by
  have e : ¬upd s.susp u (s.susp u - 1) u = 0 := by simpa [upd] using h0
  unfold ctsCrit
  dsimp only
  rw [if_neg e]

theorem ctsCrit_run {u : Nat} {c : Credit} (h0 : s.susp u - 1 = 0) (hq : isEmpty G s u = false ∨ s.closeQ u = true) :
    ctsCrit G u c s =
      run u { s with susp := upd s.susp u (s.susp u - 1), owed := upd s.owed u ((s.owed u).erase c) } := by
  have e : upd s.susp u (s.susp u - 1) u = 0 := by simpa [upd] using h0
  unfold ctsCrit
  dsimp only
  rw [if_pos e, if_pos]
  exact hq

theorem ctsCrit_rest {u : Nat} {c : Credit} (h0 : s.susp u - 1 = 0) (hq : ¬(isEmpty G s u = false ∨ s.closeQ u = true)) :
    ctsCrit G u c s =
      { s with susp := upd s.susp u (s.susp u - 1), owed := upd s.owed u ((s.owed u).erase c),
               running := upd s.running u false } := by
  have e : upd s.susp u (s.susp u - 1) u = 0 := by simpa [upd] using h0
  unfold ctsCrit
  dsimp only
  rw [if_pos e, if_neg]
  exact hq

theorem Inv.cts (W : G.Wf) (I : Inv G s) {j i k u : Nat} {ks : List Nat} {m : Option Args} (h : s.pc j = .cts2 i (k :: ks) m)
    (hu : G.up i k = some u) : Inv G (goto j (.cts1 i ks m) (ctsCrit G u (.edge i k) s)) := by
  have ho1 : (s.pc j).of = some i := by rw [h]; rfl
  have hm : s.main i = some j := (I.mn i j).1 ho1
  have hp : pcm s.pc s.main i = .cts2 i (k :: ks) m := by rw [pcm_some hm, h]
  have hk : k < G.slots i := ((I.pd i).2 k (by rw [hp]; simp [Pc.pend])).1
  have hin : .edge i k ∈ s.owed u := (I.cr u i k hu hk).2 (.inr (.inl (by rw [hp]; simp [Pc.pend])))
  have hle := length_erase_mem hin
  have hsl := I.sl u
  by_cases h0 : s.susp u - 1 = 0
  · have he : (s.owed u).erase (.edge i k) = [] := List.eq_nil_of_length_eq_zero (by omega)
    by_cases hq : isEmpty G s u = false ∨ s.closeQ u = true
    · rw [ctsCrit_run h0 hq]
      exact I.cts_run W h hu he hq
    · rw [ctsCrit_rest h0 hq]
      simp only [not_or, Bool.not_eq_false, Bool.not_eq_true] at hq
      exact I.cts_rest W h hu he hq.1 hq.2
  · have hne : (s.owed u).erase (.edge i k) ≠ [] := by intro h; rw [h] at hle; simp at hle; omega
    rw [ctsCrit_more h0]
    exact I.cts_more W h hu hne

end Verif.Channel
