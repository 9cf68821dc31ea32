import Verif.Channel.Hist

/-!
# The invariant of networks with small buffers
-/

namespace Verif.Channel

/-- Of all processes downstream of a process, one has the default buffer size, 1; the others may have any, only that
0 (unlimited) and sizes over 64 bits are excluded for the round robin and unordered merges. The default sizes satisfy it. -/
structure Net.Tight (G : Net) : Prop where
  one : ∀ i, G.down i ≠ [] → ∃ e ∈ G.down i, G.buf e.1 = 1
  merge : ∀ d, G.strat d = .rr ∨ G.strat d = .unord → 0 < G.buf d ∧ G.buf d < 2 ^ 64

/-- The process whose step the thread runs. -/
def Pc.of : Pc → Option Nat
  | .pop i | .cts1 i _ _ | .cts2 i _ _ | .dead i _ | .call i _ | .busy i | .bcast i _ | .free i _ _ _ | .susp i _ _ | .send i _ _
  | .own1 i | .own2 i | .taskDone i => some i
  | _ => .none

/-- Before the suspend count is set. -/
def Pc.pre : Pc → Bool
  | .pop _ | .cts1 .. | .cts2 .. | .dead .. | .call .. | .busy _ | .bcast .. | .free .. | .susp .. | .taskDone _ => true
  | _ => false

/-- After. -/
def Pc.post : Pc → Bool
  | .send .. | .own1 _ | .own2 _ => true
  | _ => false

/-- Slots to be told that they may send. -/
def Pc.pend : Pc → List Nat
  | .cts1 _ ks _ | .cts2 _ ks _ => ks
  | _ => []

/-- Downstream slots that have not got the result. -/
def Pc.unsent : Pc → List Edge
  | .send _ _ rest => rest
  | _ => []

/-- What will be called. -/
def Pc.tocall : Pc → List Args
  | .cts1 _ _ (some m) | .cts2 _ _ (some m) | .dead _ m | .call _ m => [m]
  | _ => []

/-- What will be sent to all of downstream. -/
def Pc.fresh : Pc → List Msg
  | .bcast _ r | .free _ r _ _ | .susp _ r _ => [r]
  | _ => []

/-- What is being sent. -/
def Pc.sending : Pc → List Msg
  | .send _ r _ => [r]
  | _ => []

/-- The step found no message. -/
def Pc.ending : Pc → Bool
  | .cts1 _ _ .none | .cts2 _ _ .none | .taskDone _ => true
  | _ => false

/-- In the function. -/
def Pc.inside : Pc → Nat
  | .busy _ => 1
  | _ => 0

/-- The senders still to be destroyed. -/
def Pc.rest : Pc → List (Nat × SOwner)
  | .clear es | .close2 _ es => es
  | _ => []

/-- In `remove_sender` for `d`. -/
def Pc.closes : Pc → Option Nat
  | .close2 d _ => some d
  | _ => .none

def Pc.readies : Pc → Option Nat
  | .ready2 d => some d
  | _ => .none

/-- Where the thread of process `i` is. -/
def pcm (pc : Nat → Pc) (main : Nat → Option Nat) (i : Nat) : Pc :=
  match main i with
  | some j => pc j
  | none => .none

structure Inv (G : Net) (s : St) : Prop where
  fr : ∀ j, s.next ≤ j → s.pc j = .none
  mn : ∀ i j, (s.pc j).of = some i ↔ s.main i = some j
  rn : ∀ i, s.running i = false → s.main i = none ∧ s.owed i = []
  rn' : ∀ i, s.running i = true → s.main i ≠ none ∨ s.owed i ≠ []
  sl : ∀ i, s.susp i = (s.owed i).length
  nd : ∀ i, (s.owed i).Nodup
  pre : ∀ i, (pcm s.pc s.main i).pre = true → s.owed i = []
  own : ∀ i, .own ∈ s.owed i ↔ (pcm s.pc s.main i).post = true
  ed : ∀ i d k, .edge d k ∈ s.owed i → G.up d k = some i ∧ k < G.slots d
  cr : ∀ i d k, G.up d k = some i → k < G.slots d →
    (.edge d k ∈ s.owed i ↔ s.q d k ≠ [] ∨ k ∈ (pcm s.pc s.main d).pend ∨ (d, k) ∈ (pcm s.pc s.main i).unsent)
  ex1 : ∀ i d k, G.up d k = some i → k < G.slots d → s.q d k ≠ [] →
    k ∉ (pcm s.pc s.main d).pend ∧ (d, k) ∉ (pcm s.pc s.main i).unsent
  ex2 : ∀ i d k, G.up d k = some i → k < G.slots d → k ∈ (pcm s.pc s.main d).pend →
    (d, k) ∉ (pcm s.pc s.main i).unsent
  q1 : ∀ i d k, G.up d k = some i → k < G.slots d → (s.q d k).length ≤ 1
  un : ∀ i, (pcm s.pc s.main i).unsent.Nodup ∧ ∀ e ∈ (pcm s.pc s.main i).unsent, e ∈ s.down i
  pd : ∀ i, (pcm s.pc s.main i).pend.Nodup ∧ ∀ k ∈ (pcm s.pc s.main i).pend, k < G.slots i ∧ G.up i k ≠ none
  en : ∀ i, (pcm s.pc s.main i).ending = true → (pcm s.pc s.main i).pend = []
  fi : ∀ i, s.final i = true → isEmpty G s i = true ∧ s.closeQ i = false ∧ s.owed i = [] ∧
    ((pcm s.pc s.main i).ending = true ∨ (s.main i = none ∧ s.down i = []))
  dn : ∀ i, (s.down i = G.down i ∧ s.clr i = none) ∨ (s.down i = [] ∧ s.final i = true ∧ s.main i = none)
  cs : ∀ i, s.sown i = [] ↔ s.closeQ i = true ∨ s.final i = true ∨ s.clsJob i ≠ none
  cf : ∀ i, s.clsJob i ≠ none → s.closeQ i = false ∧ s.final i = false
  sn : ∀ i, s.snd i = (s.sown i).length
  sd : ∀ i, (s.sown i).Nodup
  cj : ∀ i j, (s.pc j).closes = some i ↔ s.clsJob i = some j
  rj : ∀ i j, (s.pc j).readies = some i ↔ s.rdyJob i = some j
  rr : ∀ i, s.rdyJob i ≠ none → s.rcv i = 0
  so : ∀ i d k, .up i k ∈ s.sown d ↔ (d, k) ∈ s.down i ∨ (d, .up i k) ∈ (pcm s.pc s.clr i).rest
  cl : ∀ j x, x ∈ (s.pc j).rest → ∃ i k, x.2 = .up i k ∧ s.clr i = some j
  cn : ∀ j, (s.pc j).rest.Nodup
  cp : ∀ i j, s.clr i = some j → (s.pc j).of = none ∧ (s.pc j).readies = none ∧ j < s.next
  xt : ∀ i n, .ext n ∈ s.sown i → G.up i 0 = none ∧ G.strat i = .dflt
  wk : ∀ i, isEmpty G s i = false ∨ s.closeQ i = true → s.running i = true ∨ s.rcv i ≠ 0 ∨ s.rdyJob i ≠ none
  su : ∀ i r b, pcm s.pc s.main i = .susp i r b → b = true
  fa : ∀ i r es acc, pcm s.pc s.main i = .free i r es acc → ((∃ e ∈ es, G.buf e.1 = 1) ∨ acc ≤ 1) ∧ ∀ e ∈ es, e ∈ s.down i
  cb : ∀ i, (s.calls i).length = (s.outs i).length + (pcm s.pc s.main i).inside
  ca : ∀ i, s.pops i = s.calls i ++ (pcm s.pc s.main i).tocall
  fl : ∀ i d k, G.up d k = some i → k < G.slots d →
    s.outs i = s.inp d k ++ (pcm s.pc s.main i).fresh ++
      if (d, k) ∈ (pcm s.pc s.main i).unsent then (pcm s.pc s.main i).sending else []

theorem Inv.init {G : Net} (W : G.Wf) : Inv G (init G) := by
  have hs : ∀ i, (List.range (G.slots i)).map (fun k => match G.up i k with
    | some u => SOwner.up u k
    | none => .ext k) ≠ [] := by
    intro i h; have := W.slots i; simp only [List.map_eq_nil_iff, List.range_eq_nil] at h; omega
  have he : ∀ i, isEmpty G (Channel.init G) i = true := by
    intro i
    unfold isEmpty emptyQ Channel.init
    have := W.slots i
    cases G.strat i <;> simp
    exact ⟨0, this⟩
  constructor
  case so =>
    intro i d k
    simp only [Channel.init, pcm, Pc.rest, List.not_mem_nil, or_false, List.mem_map, List.mem_range, W.edges]
    constructor
    · rintro ⟨a, ha, h⟩
      split at h <;> simp_all
    · rintro ⟨h1, h2⟩
      exact ⟨k, h2, by simp [h1]⟩
  case xt =>
    intro i n h
    simp only [Channel.init, List.mem_map, List.mem_range] at h
    obtain ⟨a, ha, h⟩ := h
    split at h
    · cases h
    · rename_i hu
      have hd := W.head i a ha hu
      have := W.dflt i hd
      have : a = 0 := by omega
      subst this
      exact ⟨hu, hd⟩
  case sd =>
    intro i
    simp only [Channel.init]
    refine List.Pairwise.map _ ?_ List.nodup_range
    intro a b hab
    split <;> split <;> simp_all
  case wk => intro i h; rw [he i] at h; simp [Channel.init] at h
  case cs => intro i; simpa [Channel.init] using hs i
  all_goals intros
  all_goals simp_all [Channel.init, pcm, Pc.of, Pc.pre, Pc.post, Pc.pend, Pc.unsent, Pc.tocall, Pc.fresh, Pc.sending,
    Pc.inside, Pc.ending, Pc.rest, Pc.closes, Pc.readies]

end Verif.Channel
