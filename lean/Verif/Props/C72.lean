import Verif.Proofs.Ordinary
import Verif.Proofs.PatternStart
import Verif.Props.C12C16
import Verif.Props.C01Exact
import Verif.Props.C07Exact
import Verif.Props.C39C41
import Verif.Props.C37C38
/-!
# C72: graphs that were decoded or copied are ordinary graphs

All other properties speak about graphs that were built by the calls of `Op`. What `Decode` and the copying functions leave
behind, some sequence of calls of `NewNode` and `NewEdge` leaves behind as well, and it is valid. So all other properties hold
after them too.
-/
namespace LPG
open World Json

theorem World.runFrom_then {more : List (Nat × Op)} {W2 : World} : ∀ {ops : List (Nat × Op)} {W W1 : World},
    runFrom W ops = some W1 → runFrom W1 more = some W2 → runFrom W (ops ++ more) = some W2
  | [], _, _, h1, h2 => by cases h1; exact h2
  | (_, _) :: ops, W, W1, h1, h2 => by
    rw [World.runFrom] at h1
    simp only [List.cons_append, World.runFrom]
    split at h1
    · cases h1
    · exact World.runFrom_then h1 h2

theorem WSpec.validFrom_then {more : List (Nat × Op)} : ∀ {ops : List (Nat × Op)} {ω : WSpec}, ω.ValidFrom ops →
    (ω.runFrom ops).ValidFrom more → ω.ValidFrom (ops ++ more)
  | [], _, _, h => h
  | (_, _) :: ops, _, h1, h2 => ⟨h1.1, WSpec.validFrom_then (ops := ops) h1.2 h2⟩

theorem WSpec.runFrom_then {more : List (Nat × Op)} : ∀ {ops : List (Nat × Op)} {ω : WSpec},
    ω.runFrom (ops ++ more) = (ω.runFrom ops).runFrom more
  | [], _ => rfl
  | (_, _) :: ops, _ => by simp only [List.cons_append, WSpec.runFrom]; exact WSpec.runFrom_then (ops := ops)

/-! ## Decoding -/

/-- `Decode` of any text, with any codec, into the graph of any program: whether it returns an error or not, the graph
afterwards is one that calls of `NewNode` and `NewEdge` make of it. -/
theorem C72_decode {ops : List Op} {s : State} (hv : Spec.ValidHistory ops) (hr : run ops = some s) {c : Codec} {ts : List Tok}
    {err : Option Err} {s' : State} (h : decode c s ts = some (err, s')) :
    ∃ more : List Op, (∀ op ∈ more, op.adds = true) ∧ Spec.ValidHistory (ops ++ more) ∧ run (ops ++ more) = some s' := by
  obtain ⟨more, h1, h2, h3⟩ := decode_added (Core.run hv hr) h
  refine ⟨more, h1, Spec.validFrom_append.2 ⟨hv, h2⟩, ?_⟩
  have hr' : runFrom State.new ops = some s := hr
  show runFrom State.new (ops ++ more) = some s'
  rw [runFrom_append, hr']
  exact h3

/-- The same for one graph of several. -/
theorem C72_decode_in {ops : List (Nat × Op)} {W : World} (hv : WSpec.ValidHistory ops) (hr : World.run ops = some W) {g : Nat}
    {c : Codec} {ts : List Tok} {err : Option Err} {s' : State} (h : decode c (W.view g) ts = some (err, s')) :
    ∃ (more : List Op) (W' : World), (∀ op ∈ more, op.adds = true) ∧ WSpec.ValidHistory (andOn ops g more) ∧
      World.run (andOn ops g more) = some W' ∧ W'.view g = s' := by
  have r := Rep.init.runFrom hv hr
  obtain ⟨more, h1, h2, h3⟩ := decode_added (r.core g) h
  obtain ⟨W', g1, g2, g3⟩ := runs_view r h2 h3
  exact ⟨more, W', h1, WSpec.validFrom_then hv g3, World.runFrom_then hr g1, g2⟩

/-! ## What calls that only create do not spoil -/

theorem adds_clean : ∀ {ops : List Op} {σ : Spec} {d : ListFlags} {g : Nat → String} {b b' : Bool} {K : List String},
    (∀ op ∈ ops, op.adds = true) → d.gone = false →
    σ.ListOkFrom d ops ∧ σ.FiledOkFrom g ops ∧ σ.NodeIndexSafe d b ops ∧ σ.EdgeIndexIntact g b' K ops ∧
      σ.AlwaysFrom (fun σ op => σ.Relabeled [] op = []) ops
  | [], _, _, _, _, _, _, _, _ => ⟨trivial, trivial, trivial, trivial, trivial⟩
  | op :: ops, σ, d, g, b, b', K, h, hd => by
    have ho := h op (by simp)
    have hd' : (σ.listFlags d op).gone = false := by
      rcases adds_cases ho with ⟨_, _, rfl⟩ | ⟨_, _, _, _, rfl⟩ <;> simp [Spec.listFlags, hd]
    obtain ⟨i1, i2, i3, i4, i5⟩ := adds_clean (ops := ops) (σ := σ.step op) (d := σ.listFlags d op) (g := σ.filed g op)
      (b := b && decide (σ.ListSafe d op)) (b' := b' && decide (σ.FiledSafe g op)) (K := op.edgeIndexKey ++ K)
      (fun o hx => h o (by simp [hx])) hd'
    refine ⟨⟨?_, i1⟩, ⟨?_, i2⟩, ⟨?_, i3⟩, ⟨?_, ?_, i4⟩, ?_, i5⟩
    · rcases adds_cases ho with ⟨_, _, rfl⟩ | ⟨_, _, _, _, rfl⟩ <;> simp [Spec.ListSafe, hd]
    · refine Or.inr (fun e he hn => absurd ?_ hn)
      rcases adds_cases ho with ⟨_, _, rfl⟩ | ⟨_, _, _, _, rfl⟩ <;> simp [Spec.step, he]
    · rcases adds_cases ho with ⟨_, _, rfl⟩ | ⟨_, _, _, _, rfl⟩ <;> simp [Op.indexesNodes]
    · rcases adds_cases ho with ⟨_, _, rfl⟩ | ⟨_, _, _, _, rfl⟩ <;> simp [Op.removesEdge]
    · rcases adds_cases ho with ⟨_, _, rfl⟩ | ⟨_, _, _, _, rfl⟩ <;> simp [Op.edgeIndexKey]
    · rcases adds_cases ho with ⟨_, _, rfl⟩ | ⟨_, _, _, _, rfl⟩ <;> rfl

/-- A graph that was decoded into a new graph is not spoiled by anything: the enumerations of its nodes and edges (C01, C04), the
edges by label (C07) and the lookups by property (C12, C13) are right, and searches start right (`StartsRight`, C30). -/
theorem C72_fresh {c : Codec} {ts : List Tok} {err : Option Err} {s' : State} (h : decode c State.new ts = some (err, s')) :
    ∃ ops : List Op, (∀ op ∈ ops, op.adds = true) ∧ Spec.ValidHistory ops ∧ run ops = some s' ∧ StartsRight ops ∧
      C01_statement ops ∧ C04_statement ops ∧ C07_statement ops ∧ ∀ k, C12_statement ops k ∧ C13_statement ops k := by
  obtain ⟨ops, h1, h2, h3⟩ := C72_decode (ops := []) trivial rfl h
  rw [List.nil_append] at h2 h3
  obtain ⟨i1, i2, i3, i4, i5⟩ := adds_clean (σ := Spec.new) (d := { gone := false, restart := none }) (g := fun _ => "") (b := true)
    (b' := true) (K := []) h1 rfl
  have hne : ∀ k, ¬ EdgeIndexed ops k := by
    rintro k ⟨t, ht⟩
    exact absurd (h1 _ ht) (by simp [Op.adds])
  exact ⟨ops, h1, h2, h3, ⟨i1, i2, i3, i4⟩, C01_safe_partial ops h2 i1, C04_filed_partial ops h2 i2, C07_partial ops h2 i5,
    fun k => ⟨C12_partial ops h2 i1 i3 k, C13_scan_partial ops h2 i2 k (hne k)⟩⟩

/-! ## Copying -/

theorem addedOn {ops : List (Nat × Op)} {W : World} (hv : WSpec.ValidHistory ops) (hr : World.run ops = some W) (t : Nat) :
    AddedOn t W (WSpec.run ops) W (WSpec.run ops) :=
  AddedOn.start (Rep.init.runFrom hv hr) (neat_runFrom Rep.init Neat_new hv hr)

theorem World.AddedOn.ordinary {ops : List (Nat × Op)} {W W' : World} {ω : WSpec} {t : Nat} (hv : WSpec.ValidHistory ops)
    (hr : World.run ops = some W) (h : AddedOn t W (WSpec.run ops) W' ω) :
    ∃ more : List Op, (∀ op ∈ more, op.adds = true) ∧ WSpec.ValidHistory (andOn ops t more) ∧
      World.run (andOn ops t more) = some W' ∧ ω = WSpec.run (andOn ops t more) := by
  obtain ⟨_, _, more, h1, h2, h3, h4⟩ := h
  exact ⟨more, h1, WSpec.validFrom_then hv h2, World.runFrom_then hr h3, by rw [h4]; exact WSpec.runFrom_then.symm⟩

variable {ops : List (Nat × Op)} {W : World} {s t : Nat} {f : String → Value → Value} {W' : World} {m : AMap Nat Nat}

/-- `CopyGraph`: the graphs afterwards are those that calls of `NewNode` and `NewEdge` on the target make of them, and the
copies are live nodes of the target. -/
theorem C72_copyGraph (hv : WSpec.ValidHistory ops) (hr : World.run ops = some W) (h : W.copyGraph s t f = some (W', m)) :
    ∃ more : List Op, (∀ op ∈ more, op.adds = true) ∧ WSpec.ValidHistory (andOn ops t more) ∧
      World.run (andOn ops t more) = some W' ∧ ∀ p ∈ m, p.2 ∈ (WSpec.run (andOn ops t more) t).nodes := by
  obtain ⟨ω, h1, h2⟩ := (addedOn hv hr t).copyGraph h
  obtain ⟨more, g1, g2, g3, rfl⟩ := h1.ordinary hv hr
  exact ⟨more, g1, g2, g3, h2⟩

/-- `CopyGraphf` with functions that clone nodes and edges or leave them out. -/
theorem C72_copyGraphf (hv : WSpec.ValidHistory ops) (hr : World.run ops = some W) {keep keepEdge : Nat → Bool}
    (h : CopyF.copyGraphf (fun W => W.view s) (CopyF.cloneFuncs t f keep keepEdge) W = some (W', m)) :
    ∃ more : List Op, (∀ op ∈ more, op.adds = true) ∧ WSpec.ValidHistory (andOn ops t more) ∧
      World.run (andOn ops t more) = some W' ∧ ∀ p ∈ m, p.2 ∈ (WSpec.run (andOn ops t more) t).nodes := by
  obtain ⟨ω, h1, h2⟩ := (addedOn hv hr t).ofClone h
  obtain ⟨more, g1, g2, g3, rfl⟩ := h1.ordinary hv hr
  exact ⟨more, g1, g2, g3, h2⟩

/-- `CopySubgraph`, with a map that leads to live nodes of the target. -/
theorem C72_copySubgraph (hv : WSpec.ValidHistory ops) (hr : World.run ops = some W) {m0 : AMap Nat Nat}
    (hm : ∀ p ∈ m0, p.2 ∈ (WSpec.run ops t).nodes) {n : Nat} (h : World.copySubgraph t f (W, m0) n = some (W', m)) :
    ∃ more : List Op, (∀ op ∈ more, op.adds = true) ∧ WSpec.ValidHistory (andOn ops t more) ∧
      World.run (andOn ops t more) = some W' ∧ ∀ p ∈ m, p.2 ∈ (WSpec.run (andOn ops t more) t).nodes := by
  obtain ⟨ω, h1, h2⟩ := AddedOn.copySubgraph _ _ _ h _ (addedOn hv hr t) hm
  obtain ⟨more, g1, g2, g3, rfl⟩ := h1.ordinary hv hr
  exact ⟨more, g1, g2, g3, h2⟩

/-- `CopyNode` of any node of the program, live or not: one call of `NewNode`. -/
theorem C72_copyNode (hv : WSpec.ValidHistory ops) (hr : World.run ops = some W) {n n' : Nat}
    (h : W.copyNode n t f = some (W', n')) :
    ∃ ls ps, WSpec.ValidHistory (ops ++ [(t, .newNode ls ps)]) ∧ World.run (ops ++ [(t, .newNode ls ps)]) = some W' ∧
      n' ∈ (WSpec.run (ops ++ [(t, .newNode ls ps)]) t).nodes := by
  have r := Rep.init.runFrom hv hr
  obtain ⟨τ, k⟩ := keptSelf (neat_runFrom Rep.init Neat_new hv hr)
  obtain ⟨g1, _, _, g2⟩ := cloneNode_step r k (t := t) (f := f) (n := n) trivial
  obtain ⟨g2, rfl⟩ := g2 _ _ h
  refine ⟨_, _, wvalid_snoc hv g1, wrun_snoc hr g2, ?_⟩
  unfold WSpec.run
  rw [wspec_snoc]
  simp [WSpec.step, Spec.step]

/-- `CopyEdge` of any edge of the program, live or not, with a map that leads to live nodes of the target: one call of
`NewEdge` between the nodes that the map has for its ends. -/
theorem C72_copyEdge (hv : WSpec.ValidHistory ops) (hr : World.run ops = some W) (hm : ∀ p ∈ m, p.2 ∈ (WSpec.run ops t).nodes)
    {e e' : Nat} (h : W.copyEdge e t f m = some (W', e')) :
    ∃ a b l ps, m.get (W.heap.eFrom e) = some a ∧ m.get (W.heap.eTo e) = some b ∧
      WSpec.ValidHistory (ops ++ [(t, .newEdge a b l ps)]) ∧ World.run (ops ++ [(t, .newEdge a b l ps)]) = some W' ∧
      e' ∈ (WSpec.run (ops ++ [(t, .newEdge a b l ps)]) t).edges := by
  have r := Rep.init.runFrom hv hr
  obtain ⟨τ, k⟩ := keptSelf (neat_runFrom Rep.init Neat_new hv hr)
  unfold World.copyEdge at h
  cases ha : m.get (W.heap.eFrom e) with
  | none => rw [ha] at h; cases h
  | some a =>
    cases hb : m.get (W.heap.eTo e) with
    | none => rw [ha, hb] at h; cases h
    | some b =>
      rw [ha, hb] at h
      obtain ⟨g1, _, _, g2⟩ := cloneEdge_step r k (t := t) (f := f) (e := e) trivial (MapsTo.get hm ha) (MapsTo.get hm hb)
      obtain ⟨g2, rfl⟩ := g2 _ _ h
      refine ⟨a, b, _, _, rfl, rfl, wvalid_snoc hv g1, wrun_snoc hr g2, ?_⟩
      unfold WSpec.run
      rw [wspec_snoc]
      simp [WSpec.step, Spec.step]

/-! ## Cases -/

/-- A document with two nodes and an edge, after which the text is cut off: the graph keeps what was read. -/
example : (decode (plain false) State.new [.lbrace, .str "nodes", .colon, .lbrack, .lbrace, .str "n", .colon, .num 0, .rbrace,
      .rbrack]).map (fun r => (r.1, r.2.getNodes)) = some (some .input, some [0]) := by decide +kernel

def copiedOps : List (Nat × Op) :=
  [(0, .newNode ["A", "B"] []), (1, .newNode ["T"] []), (0, .newNode [] []), (0, .newEdge 0 2 "e" []), (0, .detachRemove 2)]

example : WSpec.ValidHistory copiedOps ∧ (∀ p ∈ ([(0, 1)] : AMap Nat Nat), p.2 ∈ (WSpec.run copiedOps 1).nodes) ∧
    ((World.run copiedOps).bind (fun W => W.copyNode 2 1 (fun _ v => v))).isSome ∧
    ((World.run copiedOps).bind (fun W => W.copyEdge 3 1 (fun _ v => v) [(0, 1), (2, 1)])).isSome := by decide +kernel

end LPG
