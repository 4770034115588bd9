import Verif.Proofs.WorldAlone
/-!
# The abstract graph of the calls on one graph
-/
namespace LPG

/-- The abstract graph `τ` is `σ` with its objects renamed. -/
structure SSim (f : Nat → Nat) (b : Nat) (σ τ : Spec) : Prop where
  base : σ.next = b
  nodes : τ.nodes = σ.nodes.map f
  edges : τ.edges = σ.edges.map f
  labels : ∀ x, τ.labels (f x) = σ.labels x
  nprop : ∀ x, τ.nprop (f x) = σ.nprop x
  src : ∀ x ∈ σ.edges, τ.src (f x) = f (σ.src x)
  dst : ∀ x ∈ σ.edges, τ.dst (f x) = f (σ.dst x)
  label : ∀ x, τ.label (f x) = σ.label x
  eprop : ∀ x, τ.eprop (f x) = σ.eprop x

variable {f : Nat → Nat} {b : Nat} {σ τ : Spec}

theorem upd_ren {α : Type} {P Q : Nat → α} (hf : Function.Injective f) (h : ∀ x, Q (f x) = P x) (a : Nat) (v : α) (x : Nat) :
    upd Q (f a) v (f x) = upd P a v x := by
  by_cases e : x = a
  · subst e; rw [upd_same, upd_same]
  · rw [upd_other _ _ e, upd_other _ _ (fun e' => e (hf e')), h]

theorem mem_map_inj (hf : Function.Injective f) {l : List Nat} {x : Nat} : f x ∈ l.map f ↔ x ∈ l := by
  rw [List.mem_map]
  exact ⟨fun ⟨y, hy, e⟩ => hf e ▸ hy, fun h => ⟨x, h, rfl⟩⟩

theorem SSim.valid (hf : Function.Injective f) (h : SSim f b σ τ) (op : Op) : τ.Valid (op.ren f) ↔ σ.Valid op := by
  cases op <;> simp only [Op.ren, Spec.Valid, h.nodes, h.edges, mem_map_inj hf]

theorem filter_ren {P Q : Nat → Bool} {l : List Nat} (h : ∀ x ∈ l, Q (f x) = P x) : (l.map f).filter Q = (l.filter P).map f := by
  rw [List.filter_map]
  congr 1
  exact List.filter_congr h

theorem SSim.detach (hf : Function.Injective f) (h : SSim f b σ τ) (n : Nat) : SSim f b (σ.detach n) (τ.detach (f n)) := by
  refine { h with edges := ?_, src := fun x hx => h.src x (List.mem_filter.1 hx).1, dst := fun x hx => h.dst x (List.mem_filter.1 hx).1 }
  simp only [Spec.detach, h.edges]
  refine filter_ren (fun x hx => ?_)
  have hi : ∀ a, f a = f n ↔ a = n := fun a => ⟨fun e => hf e, fun e => by rw [e]⟩
  simp only [h.src x hx, h.dst x hx, ne_eq, hi]

theorem SSim.step (hf : Function.Injective f) (h : SSim f b σ τ) (op : Op) (hn : op.allocs = true → f b = τ.next) :
    SSim f (b + (if op.allocs then 1 else 0)) (σ.step op) (τ.step (op.ren f)) := by
  have ne : ∀ (l : List Nat) (n : Nat), (l.map f).filter (· ≠ f n) = (l.filter (· ≠ n)).map f := by
    intro l n
    refine filter_ren (fun x _ => ?_)
    have hi : f x = f n ↔ x = n := ⟨fun e => hf e, fun e => by rw [e]⟩
    simp only [ne_eq, hi]
  cases op with
  | newNode ls ps =>
    have hb : f b = τ.next := hn rfl
    have bs := h.base
    exact { h with
      base := by simp [Spec.step, bs, Op.allocs]
      nodes := by simp [Spec.step, Op.ren, h.nodes, bs, hb]
      labels := fun x => by simp only [Spec.step, Op.ren, bs, ← hb]; exact upd_ren hf h.labels b _ x
      nprop := fun x => by simp only [Spec.step, Op.ren, bs, ← hb]; exact upd_ren hf h.nprop b _ x }
  | newEdge a c l ps =>
    have hb : f b = τ.next := hn rfl
    have bs := h.base
    have upds : ∀ {p q : Nat → Nat} {v : Nat}, (∀ x ∈ σ.edges, q (f x) = f (p x)) → ∀ x ∈ σ.edges ++ [b],
        upd q (f b) (f v) (f x) = f (upd p b v x) := by
      intro p q v hpq x hx
      by_cases e : x = b
      · subst e; rw [upd_same, upd_same]
      · rw [upd_other _ _ e, upd_other _ _ (fun e' => e (hf e'))]
        rcases List.mem_append.1 hx with h' | h'
        · exact hpq x h'
        · exact absurd (List.mem_singleton.1 h') e
    exact { h with
      base := by simp [Spec.step, bs, Op.allocs]
      edges := by simp [Spec.step, Op.ren, h.edges, bs, hb]
      src := fun x hx => by simp only [Spec.step, Op.ren, bs, ← hb] at hx ⊢; exact upds h.src x hx
      dst := fun x hx => by simp only [Spec.step, Op.ren, bs, ← hb] at hx ⊢; exact upds h.dst x hx
      label := fun x => by simp only [Spec.step, Op.ren, bs, ← hb]; exact upd_ren hf h.label b _ x
      eprop := fun x => by simp only [Spec.step, Op.ren, bs, ← hb]; exact upd_ren hf h.eprop b _ x }
  | setLabels n ls => exact { h with labels := fun x => upd_ren hf h.labels n _ x }
  | setNodeProp n k v => exact { h with nprop := fun x => by simp only [Spec.step, Op.ren, h.nprop n]; exact upd_ren hf h.nprop n _ x }
  | removeNodeProp n k => exact { h with nprop := fun x => by simp only [Spec.step, Op.ren, h.nprop n]; exact upd_ren hf h.nprop n _ x }
  | detach n => exact h.detach hf n
  | detachRemove n => exact { h.detach hf n with nodes := by simp only [Spec.step, Op.ren, h.nodes]; exact ne _ _ }
  | setEdgeLabel e l => exact { h with label := fun x => upd_ren hf h.label e _ x }
  | setEdgeProp n k v => exact { h with eprop := fun x => by simp only [Spec.step, Op.ren, h.eprop n]; exact upd_ren hf h.eprop n _ x }
  | removeEdgeProp n k => exact { h with eprop := fun x => by simp only [Spec.step, Op.ren, h.eprop n]; exact upd_ren hf h.eprop n _ x }
  | removeEdge e =>
    exact { h with
      edges := by simp only [Spec.step, Op.ren, Spec.dropEdge, h.edges]; exact ne _ _
      src := fun x hx => h.src x (List.mem_filter.1 hx).1
      dst := fun x hx => h.dst x (List.mem_filter.1 hx).1 }
  | addNodeIndex k t => exact h
  | addEdgeIndex k t => exact h

/-- The live objects of each abstract graph are in the table of owners. -/
structure SOwned (ω : WSpec) (w : Owners) : Prop where
  next : ∀ g, (ω g).next = w.length
  node : ∀ g, ∀ x ∈ (ω g).nodes, w[x]? = some (g, false)
  edge : ∀ g, ∀ x ∈ (ω g).edges, w[x]? = some (g, true)

theorem SOwned.init : SOwned WSpec.new [] :=
  ⟨fun _ => rfl, fun g x hx => by simp [WSpec.new, Spec.new] at hx, fun g x hx => by simp [WSpec.new, Spec.new] at hx⟩

theorem SOwned.handles {ω : WSpec} {w : Owners} (o : SOwned ω w) {g : Nat} {op : Op} (hv : (ω g).Valid op) :
    ∀ p ∈ op.handles, w[p.1]? = some (g, p.2) := by
  cases op <;> simp only [Spec.Valid] at hv <;> simp only [Op.handles, List.mem_cons, List.not_mem_nil, or_false, forall_eq_or_imp, forall_eq]
  all_goals first
    | exact fun _ h => h.elim
    | exact ⟨o.node _ _ hv.1, o.node _ _ hv.2.1⟩
    | exact o.node _ _ hv.1
    | exact o.node _ _ hv
    | exact o.edge _ _ hv
    | trivial

theorem SOwned.step {ω : WSpec} {w : Owners} (o : SOwned ω w) (g : Nat) (op : Op) : SOwned (ω.step g op) (w.after g op) := by
  have hn : ((ω g).step op).next = (w.after g op).length := by
    rw [Owners.after_length, ← o.next g]
    cases op <;> rfl
  refine ⟨fun k => ?_, fun k x hx => ?_, fun k x hx => ?_⟩
  · simp only [WSpec.step]
    split
    · exact hn
    · exact hn
  · simp only [WSpec.step] at hx
    by_cases e : k = g
    · subst e
      rw [if_pos rfl] at hx
      have : x ∈ (ω k).nodes ∨ (x = w.length ∧ ∃ ls ps, op = .newNode ls ps) := by
        cases op <;> simp [Spec.step, Spec.detach, Spec.dropEdge] at hx ⊢ <;> first | exact hx | exact hx.1 | (rw [← o.next k]; exact hx)
      rcases this with h | ⟨rfl, ls, ps, rfl⟩
      · exact Owners.after_get (o.node k x h)
      · simp [Owners.after]
    · rw [if_neg e] at hx
      exact Owners.after_get (o.node k x hx)
  · simp only [WSpec.step] at hx
    by_cases e : k = g
    · subst e
      rw [if_pos rfl] at hx
      have : x ∈ (ω k).edges ∨ (x = w.length ∧ ∃ a b l ps, op = .newEdge a b l ps) := by
        cases op <;> simp [Spec.step, Spec.detach, Spec.dropEdge] at hx ⊢ <;> first | exact hx | exact hx.1 | (rw [← o.next k]; exact hx)
      rcases this with h | ⟨rfl, a, b, l, ps, rfl⟩
      · exact Owners.after_get (o.edge k x h)
      · simp [Owners.after]
    · rw [if_neg e] at hx
      exact Owners.after_get (o.edge k x hx)

theorem SOwned.ok : ∀ {ops : List (Nat × Op)} {ω : WSpec} {w : Owners}, SOwned ω w → ω.ValidFrom ops → w.OkFrom ops
  | [], _, _, _, _ => trivial
  | (g, op) :: _, _, _, o, hv => ⟨o.handles hv.1, (o.step g op).ok hv.2⟩

/-- The calls on one graph are valid and build this graph. -/
theorem SSim.run (g : Nat) : ∀ {ops : List (Nat × Op)} {ω : WSpec} {w : Owners} {σ : Spec}, SOwned ω w → w.OkFrom ops →
    SSim (Owners.pos g (w.runFrom ops)) (w.cnt g) σ (ω g) →
    SSim (Owners.pos g (w.runFrom ops)) ((w.runFrom ops).cnt g) (σ.runFrom (w.aloneFrom g ops)) (ω.runFrom ops g) ∧
    (ω.ValidFrom ops → σ.ValidFrom (w.aloneFrom g ops))
  | [], ω, w, σ, _, _, h => ⟨h, fun _ => trivial⟩
  | (k, op) :: ops, ω, w, σ, o, hk, h => by
    obtain ⟨v, hv⟩ := Owners.runFrom_append ops (w.after k op)
    obtain ⟨v', hv', _⟩ := Owners.after_append w k op
    rw [Owners.runFrom] at h ⊢
    have hF : (w.after k op).runFrom ops = w ++ (v' ++ v) := by rw [hv, hv', List.append_assoc]
    by_cases e : k = g
    · obtain rfl := e.symm
      have back : (op.ren (w.rank g)).ren (Owners.pos g ((w.after g op).runFrom ops)) = op :=
        Op.ren_ren (fun p hp => World.pos_rank_of hF (hk.1 p hp))
      have st := h.step (Owners.pos_inj _) (op.ren (w.rank g)) (by
        intro hg
        rw [Op.ren_allocs] at hg
        rw [World.pos_next hv hg, o.next g])
      rw [back, Op.ren_allocs] at st
      have hstep : (ω.step g op) g = (ω g).step op := by simp [WSpec.step]
      have hc : (w.after g op).cnt g = w.cnt g + (if op.allocs then 1 else 0) := by rw [Owners.after_cnt, if_pos rfl]
      rw [← hstep, ← hc] at st
      obtain ⟨r1, r2⟩ := SSim.run g (o.step g op) hk.2 st
      have hal : w.aloneFrom g ((g, op) :: ops) = op.ren (w.rank g) :: (w.after g op).aloneFrom g ops := by simp [Owners.aloneFrom]
      rw [hal]
      refine ⟨r1, fun hval => ⟨?_, r2 hval.2⟩⟩
      refine (h.valid (Owners.pos_inj _) _).1 ?_
      rw [back]
      exact hval.1
    · have hstep : (ω.step k op) g = { ω g with next := ((ω k).step op).next } := by simp [WSpec.step, Ne.symm e]
      have hc : (w.after k op).cnt g = w.cnt g := by rw [Owners.after_cnt, if_neg e, Nat.add_zero]
      have st : SSim (Owners.pos g ((w.after k op).runFrom ops)) ((w.after k op).cnt g) σ ((ω.step k op) g) := by
        rw [hc, hstep]
        exact { h with }
      obtain ⟨r1, r2⟩ := SSim.run g (o.step k op) hk.2 st
      have hal : w.aloneFrom g ((k, op) :: ops) = (w.after k op).aloneFrom g ops := by simp [Owners.aloneFrom, e]
      rw [hal]
      exact ⟨r1, fun hval => r2 hval.2⟩

end LPG
