import Verif.Spec.Graph
import Verif.Proofs.EdgeMap
import Batteries.Data.List.Perm

namespace LPG
open State

/-- The part of the representation invariant that holds after every valid history: ids, attributes, the
adjacency lists of live nodes, and the node counter. -/
structure Core (s : State) (σ : Spec) : Prop where
  next : s.idBase = σ.next
  nNodup : σ.nodes.Nodup
  eNodup : σ.edges.Nodup
  nLt : ∀ n ∈ σ.nodes, n < σ.next
  eLt : ∀ e ∈ σ.edges, e < σ.next
  disj : ∀ n ∈ σ.nodes, n ∉ σ.edges
  labels : ∀ n ∈ σ.nodes, (s.nLabels n).Nodup ∧ ∀ l, l ∈ s.nLabels n ↔ l ∈ σ.labels n
  nprops : ∀ n ∈ σ.nodes, (AMap.keys (s.nProps n)).Nodup ∧ ∀ k, (s.nProps n).get k = σ.nprop n k
  eattr : ∀ e ∈ σ.edges, s.eFrom e = σ.src e ∧ s.eTo e = σ.dst e ∧ s.eLabel e = σ.label e
  eprops : ∀ e ∈ σ.edges, (AMap.keys (s.eProps e)).Nodup ∧ ∀ k, (s.eProps e).get k = σ.eprop e k
  ends : ∀ e ∈ σ.edges, σ.src e ∈ σ.nodes ∧ σ.dst e ∈ σ.nodes
  out : ∀ n ∈ σ.nodes, ∃ xs, xs.Perm (σ.edges.filter (fun e => σ.src e = n)) ∧
    EMRep s.slot1 s.eLabel (s.outgoing n) xs
  inc : ∀ n ∈ σ.nodes, ∃ xs, xs.Perm (σ.edges.filter (fun e => σ.dst e = n)) ∧
    EMRep s.slot2 s.eLabel (s.incoming n) xs
  count : s.allNodes.n = σ.nodes.length

theorem Core.init : Core State.new Spec.new := by
  constructor <;> simp [State.new, Spec.new]

/-! ## Frame facts: which fields an operation may change -/

/-- change of the fields that hold the edge structure -/
def State.withEdges (s : State) (p0 p1 p2 : Slot) (im om : Nat → EdgeMap) (ae : EdgeMap) (ix : Indexes) : State :=
  { s with slot0 := p0, slot1 := p1, slot2 := p2, incoming := im, outgoing := om, allEdges := ae, edgeIx := ix }

theorem connect_frame {s s' : State} {e : Nat} (h : s.connect e = some s') :
    ∃ p1 p2 im om, s' = { s with slot1 := p1, slot2 := p2, incoming := im, outgoing := om } := by
  unfold State.connect at h
  split at h
  · cases h
  · simp only at h
    split at h
    · cases h
    · cases h; exact ⟨_, _, _, _, rfl⟩

theorem disconnect_frame (s : State) (e : Nat) :
    ∃ p1 p2 im om, s.disconnect e = { s with slot1 := p1, slot2 := p2, incoming := im, outgoing := om } :=
  ⟨_, _, _, _, rfl⟩

/-! ## disconnect / connect -/

theorem perm_filter_erase {xs es : List Nat} {p : Nat → Bool} {e : Nat} (hn : es.Nodup)
    (h : xs.Perm (es.filter p)) : (xs.erase e).Perm ((es.filter (· ≠ e)).filter p) := by
  refine (h.erase e).trans ?_
  rw [List.Nodup.erase_eq_filter (hn.filter _), List.filter_filter, List.filter_filter]
  apply List.Perm.of_eq
  apply List.filter_congr
  intro x _
  by_cases hx : x = e <;> simp [hx]

theorem Core.disconnect {s : State} {σ : Spec} {e : Nat} (h : Core s σ) (he : e ∈ σ.edges) :
    Core (s.disconnect e) (σ.dropEdge e) := by
  obtain ⟨hsrc, hdst, hlab⟩ := h.eattr e he
  obtain ⟨hn1, hn2⟩ := h.ends e he
  obtain ⟨xo, hxo, hro⟩ := h.out _ hn1
  obtain ⟨xi, hxi, hri⟩ := h.inc _ hn2
  have heo : e ∈ xo := hxo.mem_iff.2 (by simp [he])
  have hei : e ∈ xi := hxi.mem_iff.2 (by simp [he])
  obtain ⟨ho1, ho2⟩ := EdgeMap.remove_spec hro heo
  obtain ⟨hi1, hi2⟩ := EdgeMap.remove_spec hri hei
  have sub : ∀ x, x ∈ (σ.dropEdge e).edges → x ∈ σ.edges := by
    intro x hx; exact (List.mem_filter.1 hx).1
  refine ⟨h.next, h.nNodup, h.eNodup.filter _, h.nLt, fun x hx => h.eLt x (sub x hx),
    fun n hn hx => h.disj n hn (sub n hx), h.labels, h.nprops, fun x hx => h.eattr x (sub x hx),
    fun x hx => h.eprops x (sub x hx), fun x hx => h.ends x (sub x hx), ?_, ?_, h.count⟩
  · intro n hn
    by_cases hns : n = σ.src e
    · subst hns
      refine ⟨xo.erase e, perm_filter_erase h.eNodup hxo, ?_⟩
      simp only [State.disconnect, hsrc, upd_same]
      exact ho1
    · obtain ⟨xs, hx1, hx2⟩ := h.out n hn
      refine ⟨xs, ?_, ?_⟩
      · refine hx1.trans (List.Perm.of_eq ?_)
        simp only [Spec.dropEdge, List.filter_filter]
        apply List.filter_congr
        intro x _
        by_cases hx : x = e
        · subst hx; simp [Ne.symm hns]
        · simp [hx]; rfl
      · simp only [State.disconnect, hsrc, upd_other _ _ hns]
        refine hx2.congr ?_ (fun _ _ => rfl)
        intro x hx
        apply ho2
        intro hxo'
        have a1 := hx1.mem_iff.1 hx
        have a2 := hxo.mem_iff.1 hxo'
        simp at a1 a2
        exact hns (a1.2 ▸ a2.2)
  · intro n hn
    by_cases hns : n = σ.dst e
    · subst hns
      refine ⟨xi.erase e, perm_filter_erase h.eNodup hxi, ?_⟩
      simp only [State.disconnect, hdst, upd_same]
      exact hi1
    · obtain ⟨xs, hx1, hx2⟩ := h.inc n hn
      refine ⟨xs, ?_, ?_⟩
      · refine hx1.trans (List.Perm.of_eq ?_)
        simp only [Spec.dropEdge, List.filter_filter]
        apply List.filter_congr
        intro x _
        by_cases hx : x = e
        · subst hx; simp [Ne.symm hns]
        · simp [hx]; rfl
      · simp only [State.disconnect, hdst, upd_other _ _ hns]
        refine hx2.congr ?_ (fun _ _ => rfl)
        intro x hx
        apply hi2
        intro hxi'
        have a1 := hx1.mem_iff.1 hx
        have a2 := hxi.mem_iff.1 hxi'
        simp at a1 a2
        exact hns (a1.2 ▸ a2.2)

theorem Core.connect {s : State} {σ : Spec} {e : Nat} (h : Core s σ) (he : e ∉ σ.edges)
    (hlt : e < σ.next) (hen : e ∉ σ.nodes)
    (ha : s.eFrom e = σ.src e ∧ s.eTo e = σ.dst e ∧ s.eLabel e = σ.label e)
    (hp : (AMap.keys (s.eProps e)).Nodup ∧ ∀ k, (s.eProps e).get k = σ.eprop e k)
    (hends : σ.src e ∈ σ.nodes ∧ σ.dst e ∈ σ.nodes) :
    ∃ s', s.connect e = some s' ∧ Core s' { σ with edges := σ.edges ++ [e] } := by
  obtain ⟨hsrc, hdst, hlab⟩ := ha
  obtain ⟨xo, hxo, hro⟩ := h.out _ hends.1
  obtain ⟨xi, hxi, hri⟩ := h.inc _ hends.2
  have heo : e ∉ xo := fun hh => he (List.mem_filter.1 (hxo.mem_iff.1 hh)).1
  have hei : e ∉ xi := fun hh => he (List.mem_filter.1 (hxi.mem_iff.1 hh)).1
  obtain ⟨P1, om, ho0, ho1, ho2⟩ := EdgeMap.add_spec hro heo
  obtain ⟨P2, im, hi0, hi1, hi2⟩ := EdgeMap.add_spec hri hei
  refine ⟨{ s with slot2 := P2, incoming := upd s.incoming (σ.dst e) im, slot1 := P1,
                   outgoing := upd s.outgoing (σ.src e) om }, ?_, ?_⟩
  · simp only [State.connect, hdst, hsrc, hi0, ho0]
  · have mem : ∀ x, x ∈ σ.edges ++ [e] → x ∈ σ.edges ∨ x = e := by intro x hx; simpa using hx
    refine ⟨h.next, h.nNodup, ?_, h.nLt, ?_, ?_, h.labels, h.nprops, ?_, ?_, ?_, ?_, ?_, h.count⟩
    · show (σ.edges ++ [e]).Nodup
      rw [List.nodup_append]; refine ⟨h.eNodup, by simp, ?_⟩
      intro a ha b hb; simp at hb; subst hb; rintro rfl; exact he ha
    · intro x hx; rcases mem x hx with hx | rfl
      · exact h.eLt x hx
      · exact hlt
    · intro n hn hx; rcases mem n hx with hx | rfl
      · exact h.disj n hn hx
      · exact hen hn
    · intro x hx; rcases mem x hx with hx | rfl
      · exact h.eattr x hx
      · exact ⟨hsrc, hdst, hlab⟩
    · intro x hx; rcases mem x hx with hx | rfl
      · exact h.eprops x hx
      · exact hp
    · intro x hx; rcases mem x hx with hx | rfl
      · exact h.ends x hx
      · exact hends
    · intro n hn
      by_cases hns : n = σ.src e
      · subst hns
        refine ⟨xo ++ [e], ?_, ?_⟩
        · simpa using hxo.append_right [e]
        · simpa using ho1
      · obtain ⟨xs, hx1, hx2⟩ := h.out n hn
        refine ⟨xs, ?_, ?_⟩
        · simpa [Ne.symm hns] using hx1
        · simp only [upd_other _ _ hns]
          refine hx2.congr ?_ (fun _ _ => rfl)
          intro x hx
          have a1 := hx1.mem_iff.1 hx
          simp at a1
          apply ho2
          · intro hxo'
            have a2 := hxo.mem_iff.1 hxo'
            simp at a2
            exact hns (a1.2 ▸ a2.2)
          · rintro rfl; exact he a1.1
    · intro n hn
      by_cases hns : n = σ.dst e
      · subst hns
        refine ⟨xi ++ [e], ?_, ?_⟩
        · simpa using hxi.append_right [e]
        · simpa using hi1
      · obtain ⟨xs, hx1, hx2⟩ := h.inc n hn
        refine ⟨xs, ?_, ?_⟩
        · simpa [Ne.symm hns] using hx1
        · simp only [upd_other _ _ hns]
          refine hx2.congr ?_ (fun _ _ => rfl)
          intro x hx
          have a1 := hx1.mem_iff.1 hx
          simp at a1
          apply hi2
          · intro hxi'
            have a2 := hxi.mem_iff.1 hxi'
            simp at a2
            exact hns (a1.2 ▸ a2.2)
          · rintro rfl; exact he a1.1

/-- The order of the edges in the abstract state does not matter for `Core`. -/
theorem Core.perm {s : State} {σ : Spec} {es : List Nat} (h : Core s σ) (hp : es.Perm σ.edges) :
    Core s { σ with edges := es } := by
  have m : ∀ x, x ∈ es ↔ x ∈ σ.edges := fun x => hp.mem_iff
  refine ⟨h.next, h.nNodup, hp.nodup_iff.2 h.eNodup, h.nLt, fun x hx => h.eLt x ((m x).1 hx),
    fun n hn hx => h.disj n hn ((m n).1 hx), h.labels, h.nprops, fun x hx => h.eattr x ((m x).1 hx),
    fun x hx => h.eprops x ((m x).1 hx), fun x hx => h.ends x ((m x).1 hx), ?_, ?_, h.count⟩
  · intro n hn
    obtain ⟨xs, h1, h2⟩ := h.out n hn
    exact ⟨xs, h1.trans (hp.filter _).symm, h2⟩
  · intro n hn
    obtain ⟨xs, h1, h2⟩ := h.inc n hn
    exact ⟨xs, h1.trans (hp.filter _).symm, h2⟩

/-! ## detach -/

theorem detachEdge_frame {s s' : State} {e : Nat} (h : s.detachEdge e = some s') :
    ∃ p0 p1 p2 im om ae ix, s' = State.withEdges s p0 p1 p2 im om ae ix := by
  unfold State.detachEdge at h
  simp only at h
  split at h
  · cases h
  · cases h; exact ⟨_, _, _, _, _, _, _, rfl⟩

theorem detachEdges_frame {es : List Nat} : ∀ {s s' : State}, s.detachEdges es = some s' →
    ∃ p0 p1 p2 im om ae ix, s' = State.withEdges s p0 p1 p2 im om ae ix := by
  induction es with
  | nil => intro s s' h; simp [State.detachEdges] at h; subst h; exact ⟨_, _, _, _, _, _, _, rfl⟩
  | cons e es ih =>
    intro s s' h
    rw [State.detachEdges] at h
    split at h
    · cases h
    · rename_i s1 h1
      obtain ⟨_, _, _, _, _, _, _, rfl⟩ := detachEdge_frame h1
      obtain ⟨_, _, _, _, _, _, _, rfl⟩ := ih h
      exact ⟨_, _, _, _, _, _, _, rfl⟩

theorem detachNode_frame {s s' : State} {n : Nat} (h : s.detachNode n = some s') :
    ∃ p0 p1 p2 im om ae ix, s' = State.withEdges s p0 p1 p2 im om ae ix := by
  unfold State.detachNode at h
  split at h
  · cases h
  · split at h
    · cases h
    · rename_i s1 h1
      simp only at h
      split at h
      · cases h
      · split at h
        · cases h
        · rename_i s2 h2
          obtain ⟨_, _, _, _, _, _, _, rfl⟩ := detachEdges_frame h1
          obtain ⟨_, _, _, _, _, _, _, rfl⟩ := detachEdges_frame h2
          cases h
          exact ⟨_, _, _, _, _, _, _, rfl⟩

theorem Core.detachEdge {s s' : State} {σ : Spec} {e : Nat} (h : Core s σ) (he : e ∈ σ.edges)
    (hs : s.detachEdge e = some s') : Core s' (σ.dropEdge e) := by
  have h1 := h.disconnect he
  unfold State.detachEdge at hs
  simp only at hs
  split at hs
  · cases hs
  · cases hs
    exact ⟨h1.next, h1.nNodup, h1.eNodup, h1.nLt, h1.eLt, h1.disj, h1.labels, h1.nprops, h1.eattr, h1.eprops,
      h1.ends, h1.out, h1.inc, h1.count⟩

theorem Core.detachEdges {es : List Nat} : ∀ {s s' : State} {σ : Spec}, Core s σ → es.Nodup → (∀ e ∈ es, e ∈ σ.edges) →
    s.detachEdges es = some s' → Core s' { σ with edges := σ.edges.filter (fun e => e ∉ es) } := by
  induction es with
  | nil =>
    intro s s' σ h _ _ hs
    simp [State.detachEdges] at hs; subst hs
    have : σ.edges.filter (fun e => e ∉ ([] : List Nat)) = σ.edges := by simp
    rw [this]; exact h
  | cons e es ih =>
    intro s s' σ h hn hm hs
    rw [State.detachEdges] at hs
    split at hs
    · cases hs
    · rename_i s1 h1
      have c1 := h.detachEdge (hm e (by simp)) h1
      have hn' := List.nodup_cons.1 hn
      have := ih c1 hn'.2 (by
        intro x hx
        simp only [Spec.dropEdge, List.mem_filter]
        refine ⟨hm x (by simp [hx]), ?_⟩
        simp; rintro rfl; exact hn'.1 hx) hs
      have e1 : ({ σ.dropEdge e with edges := (σ.dropEdge e).edges.filter (fun x => x ∉ es) } : Spec) =
          { σ with edges := σ.edges.filter (fun x => x ∉ e :: es) } := by
        simp only [Spec.dropEdge, List.filter_filter]
        congr 1
        apply List.filter_congr
        intro x _
        simp only [List.mem_cons]
        by_cases hx : x = e <;> by_cases hx2 : x ∈ es <;> simp [hx, hx2]
      rw [e1] at this
      exact this

theorem Core.fuel {s : State} {σ : Spec} (h : Core s σ) {p : Nat → Bool} {xs : List Nat}
    (hx : xs.Perm (σ.edges.filter p)) : xs.length ≤ s.idBase := by
  rw [h.next, hx.length_eq]
  refine Nat.le_trans (List.length_filter_le _ _) ?_
  have hsub : σ.edges ⊆ List.range σ.next := by
    intro x hx; simp; exact h.eLt x hx
  have := (List.subperm_of_subset h.eNodup hsub).length_le
  simpa using this

theorem Core.detachNode {s s' : State} {σ : Spec} {n : Nat} (h : Core s σ) (hn : n ∈ σ.nodes)
    (hs : s.detachNode n = some s') : Core s' (σ.detach n) := by
  obtain ⟨xi, hxi, hri⟩ := h.inc n hn
  obtain ⟨ys, hy1, hy2⟩ := hri.enum (h.fuel hxi)
  unfold State.detachNode at hs
  rw [hy1] at hs
  simp only at hs
  split at hs
  · cases hs
  · rename_i s1 h1
    have hyn : ys.Nodup := hy2.nodup_iff.2 hri.nodup
    have hmem : ∀ e, e ∈ ys ↔ e ∈ σ.edges ∧ σ.dst e = n := by
      intro e; rw [hy2.mem_iff, hxi.mem_iff]; simp
    have c1 := h.detachEdges hyn (fun e he => ((hmem e).1 he).1) h1
    have e1 : σ.edges.filter (fun e => e ∉ ys) = σ.edges.filter (fun e => σ.dst e ≠ n) := by
      apply List.filter_congr
      intro x hx
      simp [hmem, hx]
    rw [e1] at c1
    -- the incoming map is overwritten with the empty map
    have c1' : Core { s1 with incoming := upd s1.incoming n EdgeMap.empty }
        { σ with edges := σ.edges.filter (fun e => σ.dst e ≠ n) } := by
      refine ⟨c1.next, c1.nNodup, c1.eNodup, c1.nLt, c1.eLt, c1.disj, c1.labels, c1.nprops, c1.eattr,
        c1.eprops, c1.ends, c1.out, ?_, c1.count⟩
      intro m hm
      by_cases hmn : m = n
      · subst hmn
        refine ⟨[], ?_, ?_⟩
        · simp only [List.filter_filter]
          apply List.Perm.of_eq
          symm; rw [List.filter_eq_nil_iff]
          intro x _; simp
        · simp only [upd_same]; exact EMRep.empty _ _
      · simp only [upd_other _ _ hmn]; exact c1.inc m hm
    generalize hs1' : ({ s1 with incoming := upd s1.incoming n EdgeMap.empty } : State) = s1' at c1' hs
    obtain ⟨xo, hxo, hro⟩ := c1'.out n hn
    obtain ⟨zs, hz1, hz2⟩ := hro.enum (c1'.fuel hxo)
    have hout : (s1.outgoing n).enum s1.slot1 s1.idBase = some zs := by rw [← hs1'] at hz1; exact hz1
    rw [hout] at hs
    simp only at hs
    split at hs
    · cases hs
    · rename_i s2 h2
      have hzn : zs.Nodup := hz2.nodup_iff.2 hro.nodup
      have hmem2 : ∀ e, e ∈ zs ↔ (e ∈ σ.edges ∧ σ.dst e ≠ n) ∧ σ.src e = n := by
        intro e; rw [hz2.mem_iff, hxo.mem_iff]; simp; grind
      have c2 := c1'.detachEdges hzn (fun e he => by
        have := (hmem2 e).1 he
        simp [this.1.1, this.1.2]) h2
      have e2 : (σ.edges.filter (fun e => σ.dst e ≠ n)).filter (fun e => e ∉ zs) =
          σ.edges.filter (fun e => σ.src e ≠ n ∧ σ.dst e ≠ n) := by
        rw [List.filter_filter]
        apply List.filter_congr
        intro x hx
        simp only [hmem2, hx]
        by_cases a : σ.dst x = n <;> by_cases b : σ.src x = n <;> simp [a, b]
      simp only at c2
      rw [e2] at c2
      cases hs
      refine ⟨c2.next, c2.nNodup, c2.eNodup, c2.nLt, c2.eLt, c2.disj, c2.labels, c2.nprops, c2.eattr,
        c2.eprops, c2.ends, ?_, c2.inc, c2.count⟩
      intro m hm
      by_cases hmn : m = n
      · subst hmn
        refine ⟨[], ?_, ?_⟩
        · simp only [Spec.detach, List.filter_filter]
          apply List.Perm.of_eq
          symm; rw [List.filter_eq_nil_iff]
          intro x _; grind
        · simp only [upd_same]; exact EMRep.empty _ _
      · simp only [upd_other _ _ hmn]; exact c2.out m hm


/-! ## One step -/

theorem eraseDups_spec (l : List String) : l.eraseDups.Nodup ∧ ∀ x, x ∈ l.eraseDups ↔ x ∈ l := by
  refine ⟨?_, fun x => by simp⟩
  generalize hn : l.length = n
  induction n using Nat.strongRecOn generalizing l with
  | _ n ih =>
    cases l with
    | nil => simp
    | cons a l =>
      rw [List.eraseDups_cons, List.nodup_cons]
      refine ⟨by simp, ?_⟩
      refine ih _ ?_ _ rfl
      have := List.length_filter_le (fun b => !b == a) l
      simp at hn; omega

theorem NList.add_n (P : NPtr) (l : NList) (x : Nat) : (l.add P x).2.n = l.n + 1 := rfl

theorem NList.remove_n (P : NPtr) (l : NList) (x : Nat) : (l.remove P x).2.n = l.n - 1 := by
  unfold NList.remove
  cases P.prev x with
  | none => cases h : P.next x <;> simp [h]
  | some p => simp only; split <;> simp_all

theorem newNode_frame {s s' : State} {ls : List String} {ps : Props} (h : s.newNode ls ps = some s') :
    ∃ ixs, Indexes.addAll s.idBase ps s.nodeIx = some ixs ∧
    s' = { s with
      idBase := s.idBase + 1,
      nptr := (s.allNodes.add { next := upd s.nptr.next s.idBase none, prev := upd s.nptr.prev s.idBase none } s.idBase).1,
      allNodes := (s.allNodes.add { next := upd s.nptr.next s.idBase none, prev := upd s.nptr.prev s.idBase none } s.idBase).2,
      nLabels := upd s.nLabels s.idBase ls, nProps := upd s.nProps s.idBase ps,
      incoming := upd s.incoming s.idBase EdgeMap.empty, outgoing := upd s.outgoing s.idBase EdgeMap.empty,
      byLabel := s.byLabel.add s.idBase ls, nodeIx := ixs } := by
  unfold State.newNode at h
  simp only at h
  split at h
  · cases h
  · rename_i ixs hix
    cases h; exact ⟨ixs, hix, rfl⟩

theorem setNodeProp_frame {s s' : State} {n : Nat} {k : String} {v : Value} (h : s.setNodeProp n k v = some s') :
    ∃ ixs, s' = { s with nProps := upd s.nProps n ((s.nProps n).set k v), nodeIx := ixs } := by
  unfold State.setNodeProp at h
  simp only at h
  split at h
  · cases h
  · split at h
    · cases h
    · cases h; exact ⟨_, rfl⟩

theorem setEdgeProp_frame {s s' : State} {n : Nat} {k : String} {v : Value} (h : s.setEdgeProp n k v = some s') :
    ∃ ixs, s' = { s with eProps := upd s.eProps n ((s.eProps n).set k v), edgeIx := ixs } := by
  unfold State.setEdgeProp at h
  simp only at h
  split at h
  · cases h
  · split at h
    · cases h
    · cases h; exact ⟨_, rfl⟩

theorem removeNodeProp_frame {s s' : State} {n : Nat} {k : String} (h : s.removeNodeProp n k = some s') :
    ∃ ixs, s' = { s with nProps := upd s.nProps n ((s.nProps n).del k), nodeIx := ixs } := by
  unfold State.removeNodeProp at h
  split at h
  · rename_i hg
    cases h
    refine ⟨s.nodeIx, ?_⟩
    rw [AMap.del_of_not_mem hg]
    have : upd s.nProps n (s.nProps n) = s.nProps := by funext x; by_cases hx : x = n <;> simp [upd_apply, hx]
    rw [this]
  · split at h
    · cases h
    · cases h; exact ⟨_, rfl⟩

theorem removeEdgeProp_frame {s s' : State} {n : Nat} {k : String} (h : s.removeEdgeProp n k = some s') :
    ∃ ixs, s' = { s with eProps := upd s.eProps n ((s.eProps n).del k), edgeIx := ixs } := by
  unfold State.removeEdgeProp at h
  split at h
  · rename_i hg
    cases h
    refine ⟨s.edgeIx, ?_⟩
    rw [AMap.del_of_not_mem hg]
    have : upd s.eProps n (s.eProps n) = s.eProps := by funext x; by_cases hx : x = n <;> simp [upd_apply, hx]
    rw [this]
  · split at h
    · cases h
    · cases h; exact ⟨_, rfl⟩

theorem addNodeIndex_frame {s s' : State} {k : String} {t : IndexType} (h : s.addNodeIndex k t = some s') :
    ∃ ixs, s' = { s with nodeIx := ixs } := by
  unfold State.addNodeIndex at h
  split at h
  · cases h; exact ⟨s.nodeIx, rfl⟩
  · split at h
    · cases h
    · split at h
      · cases h
      · cases h; exact ⟨_, rfl⟩

theorem addEdgeIndex_frame {s s' : State} {k : String} {t : IndexType} (h : s.addEdgeIndex k t = some s') :
    ∃ ixs, s' = { s with edgeIx := ixs } := by
  unfold State.addEdgeIndex at h
  split at h
  · cases h; exact ⟨s.edgeIx, rfl⟩
  · split at h
    · cases h
    · split at h
      · cases h
      · cases h; exact ⟨_, rfl⟩

/-- The state just before `connect` in `newEdge`. -/
def State.allocEdge (s : State) (a b : Nat) (l : String) (ps : Props) : State :=
  { s with
    idBase := s.idBase + 1,
    eFrom := upd s.eFrom s.idBase a, eTo := upd s.eTo s.idBase b, eLabel := upd s.eLabel s.idBase l,
    eProps := upd s.eProps s.idBase ps,
    slot0 := upd s.slot0 s.idBase ⟨none, none⟩, slot1 := upd s.slot1 s.idBase ⟨none, none⟩,
    slot2 := upd s.slot2 s.idBase ⟨none, none⟩ }

theorem newEdge_eq (s : State) (a b : Nat) (l : String) (ps : Props) :
    s.newEdge a b l ps =
      match (s.allocEdge a b l ps).allEdges.add (s.allocEdge a b l ps).slot0 (s.allocEdge a b l ps).eLabel s.idBase with
      | none => none
      | some (p0, m) =>
        match ({ s.allocEdge a b l ps with slot0 := p0, allEdges := m } : State).connect s.idBase with
        | none => none
        | some s1 =>
          match Indexes.addAll s.idBase ps s1.edgeIx with
          | none => none
          | some ixs => some { s1 with edgeIx := ixs } := rfl

theorem Core.allocEdge {s : State} {σ : Spec} (h : Core s σ) (a b : Nat) (l : String) (ps : Props) :
    Core (s.allocEdge a b l ps)
      { σ with next := σ.next + 1, src := upd σ.src σ.next a, dst := upd σ.dst σ.next b, label := upd σ.label σ.next l,
               eprop := upd σ.eprop σ.next (fun k => ps.get k) } := by
  have hne : ∀ e ∈ σ.edges, e ≠ σ.next := fun e he => Nat.ne_of_lt (h.eLt e he)
  have hnx := h.next
  refine ⟨by simp [State.allocEdge, hnx], h.nNodup, h.eNodup, fun n hn => Nat.lt_succ_of_lt (h.nLt n hn),
    fun n hn => Nat.lt_succ_of_lt (h.eLt n hn), h.disj, h.labels, h.nprops, ?_, ?_, ?_, ?_, ?_, h.count⟩
  · intro e he
    have := h.eattr e he
    simpa [State.allocEdge, hnx, upd_other _ _ (hne e he)] using this
  · intro e he
    have := h.eprops e he
    simpa [State.allocEdge, hnx, upd_other _ _ (hne e he)] using this
  · intro e he
    have := h.ends e he
    simpa [upd_other _ _ (hne e he)] using this
  · intro n hn
    obtain ⟨xs, h1, h2⟩ := h.out n hn
    have hm : ∀ x ∈ xs, x ≠ σ.next := fun x hx => hne x (List.mem_filter.1 (h1.mem_iff.1 hx)).1
    refine ⟨xs, ?_, ?_⟩
    · refine h1.trans (List.Perm.of_eq ?_)
      apply List.filter_congr
      intro x hx; simp [upd_other _ _ (hne x hx)]
    · refine h2.congr ?_ ?_ <;> intro x hx <;> simp [State.allocEdge, hnx, upd_other _ _ (hm x hx)]
  · intro n hn
    obtain ⟨xs, h1, h2⟩ := h.inc n hn
    have hm : ∀ x ∈ xs, x ≠ σ.next := fun x hx => hne x (List.mem_filter.1 (h1.mem_iff.1 hx)).1
    refine ⟨xs, ?_, ?_⟩
    · refine h1.trans (List.Perm.of_eq ?_)
      apply List.filter_congr
      intro x hx; simp [upd_other _ _ (hne x hx)]
    · refine h2.congr ?_ ?_ <;> intro x hx <;> simp [State.allocEdge, hnx, upd_other _ _ (hm x hx)]

theorem Core.withSlot0 {s : State} {σ : Spec} (h : Core s σ) (p0 : Slot) (ae : EdgeMap) (nix eix : Indexes) :
    Core { s with slot0 := p0, allEdges := ae, nodeIx := nix, edgeIx := eix } σ :=
  ⟨h.next, h.nNodup, h.eNodup, h.nLt, h.eLt, h.disj, h.labels, h.nprops, h.eattr, h.eprops, h.ends, h.out,
    h.inc, h.count⟩

theorem Core.step {s s' : State} {σ : Spec} {op : Op} (h : Core s σ) (hv : σ.Valid op)
    (hs : step s op = some s') : Core s' (σ.step op) := by
  cases op with
  | newNode ls ps =>
    obtain ⟨ixs, _, rfl⟩ := newNode_frame hs
    have hnx := h.next
    have hnn : σ.next ∉ σ.nodes := fun hh => Nat.lt_irrefl _ (h.nLt _ hh)
    have hne : σ.next ∉ σ.edges := fun hh => Nat.lt_irrefl _ (h.eLt _ hh)
    have mem : ∀ x, x ∈ σ.nodes ++ [σ.next] → x ∈ σ.nodes ∧ x ≠ σ.next ∨ x = σ.next := by
      intro x hx; simp at hx; rcases hx with hx | hx
      · left; exact ⟨hx, by rintro rfl; exact hnn hx⟩
      · exact Or.inr hx
    refine ⟨by simp [Spec.step, hnx], ?_, h.eNodup, ?_, fun e he => Nat.lt_succ_of_lt (h.eLt e he), ?_, ?_, ?_,
      h.eattr, h.eprops, ?_, ?_, ?_, ?_⟩
    · show (σ.nodes ++ [σ.next]).Nodup
      rw [List.nodup_append]; refine ⟨h.nNodup, by simp, ?_⟩
      intro a ha b hb; simp at hb; subst hb; rintro rfl; exact hnn ha
    · intro n hn; rcases mem n hn with ⟨hn, _⟩ | rfl
      · exact Nat.lt_succ_of_lt (h.nLt n hn)
      · exact Nat.lt_succ_self _
    · intro n hn; rcases mem n hn with ⟨hn, _⟩ | rfl
      · exact h.disj n hn
      · exact hne
    · intro n hn; rcases mem n hn with ⟨hn, hx⟩ | rfl
      · simpa [Spec.step, hnx, upd_other _ _ hx] using h.labels n hn
      · simp only [Spec.step, hnx, upd_same]; exact eraseDups_spec ls
    · intro n hn; rcases mem n hn with ⟨hn, hx⟩ | rfl
      · simpa [Spec.step, hnx, upd_other _ _ hx] using h.nprops n hn
      · simp only [Spec.step, hnx, upd_same]; exact ⟨hv, fun _ => trivial⟩
    · intro e he
      have := h.ends e he
      exact ⟨List.mem_append_left _ this.1, List.mem_append_left _ this.2⟩
    · intro n hn; rcases mem n hn with ⟨hn, hx⟩ | rfl
      · obtain ⟨xs, h1, h2⟩ := h.out n hn
        exact ⟨xs, h1, by simpa [hnx, upd_other _ _ hx] using h2⟩
      · refine ⟨[], ?_, by simp only [hnx, upd_same]; exact EMRep.empty _ _⟩
        apply List.Perm.of_eq; symm; rw [List.filter_eq_nil_iff]
        intro e he hc
        have hc' := of_decide_eq_true hc
        exact hnn (hc' ▸ (h.ends e he).1)
    · intro n hn; rcases mem n hn with ⟨hn, hx⟩ | rfl
      · obtain ⟨xs, h1, h2⟩ := h.inc n hn
        exact ⟨xs, h1, by simpa [hnx, upd_other _ _ hx] using h2⟩
      · refine ⟨[], ?_, by simp only [hnx, upd_same]; exact EMRep.empty _ _⟩
        apply List.Perm.of_eq; symm; rw [List.filter_eq_nil_iff]
        intro e he hc
        have hc' := of_decide_eq_true hc
        exact hnn (hc' ▸ (h.ends e he).2)
    · simp [NList.add_n, Spec.step, h.count]
  | newEdge a b l ps =>
    obtain ⟨ha, hb, hp⟩ := hv
    have hnx := h.next
    have hnn : σ.next ∉ σ.nodes := fun hh => Nat.lt_irrefl _ (h.nLt _ hh)
    have hne : σ.next ∉ σ.edges := fun hh => Nat.lt_irrefl _ (h.eLt _ hh)
    simp only [LPG.step] at hs
    rw [newEdge_eq] at hs
    split at hs
    · cases hs
    · rename_i p0 m hadd
      have c1 := (h.allocEdge a b l ps).withSlot0 p0 m s.nodeIx s.edgeIx
      obtain ⟨s1, h1, c2⟩ := Core.connect (e := σ.next) c1 hne (Nat.lt_succ_self _) hnn
        (by simp [State.allocEdge, hnx]) (by simp [State.allocEdge, hnx, hp]) (by simp [ha, hb])
      have h1' : ({ s.allocEdge a b l ps with slot0 := p0, allEdges := m } : State).connect s.idBase = some s1 := by
        rw [hnx]; exact h1
      rw [h1'] at hs
      simp only at hs
      split at hs
      · cases hs
      · cases hs
        exact c2.withSlot0 _ _ _ _
  | setLabels n ls =>
    cases hs
    refine ⟨h.next, h.nNodup, h.eNodup, h.nLt, h.eLt, h.disj, ?_, h.nprops, h.eattr, h.eprops, h.ends, h.out,
      h.inc, h.count⟩
    intro m hm
    by_cases hmn : m = n
    · subst hmn; simpa [State.setLabels, Spec.step] using hv.2
    · simpa [State.setLabels, Spec.step, upd_other _ _ hmn] using h.labels m hm
  | setNodeProp n k v =>
    obtain ⟨ixs, rfl⟩ := setNodeProp_frame hs
    refine ⟨h.next, h.nNodup, h.eNodup, h.nLt, h.eLt, h.disj, h.labels, ?_, h.eattr, h.eprops, h.ends, h.out,
      h.inc, h.count⟩
    intro m hm
    by_cases hmn : m = n
    · subst hmn
      have := h.nprops m hm
      refine ⟨by simpa using AMap.nodup_set this.1 _ _, ?_⟩
      intro k'
      simp [Spec.step, AMap.get_set, upd_apply, this.2]
    · simpa [Spec.step, upd_other _ _ hmn] using h.nprops m hm
  | removeNodeProp n k =>
    obtain ⟨ixs, rfl⟩ := removeNodeProp_frame hs
    refine ⟨h.next, h.nNodup, h.eNodup, h.nLt, h.eLt, h.disj, h.labels, ?_, h.eattr, h.eprops, h.ends, h.out,
      h.inc, h.count⟩
    intro m hm
    by_cases hmn : m = n
    · subst hmn
      have := h.nprops m hm
      refine ⟨by simpa using AMap.nodup_del this.1 _, ?_⟩
      intro k'
      simp [Spec.step, AMap.get_del, upd_apply, this.2]
    · simpa [Spec.step, upd_other _ _ hmn] using h.nprops m hm
  | detach n => exact h.detachNode hv hs
  | detachRemove n =>
    simp only [LPG.step, State.detachRemoveNode] at hs
    split at hs
    · cases hs
    · rename_i s1 h1
      have c := h.detachNode hv h1
      split at hs
      · cases hs
      · cases hs
        have sub : ∀ x, x ∈ σ.nodes.filter (· ≠ n) → x ∈ σ.nodes := fun x hx => (List.mem_filter.1 hx).1
        refine ⟨c.next, c.nNodup.filter _, c.eNodup, fun x hx => c.nLt x (sub x hx), c.eLt,
          fun x hx => c.disj x (sub x hx), fun x hx => c.labels x (sub x hx), fun x hx => c.nprops x (sub x hx),
          c.eattr, c.eprops, ?_, fun x hx => c.out x (sub x hx), fun x hx => c.inc x (sub x hx), ?_⟩
        · intro e he
          have := c.ends e he
          have he' : σ.src e ≠ n ∧ σ.dst e ≠ n := by
            have := (List.mem_filter.1 he).2
            simpa using this
          exact ⟨List.mem_filter.2 ⟨this.1, by simpa [Spec.step, Spec.detach] using he'.1⟩,
            List.mem_filter.2 ⟨this.2, by simpa [Spec.step, Spec.detach] using he'.2⟩⟩
        · have hc := c.count
          simp only [NList.remove_n, Spec.step]
          rw [hc]
          have : (σ.nodes.filter (· ≠ n)) = σ.nodes.erase n := by
            rw [List.Nodup.erase_eq_filter h.nNodup]
            apply List.filter_congr; intro x _; by_cases hx : x = n <;> simp [hx]
          rw [this, List.length_erase_of_mem hv]
          have hpos : 0 < σ.nodes.length := List.length_pos_of_mem hv
          show ((σ.detach n).nodes.length : Int) - 1 = _
          simp only [Spec.detach]; omega
  | setEdgeLabel e l =>
    simp only [LPG.step, State.setEdgeLabel] at hs
    split at hs
    · rename_i hl
      cases hs
      have : (σ.step (.setEdgeLabel e l)) = σ := by
        have hl' : l = σ.label e := by rw [hl]; exact (h.eattr e hv).2.2
        simp only [Spec.step]
        have : upd σ.label e l = σ.label := by
          funext x; by_cases hx : x = e <;> simp [upd_apply, hx, hl']
        rw [this]
      rw [this]; exact h
    · have c := h.disconnect hv
      have hnotin : e ∉ (σ.dropEdge e).edges := by simp [Spec.dropEdge]
      have hne : ∀ x ∈ (σ.dropEdge e).edges, x ≠ e := by rintro x hx rfl; exact hnotin hx
      have c1 : Core { s.disconnect e with eLabel := upd (s.disconnect e).eLabel e l }
          { σ.dropEdge e with label := upd σ.label e l } := by
        refine ⟨c.next, c.nNodup, c.eNodup, c.nLt, c.eLt, c.disj, c.labels, c.nprops, ?_, c.eprops, c.ends, ?_, ?_,
          c.count⟩
        · intro x hx
          have := c.eattr x hx
          refine ⟨this.1, this.2.1, ?_⟩
          simp only [upd_other _ _ (hne x hx)]; exact this.2.2
        · intro n hn
          obtain ⟨xs, h1, h2⟩ := c.out n hn
          refine ⟨xs, h1, h2.congr (fun _ _ => rfl) ?_⟩
          intro x hx
          exact upd_other _ _ (hne x (List.mem_filter.1 (h1.mem_iff.1 hx)).1)
        · intro n hn
          obtain ⟨xs, h1, h2⟩ := c.inc n hn
          refine ⟨xs, h1, h2.congr (fun _ _ => rfl) ?_⟩
          intro x hx
          exact upd_other _ _ (hne x (List.mem_filter.1 (h1.mem_iff.1 hx)).1)
      have hat := h.eattr e hv
      obtain ⟨s1, h1, c2⟩ := Core.connect (e := e) c1 hnotin (h.eLt e hv) (fun hh => h.disj e hh hv)
        ⟨hat.1, hat.2.1, by simp⟩ (h.eprops e hv) (h.ends e hv)
      rw [h1] at hs
      cases hs
      refine c2.perm (es := σ.edges) ?_
      show σ.edges.Perm (σ.edges.filter (· ≠ e) ++ [e])
      have hp : σ.edges.Perm (e :: σ.edges.erase e) := List.perm_cons_erase hv
      have he : σ.edges.erase e = σ.edges.filter (· ≠ e) := by
        rw [List.Nodup.erase_eq_filter h.eNodup]
        apply List.filter_congr; intro x _; by_cases hx : x = e <;> simp [hx]
      rw [he] at hp
      exact hp.trans (List.perm_append_singleton e _).symm
  | setEdgeProp n k v =>
    obtain ⟨ixs, rfl⟩ := setEdgeProp_frame hs
    refine ⟨h.next, h.nNodup, h.eNodup, h.nLt, h.eLt, h.disj, h.labels, h.nprops, h.eattr, ?_, h.ends, h.out,
      h.inc, h.count⟩
    intro m hm
    by_cases hmn : m = n
    · subst hmn
      have := h.eprops m hm
      refine ⟨by simpa using AMap.nodup_set this.1 _ _, ?_⟩
      intro k'
      simp [Spec.step, AMap.get_set, upd_apply, this.2]
    · simpa [Spec.step, upd_other _ _ hmn] using h.eprops m hm
  | removeEdgeProp n k =>
    obtain ⟨ixs, rfl⟩ := removeEdgeProp_frame hs
    refine ⟨h.next, h.nNodup, h.eNodup, h.nLt, h.eLt, h.disj, h.labels, h.nprops, h.eattr, ?_, h.ends, h.out,
      h.inc, h.count⟩
    intro m hm
    by_cases hmn : m = n
    · subst hmn
      have := h.eprops m hm
      refine ⟨by simpa using AMap.nodup_del this.1 _, ?_⟩
      intro k'
      simp [Spec.step, AMap.get_del, upd_apply, this.2]
    · simpa [Spec.step, upd_other _ _ hmn] using h.eprops m hm
  | removeEdge e =>
    cases hs
    have c := h.disconnect hv
    exact c.withSlot0 _ _ _ _
  | addNodeIndex k t =>
    obtain ⟨ixs, rfl⟩ := addNodeIndex_frame hs
    exact h.withSlot0 s.slot0 s.allEdges ixs s.edgeIx
  | addEdgeIndex k t =>
    obtain ⟨ixs, rfl⟩ := addEdgeIndex_frame hs
    exact h.withSlot0 s.slot0 s.allEdges s.nodeIx ixs

theorem Core.runFrom {ops : List Op} : ∀ {s s' : State} {σ : Spec}, Core s σ → σ.ValidFrom ops →
    runFrom s ops = some s' → Core s' (σ.runFrom ops) := by
  induction ops with
  | nil => intro s s' σ h _ hs; simp [LPG.runFrom] at hs; subst hs; exact h
  | cons op ops ih =>
    intro s s' σ h hv hs
    rw [LPG.runFrom] at hs
    split at hs
    · cases hs
    · rename_i s1 h1
      exact ih (h.step hv.1 h1) hv.2 hs

theorem Core.run {ops : List Op} {s : State} (hv : Spec.ValidHistory ops) (hs : run ops = some s) :
    Core s (Spec.run ops) := Core.init.runFrom hv hs

end LPG
