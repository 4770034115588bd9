import Verif.Proofs.JsonEncode
import Verif.Spec.Clone
import Verif.Proofs.Listing
import Mathlib.Data.List.Perm.Basic
/-! What `Decode` makes of what `Encode` writes. -/
namespace LPG.Json
open State

/-! ## The start of `Decode` -/

theorem start_lists {ops : List Op} {s : State} (hv : Spec.ValidHistory ops) (hc : ListOk (ops ++ [.newNode [] []]))
    (hs : run ops = some s) : NReady s (Spec.run ops) := by
  obtain ⟨h1, h2⟩ := Spec.listOkFrom_append.1 hc
  exact ⟨_, NOk.runFrom Core.init NOk.init hv h1 hs, h2.1⟩

theorem Loading.start {c : Codec} {ops : List Op} {s : State} (hv : Spec.ValidHistory ops) (hs : run ops = some s) :
    ∃ R, Loading c (LoadIndexable c.unm ops ∧ s.getEdges ≠ none) (ListOk (ops ++ [.newNode [] []])) (FiledOk ops)
      (fun k v => NodeValue ops k v ∨ ∃ k' j, c.unm k' j = some (k, v))
      (fun k v => EdgeValue ops k v ∨ ∃ k' j, c.unm k' j = some (k, v)) R s (Spec.run ops) [] [] { s := s } (Spec.run ops) := by
  have k1 := Core.run hv hs
  refine ⟨_, k1, fun hc => start_lists hv hc hs, fun hr => filed_run hv hr hs, k1.eLt, EMono.runFrom EMono.init hs, fun hU => hU.2,
    Mono.init.runFrom Core.init hv hs, ?_, ?_, ⟨[], rfl, trivial, rfl, by simp⟩, ?_, by simp, by simp, by simp, by simp⟩
  · intro hU
    exact SafeIx.runFrom Core.init EMono.init Mono.init (SafeIx.init _ _) hv hs (fun op ho k v h => Or.inl ⟨op, ho, h⟩)
      (fun op ho k v h => Or.inl ⟨op, ho, h⟩) hU.1.1 hU.1.2
  · exact fun _ k j k' v h => ⟨Or.inr ⟨k, j, h⟩, Or.inr ⟨k, j, h⟩⟩
  · exact ⟨by simp, by simp, by simp, by simp, by simp, by simp, by simp, by simp, by simp, by simp⟩

theorem Loading.shows {c : Codec} {U Ln Le : Prop} {Pn Pe : String → Value → Prop} {R : List Nat} {s0 : State} {σ0 : Spec}
    {P : List (DocNode × Nat)} {Q : List (FullEdge × Nat)} {l : Load} {σ : Spec}
    (h : Loading c U Ln Le Pn Pe R s0 σ0 P Q l σ) (hn : Ln) (he : Le) : Shows l.s σ :=
  have c := h.core
  ⟨(h.nrep hn).getNodes c, (h.aerep he).getEdges c, c.count, (h.aerep he).numEdges, c.labels, fun n hn k => (c.nprops n hn).2 k,
    fun e he => ⟨(c.eattr e he).1, (c.eattr e he).2.1⟩, fun e he => (c.eattr e he).2.2, fun e he k => (c.eprops e he).2 k,
    fun n hn => c.out_enum hn, fun n hn => c.inc_enum hn, ⟨c.nNodup, c.eNodup⟩, c.ends⟩

/-- Calls that create nodes and edges: what is enumerated depends on the new nodes only. -/
theorem listing_grow {v : Listing} : ∀ {ops : List Op} {σ : Spec},
    (∀ op ∈ ops, (∃ ls ps, op = .newNode ls ps) ∨ ∃ a b lb ps, op = .newEdge a b lb ps) →
    ∃ new, (σ.runFrom ops).nodes = σ.nodes ++ new ∧ v.from_ σ ops = new.foldl Listing.create v
  | [], σ, _ => ⟨[], by simp [Spec.runFrom], rfl⟩
  | op :: ops, σ, h => by
    have h' := h op (by simp)
    rcases h' with ⟨ls, ps, rfl⟩ | ⟨a, b, lb, ps, rfl⟩
    · obtain ⟨new, h1, h2⟩ := listing_grow (v := v.create σ.next) (ops := ops) (σ := σ.step (.newNode ls ps))
        (fun o ho => h o (by simp [ho]))
      refine ⟨σ.next :: new, ?_, h2⟩
      show ((σ.step (.newNode ls ps)).runFrom ops).nodes = _
      rw [h1]; simp [Spec.step]
    · obtain ⟨new, h1, h2⟩ := listing_grow (v := v) (ops := ops) (σ := σ.step (.newEdge a b lb ps))
        (fun o ho => h o (by simp [ho]))
      exact ⟨new, h1, h2⟩

theorem Loading.getNodes {c : Codec} {U Ln Le : Prop} {Pn Pe : String → Value → Prop} {R : List Nat} {ops : List Op} {s0 : State}
    {P : List (DocNode × Nat)} {Q : List (FullEdge × Nat)} {l : Load} {σ : Spec} (hv : Spec.ValidHistory ops)
    (hs : run ops = some s0) (h : Loading c U Ln Le Pn Pe R s0 (Spec.run ops) P Q l σ) :
    l.s.getNodes = some ((P.map Prod.snd).foldl Listing.create (listingAfter ops)).nodes := by
  obtain ⟨more, h1, h2, h3, h4⟩ := h.hist
  have hN : NShows l.s.nptr l.s.allNodes σ.nodes σ.next ((listingAfter ops).from_ (Spec.run ops) more) := by
    have := NShows.runFrom (Core.run hv hs) (NShows.runFrom Core.init NShows.init hv hs) h2 h1
    rw [h3]; exact this
  obtain ⟨new, g1, g2⟩ := listing_grow (v := listingAfter ops) (σ := Spec.run ops) h4
  rw [← h3, h.loaded.nodes] at g1
  rw [List.append_cancel_left g1, ← g2]
  exact hN.getNodes h.core

/-! ## No other end -/

theorem token_len : ∀ {ts : List Tok} {st : TState} {stack : List TState} {t : GoTok} {d : Decoder},
    token st stack ts = some (t, d) → d.toks.length < ts.length
  | [], st, stack, t, d, h => by cases h
  | .colon :: r, st, stack, t, d, h => by
    rw [token] at h
    split at h
    · have := token_len h; simp; omega
    · cases h
  | .comma :: r, st, stack, t, d, h => by
    rw [token] at h
    split at h
    · have := token_len h; simp; omega
    · split at h
      · have := token_len h; simp; omega
      · cases h
  | .lbrack :: r, st, stack, t, d, h | .lbrace :: r, st, stack, t, d, h | .null :: r, st, stack, t, d, h
  | .num _ :: r, st, stack, t, d, h | .real _ :: r, st, stack, t, d, h | .bool _ :: r, st, stack, t, d, h => by
    simp only [token] at h
    split at h
    · cases h; simp
    · cases h
  | .str _ :: r, st, stack, t, d, h => by
    simp only [token] at h
    split at h
    · cases h; simp
    · split at h
      · cases h; simp
      · cases h
  | .rbrack :: r, st, stack, t, d, h | .rbrace :: r, st, stack, t, d, h => by
    simp only [token] at h
    split at h
    · split at h
      · cases h; simp
      · cases h
    · cases h

theorem value_len {d d' : Decoder} {v : JVal} (h : d.value = some (v, d')) : d'.toks.length ≤ d.toks.length := by
  have main : ∀ (st : TState) (ts : List Tok), (if st.valueAllowed then
      match readValue (2 * ts.length) ts with
      | some (v, r) => some (v, (⟨r, st.valueEnd, d.stack⟩ : Decoder))
      | none => none
    else none) = some (v, d') → d'.toks.length ≤ ts.length := by
    intro st ts h
    split at h
    · split at h
      · rename_i v1 r h1
        have := readValue_sound h1
        cases h
        rw [this]; simp
      · cases h
    · cases h
  unfold Decoder.value at h
  simp only at h
  split at h
  · rename_i r hs ht
    have := main _ _ h
    rw [ht]; simp; omega
  · cases h
  · rename_i r hs ht
    have := main _ _ h
    rw [ht]; simp; omega
  · cases h
  · exact main _ _ h

def NotStuck (r : Outcome) : Prop := ∀ l, r ≠ some (some .stuck, l)

theorem NotStuck.andThen {r : Outcome} {g : Load → Outcome} (h1 : NotStuck r) (h2 : ∀ l, NotStuck (g l)) :
    NotStuck (match (generalizing := false) r with | some (none, l') => g l' | r => r) := by
  intro l
  match r, h1 with
  | none, _ => simp
  | some (none, l'), _ => exact h2 l' l
  | some (some x, l'), h1 => exact h1 l

theorem addEdge_notStuck (c : Codec) (l : Load) (a b : Nat) (lb : String) (ps : AMap String JVal) :
    NotStuck (addEdge c l a b lb ps) := by
  intro l'
  unfold addEdge
  split
  · simp
  · split <;> simp

theorem addOutgoing_notStuck (c : Codec) (n : Int) (a : Nat) : ∀ (es : List OutEdge) (l : Load), NotStuck (addOutgoing c n a es l)
  | [], l, l' => by simp [addOutgoing]
  | e :: es, l, l' => by
    rw [addOutgoing]
    split
    · exact addOutgoing_notStuck c n a es _ l'
    · exact (addEdge_notStuck c l a _ _ _).andThen (fun l => addOutgoing_notStuck c n a es l) l'

theorem addNodes_notStuck (c : Codec) : ∀ (ns : List DocNode) (l : Load), NotStuck (addNodes c ns l)
  | [], l, l' => by simp [addNodes]
  | n :: ns, l, l' => by
    rw [addNodes]
    refine NotStuck.andThen (r := addNode c l n) ?_ (fun l => addNodes_notStuck c ns l) l'
    intro l'
    unfold addNode
    split
    · simp
    · split
      · simp
      · exact addOutgoing_notStuck c _ _ _ _ l'

theorem addEdges_notStuck (c : Codec) : ∀ (es : List FullEdge) (l : Load), NotStuck (addEdges c es l)
  | [], l, l' => by simp [addEdges]
  | e :: es, l, l' => by
    rw [addEdges]
    split
    · exact (addEdge_notStuck c l _ _ _ _).andThen (fun l => addEdges_notStuck c es l) l'
    · exact addEdges_notStuck c es _ l'

theorem addQueue_notStuck (c : Codec) : ∀ (es : List FullEdge) (l : Load), NotStuck (addQueue c es l)
  | [], l, l' => by simp [addQueue]
  | e :: es, l, l' => by
    rw [addQueue]
    split
    · simp
    · split
      · simp
      · exact (addEdge_notStuck c l _ _ _ _).andThen (fun l => addQueue_notStuck c es l) l'

theorem decodeLoop_notStuck (c : Codec) : ∀ (f D : Nat) (d : Decoder) (l : Load), d.toks.length < f →
    NotStuck (decodeLoop c f D d l)
  | 0, D, d, l, h => by omega
  | f + 1, D, d, l, h => by
    intro l'
    rw [decodeLoop]
    cases ht : d.token with
    | none => simp
    | some x =>
      obtain ⟨t, d1⟩ := x
      have h1 : d1.toks.length < f := by have := token_len ht; omega
      have ih : ∀ D l, NotStuck (decodeLoop c f D d1 l) := fun D l => decodeLoop_notStuck c f D d1 l h1
      simp only
      split
      · cases t with
        | str k =>
          simp only
          split
          · cases hv : d1.value with
            | none => simp
            | some y =>
              obtain ⟨v, d2⟩ := y
              have h2 : d2.toks.length < f := by have := value_len hv; omega
              simp only
              split
              · simp
              · exact (addNodes_notStuck c _ l).andThen (fun l => decodeLoop_notStuck c f 0 d2 l h2) l'
          · split
            · cases hv : d1.value with
              | none => simp
              | some y =>
                obtain ⟨v, d2⟩ := y
                have h2 : d2.toks.length < f := by have := value_len hv; omega
                simp only
                split
                · simp
                · exact (addEdges_notStuck c _ l).andThen (fun l => decodeLoop_notStuck c f 0 d2 l h2) l'
            · exact ih _ _ l'
        | rbrace => exact addQueue_notStuck c _ _ l'
        | lbrace => exact ih _ _ l'
        | lbrack => exact ih _ _ l'
        | rbrack => exact ih _ _ l'
        | scalar => exact ih _ _ l'
      · cases t <;> exact ih _ _ l'

/-! ## Properties there and back -/

theorem PropsDoc.back {c : Codec} {ps : Props} {raw : AMap String JVal} {read read' : String → Option Value}
    (hn : (AMap.keys ps).Nodup) (hps : ∀ k, AMap.get ps k = read k) (hi : Inverse c.mar c.unm read)
    (h : PropsDoc c ps raw) (hr : PropsRead c.unm raw read') : ∀ k, read' k = read k := by
  obtain ⟨g1, g2, _, g4⟩ := marshalProperties_some h (by simp [AMap.keys])
  have hm : ∀ k v, (k, v) ∈ ps ↔ read k = some v := fun k v =>
    ⟨fun h => by rw [← hps]; exact AMap.get_of_mem hn h, fun h => AMap.mem_of_get (by rw [hps]; exact h)⟩
  have from' : ∀ k' j, (k', j) ∈ raw → ∃ k v, read k = some v ∧ c.mar k v = some (k', j) ∧ c.unm k' j = some (k, v) := by
    intro k' j hj
    rcases g2 k' j (AMap.get_of_mem g1 hj) with h | ⟨k, v, h1, h2⟩
    · cases h
    · have h1 := (hm k v).1 h1
      obtain ⟨_, k2, j2, _, h3, h4⟩ := hi.back k v h1
      rw [h2] at h3; cases h3
      exact ⟨k, v, h1, h2, h4⟩
  have one : ∀ k v, read' k = some v → read k = some v := by
    intro k v hk
    obtain ⟨_, k', j, h1, h2⟩ := hr.origin k v hk
    obtain ⟨k2, v2, h3, _, h4⟩ := from' k' j h1
    rw [h2] at h4; cases h4
    exact h3
  intro k
  cases hk : read k with
  | none =>
    cases hk' : read' k with
    | none => rfl
    | some v => rw [one k v hk'] at hk; cases hk
  | some v =>
    obtain ⟨hne, k', j, hne', h1, h2⟩ := hi.back k v hk
    obtain ⟨j2, h3⟩ := Option.ne_none_iff_exists'.1 (g4 k v k' j ((hm k v).2 hk) h1 hne')
    obtain ⟨k3, v3, h4, h5, _⟩ := from' k' j2 (AMap.mem_of_get h3)
    obtain rfl := hi.inj _ _ _ _ _ _ _ hk h4 h1 h5
    rw [hk] at h4; cases h4
    rw [h1] at h5; cases h5
    cases hk' : read' k with
    | none => exact absurd hk' (hr.all k' j k v (AMap.mem_of_get h3) h2 hne)
    | some v' => rw [one k v' hk'] at hk; rw [hk]

theorem PropsDoc.fine {c : Codec} {ps : Props} {raw : AMap String JVal} {read : String → Option Value}
    (hn : (AMap.keys ps).Nodup) (hps : ∀ k, AMap.get ps k = read k) (hi : Inverse c.mar c.unm read)
    (h : PropsDoc c ps raw) : ∀ p ∈ raw, c.unm p.1 p.2 ≠ none := by
  obtain ⟨g1, g2, _, _⟩ := marshalProperties_some h (by simp [AMap.keys])
  rintro ⟨k', j⟩ hp
  rcases g2 k' j (AMap.get_of_mem g1 hp) with h | ⟨k, v, h1, h2⟩
  · cases h
  · obtain ⟨_, k2, j2, _, h3, h4⟩ := hi.back k v (by rw [← hps]; exact AMap.get_of_mem hn h1)
    rw [h2] at h3; cases h3
    simp [h4]

/-! ## Lists in step -/

theorem forall2_mem_left {α β : Type} {R : α → β → Prop} {as : List α} {bs : List β} (h : List.Forall₂ R as bs) :
    List.Forall₂ (fun a b => a ∈ as ∧ b ∈ bs ∧ R a b) as bs := by
  induction h with
  | nil => exact .nil
  | cons h t ih =>
    refine .cons ⟨by simp, by simp, h⟩ (ih.imp ?_)
    exact fun a b ⟨h1, h2, h3⟩ => ⟨by simp [h1], by simp [h2], h3⟩

theorem forall2_left {α β : Type} {R : α → β → Prop} {as : List α} {bs : List β} (h : List.Forall₂ R as bs) :
    ∀ a ∈ as, ∃ b ∈ bs, R a b := by
  induction h with
  | nil => simp
  | @cons a b as bs h t ih =>
    intro x hx
    rcases List.mem_cons.1 hx with rfl | hx
    · exact ⟨b, by simp, h⟩
    · obtain ⟨y, h1, h2⟩ := ih x hx; exact ⟨y, by simp [h1], h2⟩

theorem forall2_snd {α β γ : Type} {R : α → β → Prop} {as : List α} {P : List (β × γ)}
    (h : List.Forall₂ R as (P.map Prod.fst)) : List.Forall₂ (fun a p => R a p.1) as P := by
  induction P generalizing as with
  | nil => cases h; exact .nil
  | cons p P ih => cases h with | cons h t => exact .cons h (ih t)

theorem forall2_pairs {α β γ δ : Type} {R : α × γ → β × δ → Prop} {as : List (α × γ)} {bs : List (β × δ)}
    (h : List.Forall₂ R as bs) : ∃ m : List (α × δ), m.map Prod.fst = as.map Prod.fst ∧ m.map Prod.snd = bs.map Prod.snd ∧
      (∀ x ∈ m, ∃ a ∈ as, ∃ b ∈ bs, R a b ∧ x = (a.1, b.2)) ∧
      (∀ b ∈ bs, ∃ a ∈ as, R a b ∧ (a.1, b.2) ∈ m) := by
  induction h with
  | nil => exact ⟨[], rfl, rfl, by simp, by simp⟩
  | @cons a b as bs h t ih =>
    obtain ⟨m, h1, h2, h3, h4⟩ := ih
    refine ⟨(a.1, b.2) :: m, by simp [h1], by simp [h2], ?_, ?_⟩
    · intro x hx
      rcases List.mem_cons.1 hx with rfl | hx
      · exact ⟨a, by simp, b, by simp, h, rfl⟩
      · obtain ⟨a', k1, b', k2, k3⟩ := h3 x hx
        exact ⟨a', by simp [k1], b', by simp [k2], k3⟩
    · intro b' hb
      rcases List.mem_cons.1 hb with rfl | hb
      · exact ⟨a, by simp, h, by simp⟩
      · obtain ⟨a', k1, k2, k3⟩ := h4 b' hb
        exact ⟨a', by simp [k1], k2, by simp [k3]⟩

/-! ## The numbers of the nodes -/

theorem zip_get {ns : List Nat} (hn : ns.Nodup) : ∀ p ∈ ns.zipIdx 0, num (ns.zipIdx 0) p.1 = p.2 := by
  rintro ⟨n, i⟩ hp
  have : (AMap.keys (ns.zipIdx 0)).Nodup := by
    rw [AMap.keys, List.zipIdx_map_fst]; exact hn
  rw [num, AMap.get_of_mem this hp]
  rfl

theorem zip_inj {ns : List Nat} (hn : ns.Nodup) {a b : Nat} (ha : a ∈ ns) (hb : b ∈ ns)
    (h : num (ns.zipIdx 0) a = num (ns.zipIdx 0) b) : a = b := by
  obtain ⟨i, hi, rfl⟩ := List.getElem_of_mem ha
  obtain ⟨j, hj, rfl⟩ := List.getElem_of_mem hb
  have h1 : (ns[i], i) ∈ ns.zipIdx 0 := by
    rw [List.mk_mem_zipIdx_iff_getElem?]; simp [hi]
  have h2 : (ns[j], j) ∈ ns.zipIdx 0 := by
    rw [List.mk_mem_zipIdx_iff_getElem?]; simp [hj]
  have e1 := zip_get hn _ h1
  have e2 := zip_get hn _ h2
  simp only at e1 e2
  rw [e1, e2] at h
  have : i = j := by exact_mod_cast h
  subst this; rfl

/-! ## The edges in the nodes -/

theorem outLists {c : Codec} {s : State} {σ : Spec} {nm : AMap Nat Nat}
    (ho : ∀ n ∈ σ.nodes, ∃ es, s.nodeEdges n .outgoing = some es ∧ es.Perm (σ.edges.filter (fun e => σ.src e = n)))
    (hf : ∀ e ∈ σ.edges, num nm (s.eFrom e) = num nm (σ.src e)) (hd : σ.edges.Nodup) (hs : c.separately = false) :
    ∀ {ps : List (Nat × Nat)} {N : List DocNode}, List.Forall₂ (fun p d => NodeDoc c s nm p.1 p.2 d) ps N →
    (∀ p ∈ ps, p.1 ∈ σ.nodes) → (ps.map Prod.fst).Nodup → (∀ p ∈ ps, num nm p.1 = p.2) →
    ∃ L, List.Forall₂ (EdgeDoc c s nm) L (embedded N) ∧ L.Nodup ∧ ∀ e, e ∈ L ↔ e ∈ σ.edges ∧ σ.src e ∈ ps.map Prod.fst
  | [], _, .nil, _, _, _ => ⟨[], .nil, by simp, by simp⟩
  | (n, ix) :: ps, d :: N, .cons h t, h1, h2, h3 => by
    have h2' := List.nodup_cons.1 h2
    obtain ⟨L, g1, g2, g3⟩ := outLists ho hf hd hs t (fun p hp => h1 p (by simp [hp])) h2'.2 (fun p hp => h3 p (by simp [hp]))
    obtain ⟨es, he, hes⟩ := h.emb hs
    have hn : n ∈ σ.nodes := h1 (n, ix) (by simp)
    obtain ⟨es', he', hp⟩ := ho n hn
    rw [he] at he'; cases he'
    have hmem : ∀ e, e ∈ es ↔ e ∈ σ.edges ∧ σ.src e = n := by
      intro e; rw [hp.mem_iff, List.mem_filter]; simp
    refine ⟨es ++ L, ?_, ?_, ?_⟩
    · have : embedded (d :: N) = d.edges.map (full d.n) ++ embedded N := by simp [embedded, full]
      rw [this]
      refine List.rel_append ?_ g1
      rw [List.forall₂_map_right_iff]
      refine (forall2_mem_left hes).imp ?_
      rintro e o ⟨ho, _, o1, o2, o3⟩
      refine ⟨?_, o1, o2, o3⟩
      have := (hmem e).1 ho
      show d.n = num nm (s.eFrom e)
      rw [hf e this.1, this.2, h.nr]
      exact (h3 (n, ix) (by simp)).symm
    · rw [List.nodup_append]
      refine ⟨hp.nodup_iff.2 (hd.filter _), g2, ?_⟩
      rintro e h4 e' h5 rfl
      have h6 := ((hmem e).1 h4).2
      have h7 := ((g3 e).1 h5).2
      rw [h6] at h7
      exact h2'.1 h7
    · intro e
      rw [List.mem_append, hmem, g3]
      simp only [List.map_cons, List.mem_cons]
      grind

theorem perm_of_mem {a b : List Nat} (ha : a.Nodup) (hb : b.Nodup) (h : ∀ x, x ∈ a ↔ x ∈ b) : a.Perm b :=
  (List.perm_ext_iff_of_nodup ha hb).2 h

end LPG.Json
