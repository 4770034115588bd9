import Verif.Proofs.Mono
/-!
# The label index

Members of the sets of the index, and the invariant: a live node is filed under each of its labels; a node
filed under one of its own labels is alive. Sets may contain further nodes (`NodeMap.Replace` with an empty
new set leaves them behind).
-/
namespace LPG

namespace FSet

theorem get_add {α : Type} (s : FSet α) (id : Nat) (a : α) (x : Nat) :
    AMap.get (FSet.add s id a) x = if x = id then some ((AMap.get s id).getD a) else AMap.get s x := by
  unfold FSet.add
  split
  · rename_i v hv
    split
    · rename_i hx; rw [hx, hv]; rfl
    · rfl
  · rename_i hv
    rw [← AMap.set_of_not_mem hv, AMap.get_set, hv]
    rfl

theorem keys_add {α : Type} (s : FSet α) (id : Nat) (a : α) :
    AMap.keys (FSet.add s id a) = if id ∈ AMap.keys s then AMap.keys s else AMap.keys s ++ [id] := by
  unfold FSet.add
  split
  · rename_i v hv
    rw [if_pos (AMap.mem_keys.2 ⟨v, hv⟩)]
  · rename_i hv
    rw [if_neg (AMap.not_mem_keys.2 hv)]
    simp [AMap.keys]

theorem nodup_add {α : Type} {s : FSet α} (h : (AMap.keys s).Nodup) (id : Nat) (a : α) :
    (AMap.keys (FSet.add s id a)).Nodup := by
  rw [keys_add]
  split
  · exact h
  · rename_i hn
    rw [List.nodup_append]
    refine ⟨h, by simp, ?_⟩
    intro x hx y hy
    simp at hy; subst hy
    rintro rfl; exact hn hx

theorem mem_keys_add {α : Type} (s : FSet α) (id : Nat) (a : α) (x : Nat) :
    x ∈ AMap.keys (FSet.add s id a) ↔ x ∈ AMap.keys s ∨ x = id := by
  rw [keys_add]
  split
  · rename_i h
    constructor
    · exact Or.inl
    · rintro (h' | rfl)
      · exact h'
      · exact h
  · simp

end FSet

theorem AMap.keys_del {α : Type u} {β : Type v} [DecidableEq α] (m : AMap α β) (a : α) :
    AMap.keys (AMap.del m a) = (AMap.keys m).filter (fun x => x ≠ a) := by
  induction m with
  | nil => rfl
  | cons p m ih =>
    obtain ⟨k, v⟩ := p
    by_cases h : k = a
    · simp only [AMap.del, h, if_true, AMap.keys, List.map_cons] at ih ⊢
      rw [ih]; simp
    · simp only [AMap.del, h, if_false, AMap.keys, List.map_cons] at ih ⊢
      rw [ih]; simp [h]

theorem AMap.mem_keys_del {α : Type u} {β : Type v} [DecidableEq α] (m : AMap α β) (a x : α) :
    x ∈ AMap.keys (AMap.del m a) ↔ x ∈ AMap.keys m ∧ x ≠ a := by
  rw [AMap.keys_del]; simp

/-- a set whose items are its ids, without repetition -/
structure FSet.Ok (s : FSet Nat) : Prop where
  nodup : (AMap.keys s).Nodup
  same : ∀ p ∈ s, p.2 = p.1

theorem FSet.Ok.items {s : FSet Nat} (h : s.Ok) : s.items = AMap.keys s := by
  unfold FSet.items AMap.keys
  exact List.map_congr_left h.same

theorem FSet.Ok.nil : FSet.Ok [] := ⟨by simp [AMap.keys], by simp⟩

theorem FSet.Ok.add {s : FSet Nat} (h : s.Ok) (n : Nat) : (FSet.add s n n).Ok := by
  refine ⟨FSet.nodup_add h.nodup _ _, ?_⟩
  intro p hp
  unfold FSet.add at hp
  split at hp
  · exact h.same p hp
  · rcases List.mem_append.1 hp with hp | hp
    · exact h.same p hp
    · simp at hp; subst hp; rfl

theorem FSet.Ok.remove {s : FSet Nat} (h : s.Ok) (n : Nat) : (FSet.remove s n).Ok := by
  refine ⟨AMap.nodup_del h.nodup _, ?_⟩
  intro p hp
  exact h.same p ((AMap.keys_del_sublist s n).subset hp)

namespace NodeMap

/-- the nodes filed under a label -/
def members (nm : NodeMap) (l : String) : List Nat :=
  match nm.m.get l with
  | none => []
  | some s => AMap.keys s

structure Ok (nm : NodeMap) : Prop where
  sets : ∀ l s, nm.m.get l = some s → FSet.Ok s
  keys : (AMap.keys nm.m).Nodup
  nolabels : FSet.Ok nm.nolabels
  nonempty : ∀ l s, nm.m.get l = some s → s ≠ []

theorem Ok.empty : Ok NodeMap.empty :=
  ⟨by simp [NodeMap.empty], by simp [NodeMap.empty, AMap.keys], FSet.Ok.nil, by simp [NodeMap.empty]⟩

theorem members_empty (l : String) : NodeMap.empty.members l = [] := rfl

theorem fadd_ne_nil (s : FSet Nat) (n : Nat) : FSet.add s n n ≠ [] := by
  intro h
  have := (FSet.mem_keys_add s n n n).2 (Or.inr rfl)
  rw [h] at this; simp [AMap.keys] at this

theorem addTo_eq (nm : NodeMap) (n : Nat) (l : String) : ∃ s, nm.addTo n l = { nm with m := nm.m.set l (FSet.add s n n) } ∧
    AMap.keys s = nm.members l ∧ (nm.Ok → FSet.Ok s) := by
  unfold addTo members
  split
  · exact ⟨[], by simp_all, by simp_all [AMap.keys], fun _ => FSet.Ok.nil⟩
  · rename_i s hs
    exact ⟨s, by simp_all, by simp_all, fun h => h.sets _ _ hs⟩

theorem Ok.addTo {nm : NodeMap} (h : nm.Ok) (n : Nat) (l : String) : (nm.addTo n l).Ok := by
  obtain ⟨s, h1, _, h3⟩ := addTo_eq nm n l
  rw [h1]
  refine ⟨?_, AMap.nodup_set h.keys _ _, h.nolabels, ?_⟩
  · intro l' s' hs'
    simp only [AMap.get_set] at hs'
    split at hs'
    · cases hs'; exact (h3 h).add n
    · exact h.sets _ _ hs'
  · intro l' s' hs'
    simp only [AMap.get_set] at hs'
    split at hs'
    · cases hs'; exact fadd_ne_nil _ _
    · exact h.nonempty _ _ hs'

theorem mem_addTo (nm : NodeMap) (n : Nat) (l : String) (x : Nat) (l' : String) :
    x ∈ (nm.addTo n l).members l' ↔ x ∈ nm.members l' ∨ (x = n ∧ l' = l) := by
  obtain ⟨s, h1, h2, _⟩ := addTo_eq nm n l
  rw [h1]
  by_cases hl : l' = l
  · subst hl
    simp only [members, AMap.get_set_same, FSet.mem_keys_add, h2, and_true]
  · simp only [members, AMap.get_set_other _ _ hl, hl, and_false, or_false]

theorem removeFrom_eq (nm : NodeMap) (n : Nat) (l : String) :
    (nm.removeFrom n l = nm ∧ nm.members l = []) ∨ (∃ s, nm.m.get l = some s ∧
      ((FSet.remove s n = [] ∧ nm.removeFrom n l = { nm with m := nm.m.del l }) ∨
       (FSet.remove s n ≠ [] ∧ nm.removeFrom n l = { nm with m := nm.m.set l (FSet.remove s n) }))) := by
  unfold removeFrom members
  split
  · left; simp_all
  · rename_i s hs
    right
    refine ⟨s, hs, ?_⟩
    by_cases he : FSet.remove s n = []
    · left; simp [he]
    · right; simp [he]

theorem Ok.removeFrom {nm : NodeMap} (h : nm.Ok) (n : Nat) (l : String) : (nm.removeFrom n l).Ok := by
  rcases removeFrom_eq nm n l with ⟨h1, _⟩ | ⟨s, hs, ⟨he, h1⟩ | ⟨he, h1⟩⟩
  · rw [h1]; exact h
  · rw [h1]
    refine ⟨?_, AMap.nodup_del h.keys _, h.nolabels, ?_⟩
    · intro l' s' hs'
      simp only [AMap.get_del] at hs'
      split at hs'
      · cases hs'
      · exact h.sets _ _ hs'
    · intro l' s' hs'
      simp only [AMap.get_del] at hs'
      split at hs'
      · cases hs'
      · exact h.nonempty _ _ hs'
  · rw [h1]
    refine ⟨?_, AMap.nodup_set h.keys _ _, h.nolabels, ?_⟩
    · intro l' s' hs'
      simp only [AMap.get_set] at hs'
      split at hs'
      · cases hs'; exact (h.sets _ _ hs).remove n
      · exact h.sets _ _ hs'
    · intro l' s' hs'
      simp only [AMap.get_set] at hs'
      split at hs'
      · cases hs'; exact he
      · exact h.nonempty _ _ hs'

theorem mem_removeFrom (nm : NodeMap) (n : Nat) (l : String) (x : Nat) (l' : String) :
    x ∈ (nm.removeFrom n l).members l' ↔ x ∈ nm.members l' ∧ ¬ (x = n ∧ l' = l) := by
  rcases removeFrom_eq nm n l with ⟨h1, h2⟩ | ⟨s, hs, ⟨he, h1⟩ | ⟨he, h1⟩⟩
  · rw [h1]
    constructor
    · intro h; refine ⟨h, ?_⟩; rintro ⟨_, rfl⟩; rw [h2] at h; simp at h
    · exact And.left
  · rw [h1]
    have hk := AMap.mem_keys_del s n x
    unfold FSet.remove at he
    rw [he] at hk
    simp only [members, AMap.get_del]
    by_cases hl : l' = l
    · subst hl
      simp only [if_true, hs]
      simp [AMap.keys] at hk ⊢
      intro y hy
      exact hk y hy
    · simp [hl]
  · rw [h1]
    by_cases hl : l' = l
    · subst hl
      simp only [members, AMap.get_set_same, hs, and_true]
      exact AMap.mem_keys_del s n x
    · simp only [members, AMap.get_set_other _ _ hl, hl, and_false, not_false_iff, and_true]

theorem foldl_addTo (n : Nat) : ∀ (ls : List String) (nm : NodeMap), (nm.Ok → (ls.foldl (fun nm l => nm.addTo n l) nm).Ok) ∧
    ∀ x l', x ∈ (ls.foldl (fun nm l => nm.addTo n l) nm).members l' ↔ x ∈ nm.members l' ∨ (x = n ∧ l' ∈ ls)
  | [], nm => by simp
  | l :: ls, nm => by
    obtain ⟨h1, h2⟩ := foldl_addTo n ls (nm.addTo n l)
    refine ⟨fun h => h1 (h.addTo n l), ?_⟩
    intro x l'
    rw [List.foldl_cons, h2, mem_addTo, List.mem_cons]
    grind

theorem foldl_removeFrom (n : Nat) : ∀ (ls : List String) (nm : NodeMap),
    (nm.Ok → (ls.foldl (fun nm l => nm.removeFrom n l) nm).Ok) ∧
    ∀ x l', x ∈ (ls.foldl (fun nm l => nm.removeFrom n l) nm).members l' ↔ x ∈ nm.members l' ∧ ¬ (x = n ∧ l' ∈ ls)
  | [], nm => by simp
  | l :: ls, nm => by
    obtain ⟨h1, h2⟩ := foldl_removeFrom n ls (nm.removeFrom n l)
    refine ⟨fun h => h1 (h.removeFrom n l), ?_⟩
    intro x l'
    rw [List.foldl_cons, h2, mem_removeFrom, List.mem_cons]
    grind

theorem Ok.add {nm : NodeMap} (h : nm.Ok) (n : Nat) (ls : List String) : (nm.add n ls).Ok := by
  unfold NodeMap.add
  split
  · exact ⟨h.sets, h.keys, h.nolabels.add n, h.nonempty⟩
  · exact (foldl_addTo n ls nm).1 h

theorem mem_add (nm : NodeMap) (n : Nat) (ls : List String) (x : Nat) (l' : String) :
    x ∈ (nm.add n ls).members l' ↔ x ∈ nm.members l' ∨ (x = n ∧ l' ∈ ls) := by
  unfold NodeMap.add
  split
  · rename_i h
    rw [List.length_eq_zero_iff] at h
    subst h
    simp [members]
  · exact (foldl_addTo n ls nm).2 x l'

theorem Ok.remove {nm : NodeMap} (h : nm.Ok) (n : Nat) (ls : List String) : (nm.remove n ls).Ok := by
  unfold NodeMap.remove
  split
  · exact ⟨h.sets, h.keys, h.nolabels.remove n, h.nonempty⟩
  · exact (foldl_removeFrom n ls nm).1 h

theorem mem_remove (nm : NodeMap) (n : Nat) (ls : List String) (x : Nat) (l' : String) :
    x ∈ (nm.remove n ls).members l' ↔ x ∈ nm.members l' ∧ ¬ (x = n ∧ l' ∈ ls) := by
  unfold NodeMap.remove
  split
  · rename_i h
    rw [List.length_eq_zero_iff] at h
    subst h
    simp [members]
  · exact (foldl_removeFrom n ls nm).2 x l'

theorem Ok.replace {nm : NodeMap} (h : nm.Ok) (n : Nat) (old new : List String) : (nm.replace n old new).Ok := by
  unfold NodeMap.replace
  have hif : (if old.length = 0 then { nm with nolabels := FSet.remove nm.nolabels n } else nm).Ok := by
    split
    · exact ⟨h.sets, h.keys, h.nolabels.remove n, h.nonempty⟩
    · exact h
  split
  · exact h
  · simp only
    split
    · exact ⟨hif.sets, hif.keys, hif.nolabels.add n, hif.nonempty⟩
    · exact (foldl_addTo n _ _).1 ((foldl_removeFrom n _ _).1 hif)

/-- After `Replace` the node is filed under the new labels; if the new set is not empty it is not filed under
an old label that is not new. -/
theorem mem_replace (nm : NodeMap) (n : Nat) (old new : List String) (x : Nat) (l' : String) :
    x ∈ (nm.replace n old new).members l' ↔
      (x ∈ nm.members l' ∧ (new = [] ∨ ¬ (x = n ∧ l' ∈ old ∧ l' ∉ new))) ∨ (x = n ∧ l' ∈ new ∧ l' ∉ old) := by
  unfold NodeMap.replace
  have hif : ∀ l, (if old.length = 0 then { nm with nolabels := FSet.remove nm.nolabels n } else nm).members l =
      nm.members l := by
    intro l; split <;> rfl
  split
  · rename_i h
    simp only [List.length_eq_zero_iff] at h
    simp [h.1, h.2]
  · simp only
    split
    · rename_i h
      rw [List.length_eq_zero_iff] at h
      subst h
      have : ∀ (a : NodeMap) (f : FSet Nat), ({ a with nolabels := f } : NodeMap).members l' = a.members l' := fun _ _ => rfl
      rw [this, hif]; simp
    · rename_i h
      rw [List.length_eq_zero_iff] at h
      rw [(foldl_addTo n _ _).2, (foldl_removeFrom n _ _).2, hif]
      simp only [List.mem_filter, List.contains_iff_mem, Bool.not_eq_true', Bool.decide_eq_true]
      have e1 : ∀ l : List String, (l.contains l' = false) ↔ l' ∉ l := by
        intro l; rw [← Bool.not_eq_true, List.contains_iff_mem]
      simp only [e1]
      grind

/-! ## Lookup -/

theorem minSet_spec (nm : NodeMap) : ∀ (ls : List String) (best : Option (FSet Nat)),
    (nm.minSet ls best = none → ∃ l ∈ ls, nm.m.get l = none) ∧
    (nm.minSet ls best = some none → best = none ∧ ls = []) ∧
    (∀ s, nm.minSet ls best = some (some s) → best = some s ∨ ∃ l ∈ ls, nm.m.get l = some s)
  | [], best => by simp [minSet]
  | l :: ls, best => by
    cases hg : nm.m.get l with
    | none => simp [minSet, hg]
    | some s =>
      cases best with
      | none =>
        simp only [minSet, hg]
        obtain ⟨h1, h2, h3⟩ := minSet_spec nm ls (some s)
        refine ⟨fun h => ?_, fun h => ?_, fun t h => ?_⟩
        · obtain ⟨l', hl', h'⟩ := h1 h; exact ⟨l', by simp [hl'], h'⟩
        · cases (h2 h).1
        · rcases h3 t h with h' | ⟨l', hl', h'⟩
          · cases h'; exact Or.inr ⟨l, by simp, hg⟩
          · exact Or.inr ⟨l', by simp [hl'], h'⟩
      | some b =>
        simp only [minSet, hg]
        obtain ⟨h1, h2, h3⟩ := minSet_spec nm ls (some (if b.length > s.length then s else b))
        refine ⟨fun h => ?_, fun h => ?_, fun t h => ?_⟩
        · obtain ⟨l', hl', h'⟩ := h1 h; exact ⟨l', by simp [hl'], h'⟩
        · cases (h2 h).1
        · rcases h3 t h with h' | ⟨l', hl', h'⟩
          · split at h'
            · cases h'; exact Or.inr ⟨l, by simp, hg⟩
            · exact Or.inl h'
          · exact Or.inr ⟨l', by simp [hl'], h'⟩

theorem allLabels_nonempty (nm : NodeMap) (h : nm.Ok) (labelsOf : Nat → List String) (ls : List String)
    (hls : ls ≠ []) : ∃ xs k, nm.allLabels labelsOf ls = some (xs, k) ∧ xs.Nodup ∧ (xs.length : Int) ≤ k ∧
      (∀ x ∈ xs, ∀ l ∈ ls, l ∈ labelsOf x) ∧
      (∀ x ∈ xs, ∃ l ∈ ls, x ∈ nm.members l) ∧
      ∀ x, (∀ l ∈ ls, l ∈ labelsOf x ∧ x ∈ nm.members l) → x ∈ xs := by
  obtain ⟨h1, h2, h3⟩ := minSet_spec nm ls none
  unfold allLabels
  cases hm : nm.minSet ls none with
  | none =>
    refine ⟨[], 0, rfl, by simp, by simp, by simp, by simp, ?_⟩
    intro x hx
    obtain ⟨l, hl, hg⟩ := h1 hm
    have := (hx l hl).2
    simp [members, hg] at this
  | some o =>
    cases o with
    | none => exact absurd (h2 hm).2 hls
    | some s =>
      rcases h3 s hm with h' | ⟨l, hl, hg⟩
      · cases h'
      · have ok := h.sets l s hg
        refine ⟨_, _, rfl, ?_, ?_, ?_, ?_, ?_⟩
        · rw [ok.items]; exact ok.nodup.filter _
        · have := List.length_filter_le (fun n => ls.all (fun l => (labelsOf n).contains l)) s.items
          have e : s.items.length = s.length := by simp [FSet.items]
          omega
        · intro x hx l' hl'
          have := (List.mem_filter.1 hx).2
          rw [List.all_eq_true] at this
          simpa using this l' hl'
        · intro x hx
          have := (List.mem_filter.1 hx).1
          rw [ok.items] at this
          exact ⟨l, hl, by simpa [members, hg] using this⟩
        · intro x hx
          rw [List.mem_filter, ok.items]
          refine ⟨by simpa [members, hg] using (hx l hl).2, ?_⟩
          rw [List.all_eq_true]
          intro l' hl'
          simpa using (hx l' hl').1

end NodeMap

/-- The invariant of the label index. -/
structure LblRep (s : State) (σ : Spec) : Prop where
  ok : s.byLabel.Ok
  filed : ∀ n ∈ σ.nodes, ∀ l ∈ s.nLabels n, n ∈ s.byLabel.members l
  alive : ∀ n l, n ∈ s.byLabel.members l → l ∈ s.nLabels n → n ∈ σ.nodes
  old : ∀ n l, n ∈ s.byLabel.members l → n < s.idBase

theorem LblRep.init : LblRep State.new Spec.new :=
  ⟨NodeMap.Ok.empty, by simp [Spec.new], by simp [State.new, NodeMap.members_empty],
    by simp [State.new, NodeMap.members_empty]⟩

theorem LblRep.congr {s s' : State} {σ σ' : Spec} (h : LblRep s σ) (h1 : s'.byLabel = s.byLabel)
    (h2 : s'.nLabels = s.nLabels) (h3 : s.idBase ≤ s'.idBase) (h4 : σ'.nodes = σ.nodes) : LblRep s' σ' :=
  ⟨h1 ▸ h.ok, by rw [h1, h2, h4]; exact h.filed, by rw [h1, h2, h4]; exact h.alive,
    by rw [h1]; exact fun n l hn => Nat.lt_of_lt_of_le (h.old n l hn) h3⟩

theorem LblRep.step {s s' : State} {σ : Spec} {op : Op} (c : Core s σ) (h : LblRep s σ) (hv : σ.Valid op)
    (hs : LPG.step s op = some s') : LblRep s' (σ.step op) := by
  cases op with
  | newNode ls ps =>
    obtain ⟨ixs, _, rfl⟩ := newNode_frame hs
    have hnx := c.next
    refine ⟨h.ok.add _ _, ?_, ?_, ?_⟩
    · intro n hn l hl
      simp only at hl ⊢
      rw [NodeMap.mem_add]
      by_cases hnn : n = s.idBase
      · subst hnn
        rw [upd_same] at hl
        exact Or.inr ⟨rfl, hl⟩
      · rw [upd_other _ _ hnn] at hl
        simp only [Spec.step, List.mem_append, List.mem_singleton] at hn
        rcases hn with hn | hn
        · exact Or.inl (h.filed n hn l hl)
        · exact absurd (hn.trans hnx.symm) hnn
    · intro n l hn hl
      simp only at hn hl ⊢
      simp only [Spec.step, List.mem_append, List.mem_singleton]
      by_cases hnn : n = s.idBase
      · exact Or.inr (hnn.trans hnx)
      · rw [upd_other _ _ hnn] at hl
        rw [NodeMap.mem_add] at hn
        rcases hn with hn | hn
        · exact Or.inl (h.alive n l hn hl)
        · exact absurd hn.1 hnn
    · intro n l hn
      simp only at hn ⊢
      rw [NodeMap.mem_add] at hn
      rcases hn with hn | hn
      · exact Nat.lt_succ_of_lt (h.old n l hn)
      · omega
  | newEdge a b l ps =>
    obtain ⟨h1, h2, h3, h4, h5, h6, _⟩ := newEdge_frame hs
    exact h.congr h6 h4 (by omega) rfl
  | setLabels n ls =>
    cases hs
    simp only [Spec.Valid] at hv
    refine ⟨h.ok.replace _ _ _, ?_, ?_, ?_⟩
    · intro m hm l hl
      simp only [State.setLabels] at hl ⊢
      rw [NodeMap.mem_replace]
      by_cases hmn : m = n
      · subst hmn
        rw [upd_same] at hl
        by_cases ho : l ∈ s.nLabels m
        · exact Or.inl ⟨h.filed m hm l ho, Or.inr (by grind)⟩
        · exact Or.inr ⟨rfl, hl, ho⟩
      · rw [upd_other _ _ hmn] at hl
        exact Or.inl ⟨h.filed m hm l hl, Or.inr (by grind)⟩
    · intro m l hm hl
      simp only [State.setLabels] at hl hm
      by_cases hmn : m = n
      · subst hmn; exact hv.1
      · rw [upd_other _ _ hmn] at hl
        rw [NodeMap.mem_replace] at hm
        rcases hm with hm | hm
        · exact h.alive m l hm.1 hl
        · exact absurd hm.1 hmn
    · intro m l hm
      simp only [State.setLabels] at hm ⊢
      rw [NodeMap.mem_replace] at hm
      rcases hm with hm | hm
      · exact h.old m l hm.1
      · rw [hm.1, c.next]; exact c.nLt n hv.1
  | setNodeProp n k v => obtain ⟨ixs, rfl⟩ := setNodeProp_frame hs; exact h.congr rfl rfl (Nat.le_refl _) rfl
  | removeNodeProp n k => obtain ⟨ixs, rfl⟩ := removeNodeProp_frame hs; exact h.congr rfl rfl (Nat.le_refl _) rfl
  | detach n =>
    obtain ⟨p0, p1, p2, im, om, ae, ix, rfl⟩ := detachNode_frame hs
    exact h.congr rfl rfl (Nat.le_refl _) rfl
  | detachRemove n =>
    simp only [LPG.step, State.detachRemoveNode] at hs
    split at hs
    · cases hs
    · rename_i s1 h1
      obtain ⟨p0, p1, p2, im, om, ae, ix, rfl⟩ := detachNode_frame h1
      split at hs
      · cases hs
      · cases hs
        refine ⟨h.ok.remove _ _, ?_, ?_, ?_⟩
        · intro m hm l hl
          simp only [Spec.step, List.mem_filter, State.withEdges] at hm hl ⊢
          rw [NodeMap.mem_remove]
          refine ⟨h.filed m hm.1 l hl, ?_⟩
          rintro ⟨rfl, _⟩
          simp at hm
        · intro m l hm hl
          simp only [State.withEdges] at hm hl
          rw [NodeMap.mem_remove] at hm
          simp only [Spec.step, List.mem_filter]
          refine ⟨h.alive m l hm.1 hl, ?_⟩
          have : m ≠ n := by rintro rfl; exact hm.2 ⟨rfl, hl⟩
          simpa using this
        · intro m l hm
          simp only [State.withEdges] at hm ⊢
          rw [NodeMap.mem_remove] at hm
          exact h.old m l hm.1
  | setEdgeLabel e l =>
    simp only [LPG.step, State.setEdgeLabel] at hs
    split at hs
    · cases hs; exact h.congr rfl rfl (Nat.le_refl _) rfl
    · obtain ⟨p1, p2, im, om, rfl⟩ := connect_frame hs
      exact h.congr rfl rfl (Nat.le_refl _) rfl
  | setEdgeProp n k v => obtain ⟨ixs, rfl⟩ := setEdgeProp_frame hs; exact h.congr rfl rfl (Nat.le_refl _) rfl
  | removeEdgeProp n k => obtain ⟨ixs, rfl⟩ := removeEdgeProp_frame hs; exact h.congr rfl rfl (Nat.le_refl _) rfl
  | removeEdge e => cases hs; exact h.congr rfl rfl (Nat.le_refl _) rfl
  | addNodeIndex k t => obtain ⟨ixs, rfl⟩ := addNodeIndex_frame hs; exact h.congr rfl rfl (Nat.le_refl _) rfl
  | addEdgeIndex k t => obtain ⟨ixs, rfl⟩ := addEdgeIndex_frame hs; exact h.congr rfl rfl (Nat.le_refl _) rfl

theorem LblRep.runFrom {ops : List Op} : ∀ {s s' : State} {σ : Spec}, Core s σ → LblRep s σ →
    σ.ValidFrom ops → LPG.runFrom s ops = some s' → LblRep s' (σ.runFrom ops) := by
  induction ops with
  | nil => intro s s' σ _ h _ hs; simp [LPG.runFrom] at hs; subst hs; exact h
  | cons op ops ih =>
    intro s s' σ c h hv hs
    rw [LPG.runFrom] at hs
    split at hs
    · cases hs
    · rename_i s1 h1
      exact ih (c.step hv.1 h1) (h.step c hv.1 h1) hv.2 hs

theorem LblRep.run {ops : List Op} {s : State} (hv : Spec.ValidHistory ops) (hs : run ops = some s) :
    LblRep s (Spec.run ops) := LblRep.runFrom Core.init LblRep.init hv hs

end LPG
