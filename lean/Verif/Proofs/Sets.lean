import Verif.Spec.OrderedSet
import Verif.Spec.LabelConditions
import Verif.Proofs.LabelIndex
/-!
# fastSet refines the insertion ordered map; NodeMap.Iterator
-/
namespace LPG

/-- The cells of a fast set and the insertion ordered map it represents. -/
structure FastSet.Rep {α : Type} (f : FastSet α) (s : FSet α) : Prop where
  keys : (AMap.keys s).Nodup
  mkeys : (AMap.keys f.m).Nodup
  /-- the list has one cell per entry, in the same order -/
  cells : ∃ cs : List Nat, cs.Nodup ∧ (∀ c ∈ cs, c < f.nextCell) ∧ f.l = cs.zip (s.map Prod.snd) ∧
    cs.length = s.length ∧ ∀ id c, f.m.get id = some c ↔ (id, c) ∈ (AMap.keys s).zip cs

namespace FastSet
variable {α : Type}

theorem Rep.new : Rep (FastSet.new : FastSet α) [] :=
  ⟨by simp [AMap.keys], by simp [AMap.keys, FastSet.new], [], by simp, by simp, by simp [FastSet.new], rfl, by simp [FastSet.new, AMap.keys]⟩

theorem mem_zip_keys {s : FSet α} {cs : List Nat} (hl : cs.length = s.length) {id : Nat} :
    (∃ c, (id, c) ∈ (AMap.keys s).zip cs) ↔ id ∈ AMap.keys s := by
  constructor
  · rintro ⟨c, h⟩; exact (List.of_mem_zip h).1
  · intro h
    obtain ⟨i, hi, rfl⟩ := List.mem_iff_getElem.1 h
    have hk : (AMap.keys s).length = s.length := by simp [AMap.keys]
    have hi' : i < cs.length := by omega
    refine ⟨cs[i], List.mem_iff_getElem.2 ⟨i, by simp; omega, ?_⟩⟩
    simp

theorem Rep.has {f : FastSet α} {s : FSet α} (h : Rep f s) (id : Nat) : f.has id = (AMap.get s id).isSome := by
  obtain ⟨cs, _, _, _, h4, h5⟩ := h.cells
  have h1 : f.has id = true ↔ id ∈ AMap.keys s := by
    unfold FastSet.has
    rw [Option.isSome_iff_exists, ← mem_zip_keys h4]
    exact exists_congr (fun c => h5 id c)
  have h2 : (AMap.get s id).isSome = true ↔ id ∈ AMap.keys s := by
    rw [Option.isSome_iff_exists, AMap.mem_keys]
  rw [Bool.eq_iff_iff, h1, h2]

theorem zip_get : ∀ {s : FSet α} {cs : List Nat} {id c : Nat}, (AMap.keys s).Nodup → cs.Nodup →
    (id, c) ∈ (AMap.keys s).zip cs → AMap.get (cs.zip (s.map Prod.snd)) c = AMap.get s id
  | [], _, _, _, _, _, h => by simp [AMap.keys] at h
  | _ :: _, [], _, _, _, _, h => by simp at h
  | (k, v) :: s, d :: cs, id, c, hk, hc, h => by
    have hk' : k ∉ AMap.keys s ∧ (AMap.keys s).Nodup := by simpa [AMap.keys] using hk
    have hc' := List.nodup_cons.1 hc
    have h' : (id, c) = (k, d) ∨ (id, c) ∈ (AMap.keys s).zip cs := by simpa [AMap.keys] using h
    rcases h' with h' | h'
    · cases h'
      simp [AMap.get]
    · have m1 := (List.of_mem_zip h').1
      have m2 := (List.of_mem_zip h').2
      have e1 : d ≠ c := fun e => hc'.1 (e ▸ m2)
      have e2 : k ≠ id := fun e => hk'.1 (e ▸ m1)
      rw [List.map_cons, List.zip_cons_cons]
      simp only [AMap.get, if_neg e1, if_neg e2]
      exact zip_get hk'.2 hc'.2 h'

theorem Rep.get {f : FastSet α} {s : FSet α} (h : Rep f s) (id : Nat) : f.get id = AMap.get s id := by
  have hh := h.has id
  obtain ⟨cs, h1, _, h3, h4, h5⟩ := h.cells
  unfold FastSet.has at hh
  unfold FastSet.get
  cases hg : f.m.get id with
  | none =>
    rw [hg] at hh
    cases hs : AMap.get s id with
    | none => rfl
    | some x => rw [hs] at hh; cases hh
  | some c =>
    dsimp only
    rw [h3]
    exact zip_get h.keys h1 ((h5 id c).1 hg)

theorem Rep.size {f : FastSet α} {s : FSet α} (h : Rep f s) : f.size = s.length := by
  obtain ⟨cs, _, _, _, h4, h5⟩ := h.cells
  have : (AMap.keys f.m).Perm (AMap.keys s) := by
    rw [List.perm_ext_iff_of_nodup h.mkeys h.keys]
    intro id
    rw [AMap.mem_keys, ← mem_zip_keys h4]
    exact exists_congr (fun c => h5 id c)
  have := this.length_eq
  simpa [AMap.keys, FastSet.size] using this

theorem Rep.items {f : FastSet α} {s : FSet α} (h : Rep f s) : f.items = s.map Prod.snd := by
  obtain ⟨cs, _, _, h3, h4, _⟩ := h.cells
  unfold FastSet.items
  rw [h3, List.map_snd_zip]
  simp [h4]

theorem zip_filter_ne : ∀ (s : FSet α) (cs : List Nat) (id c : Nat), cs.length = s.length → cs.Nodup →
    (AMap.keys s).Nodup → (id, c) ∈ (AMap.keys s).zip cs →
    ∃ cs', cs'.Sublist cs ∧ cs'.length = (AMap.del s id).length ∧
      (cs.zip (s.map Prod.snd)).filter (fun x => x.1 ≠ c) = cs'.zip ((AMap.del s id).map Prod.snd) ∧
      ∀ x y, (x, y) ∈ (AMap.keys (AMap.del s id)).zip cs' ↔ (x ≠ id ∧ (x, y) ∈ (AMap.keys s).zip cs)
  | [], cs, id, c, _, _, _, h => by simp [AMap.keys] at h
  | (k, v) :: s, [], id, c, h, _, _, _ => by simp at h
  | (k, v) :: s, d :: cs, id, c, hl, hn, hk, hm => by
    simp only [List.length_cons, Nat.add_right_cancel_iff] at hl
    have hk' : (k :: AMap.keys s).Nodup := hk
    rw [List.nodup_cons] at hn hk'
    have hm' : (id, c) ∈ (k :: AMap.keys s).zip (d :: cs) := hm
    rw [List.zip_cons_cons, List.mem_cons] at hm'
    have kk : ∀ (s : FSet α), AMap.keys ((k, v) :: s) = k :: AMap.keys s := fun _ => rfl
    rcases hm' with hm' | hm'
    · obtain ⟨rfl, rfl⟩ := Prod.mk.inj hm'
      have hdel : AMap.del ((id, v) :: s) id = s := by
        simp only [AMap.del, if_true]
        exact AMap.del_of_not_mem (AMap.not_mem_keys.1 hk'.1)
      rw [hdel]
      refine ⟨cs, List.sublist_cons_self _ _, hl, ?_, ?_⟩
      · simp only [List.map_cons, List.zip_cons_cons, List.filter_cons, ne_eq, not_true_eq_false, decide_false, Bool.false_eq_true,
          if_false]
        rw [List.filter_eq_self]
        rintro ⟨a, b⟩ hab
        have := (List.of_mem_zip hab).1
        simp only [decide_eq_true_eq]
        rintro rfl; exact hn.1 this
      · intro x y
        rw [kk, List.zip_cons_cons, List.mem_cons]
        constructor
        · intro h
          refine ⟨?_, Or.inr h⟩
          rintro rfl; exact hk'.1 (List.of_mem_zip h).1
        · rintro ⟨h1, h2 | h2⟩
          · exact absurd (Prod.mk.inj h2).1 h1
          · exact h2
    · have hne : k ≠ id := by rintro rfl; exact hk'.1 (List.of_mem_zip hm').1
      have hdc : d ≠ c := by rintro rfl; exact hn.1 (List.of_mem_zip hm').2
      obtain ⟨cs', h1, h2, h3, h4⟩ := zip_filter_ne s cs id c hl hn.2 hk'.2 hm'
      have hdel : AMap.del ((k, v) :: s) id = (k, v) :: AMap.del s id := by simp [AMap.del, hne]
      rw [hdel]
      refine ⟨d :: cs', h1.cons_cons d, by simp [h2], ?_, ?_⟩
      · simp only [List.map_cons, List.zip_cons_cons, List.filter_cons]
        rw [h3]; simp [hdc]
      · intro x y
        rw [kk, kk, List.zip_cons_cons, List.zip_cons_cons, List.mem_cons, List.mem_cons, h4]
        constructor
        · rintro (h | ⟨h, h'⟩)
          · obtain ⟨rfl, rfl⟩ := Prod.mk.inj h
            exact ⟨hne, Or.inl h⟩
          · exact ⟨h, Or.inr h'⟩
        · rintro ⟨h, h' | h'⟩
          · exact Or.inl h'
          · exact Or.inr ⟨h, h'⟩

theorem Rep.add {f : FastSet α} {s : FSet α} (h : Rep f s) (id : Nat) (a : α) :
    Rep (f.add id a).1 (FSet.add s id a) ∧ (f.add id a).2 = (AMap.get s id).isNone := by
  obtain ⟨cs, h1, h2, h3, h4, h5⟩ := h.cells
  have hh := h.has id
  unfold FastSet.has at hh
  unfold FastSet.add FSet.add
  cases hg : f.m.get id with
  | some c =>
    rw [hg] at hh
    cases hs : AMap.get s id with
    | none => rw [hs] at hh; cases hh
    | some v => exact ⟨h, rfl⟩
  | none =>
    rw [hg] at hh
    cases hs : AMap.get s id with
    | some v => rw [hs] at hh; cases hh
    | none =>
      refine ⟨⟨?_, ?_, cs ++ [f.nextCell], ?_, ?_, ?_, ?_, ?_⟩, rfl⟩
      · have := FSet.nodup_add h.keys id a
        simpa [FSet.add, hs] using this
      · exact AMap.nodup_set h.mkeys _ _
      · rw [List.nodup_append]
        refine ⟨h1, by simp, ?_⟩
        intro x hx y hy; simp at hy; subst hy
        exact Nat.ne_of_lt (h2 x hx)
      · intro c hc
        simp only [List.mem_append, List.mem_singleton] at hc ⊢
        rcases hc with hc | hc
        · exact Nat.lt_succ_of_lt (h2 c hc)
        · omega
      · simp only [List.map_append, List.map_cons, List.map_nil]
        rw [List.zip_append (by simp [h4]), h3]; rfl
      · simp [h4]
      · intro i c
        have hkeys : AMap.keys (s ++ [(id, a)]) = AMap.keys s ++ [id] := by simp [AMap.keys]
        rw [hkeys, List.zip_append (by simp [h4, AMap.keys]), List.mem_append]
        simp only [List.zip_cons_cons, List.zip_nil_left, List.mem_singleton, Prod.mk.injEq]
        rw [AMap.get_set]
        by_cases hi : i = id
        · subst hi
          rw [if_pos rfl]
          constructor
          · intro hc; exact Or.inr ⟨rfl, (Option.some.inj hc).symm⟩
          · rintro (hc | ⟨_, hc⟩)
            · rw [← h5, hg] at hc; cases hc
            · rw [hc]
        · rw [if_neg hi, h5]; simp [hi]

theorem Rep.remove {f : FastSet α} {s : FSet α} (h : Rep f s) (id : Nat) :
    Rep (f.remove id).1 (FSet.remove s id) ∧ (f.remove id).2 = (AMap.get s id).isSome := by
  obtain ⟨cs, h1, h2, h3, h4, h5⟩ := h.cells
  have hh := h.has id
  unfold FastSet.has at hh
  unfold FastSet.remove FSet.remove
  cases hg : f.m.get id with
  | none =>
    rw [hg] at hh
    have hn : AMap.get s id = none := by
      cases hs : AMap.get s id with
      | none => rfl
      | some v => rw [hs] at hh; cases hh
    rw [AMap.del_of_not_mem hn]
    exact ⟨h, by rw [hn]; rfl⟩
  | some c =>
    rw [hg] at hh
    obtain ⟨cs', g1, g2, g3, g4⟩ := zip_filter_ne s cs id c h4 h1 h.keys ((h5 id c).1 hg)
    refine ⟨⟨AMap.nodup_del h.keys _, AMap.nodup_del h.mkeys _, cs', g1.nodup h1, fun x hx => h2 x (g1.subset hx), ?_, g2, ?_⟩, hh⟩
    · show f.l.filter _ = _
      rw [h3, g3]
    · intro i y
      show AMap.get (f.m.del id) i = some y ↔ _
      rw [AMap.get_del, g4]
      by_cases hi : i = id
      · simp [hi]
      · simp [hi, h5]

end FastSet

/-! ## NodeMap.Iterator -/

theorem seenOnce_iff (labels : List String) : ∀ (seen : List String) (n : Nat), n ≤ 1 →
    (seenOnce labels seen n = true ↔ n + (seen.filter (fun l => labels.contains l)).length ≤ 1)
  | [], n, h => by simp [seenOnce]; omega
  | l :: seen, n, h => by
    unfold seenOnce
    rw [List.filter_cons]
    cases hl : labels.contains l with
    | false => simp only [Bool.false_eq_true, if_false]; exact seenOnce_iff labels seen n h
    | true =>
      simp only [if_true, List.length_cons]
      split
      · simp; omega
      · rw [seenOnce_iff labels seen (n + 1) (by omega)]; omega

theorem NodeMap.iterLabels_spec (labelsOf : Nat → List String) (P : Nat → Prop) :
    ∀ (m : AMap String (FSet Nat)) (seen : List String), (AMap.keys m).Nodup →
    (∀ l s, (l, s) ∈ m → s ≠ [] ∧ FSet.Ok s ∧ ∀ n, n ∈ AMap.keys s ↔ P n ∧ l ∈ labelsOf n) →
    ∃ xs, NodeMap.iterLabels labelsOf m seen = some xs ∧ xs.Nodup ∧
      ∀ n, n ∈ xs ↔ P n ∧ (∃ l ∈ AMap.keys m, l ∈ labelsOf n) ∧ ∀ l ∈ seen, l ∉ labelsOf n
  | [], seen, _, _ => ⟨[], rfl, by simp, by simp [AMap.keys]⟩
  | (l, s) :: m, seen, hk, hm => by
    obtain ⟨hne, hok, hmem⟩ := hm l s (by simp)
    have hk' : (l :: AMap.keys m).Nodup := hk
    rw [List.nodup_cons] at hk'
    obtain ⟨ys, h1, h2, h3⟩ := NodeMap.iterLabels_spec labelsOf P m (seen ++ [l]) hk'.2
      (fun l' s' h => hm l' s' (List.mem_cons_of_mem _ h))
    have hlen : s.length ≠ 0 := by simpa using hne
    have hhead : ∀ n, n ∈ s.items.filter (fun n => seenOnce (labelsOf n) (seen ++ [l]) 0) ↔
        P n ∧ l ∈ labelsOf n ∧ ∀ l' ∈ seen, l' ∉ labelsOf n := by
      intro n
      rw [List.mem_filter, hok.items, hmem, seenOnce_iff _ _ _ (by omega)]
      simp only [List.filter_append, List.length_append, Nat.zero_add, List.filter_cons, List.filter_nil]
      constructor
      · rintro ⟨⟨hp, hl⟩, hc⟩
        refine ⟨hp, hl, ?_⟩
        have hl2 : (labelsOf n).contains l = true := by simpa using hl
        rw [hl2] at hc
        simp at hc
        intro l' hl'; exact hc l' hl'
      · rintro ⟨hp, hl, hs⟩
        refine ⟨⟨hp, hl⟩, ?_⟩
        have : seen.filter (fun l => (labelsOf n).contains l) = [] := by
          rw [List.filter_eq_nil_iff]; intro a ha; simpa using hs a ha
        rw [this]; split <;> simp
    refine ⟨s.items.filter (fun n => seenOnce (labelsOf n) (seen ++ [l]) 0) ++ ys, by simp only [NodeMap.iterLabels, hlen, if_false, h1], ?_, ?_⟩
    · rw [List.nodup_append]
      refine ⟨List.Nodup.sublist List.filter_sublist (by rw [hok.items]; exact hok.nodup), h2, ?_⟩
      rintro a ha b hb rfl
      rw [hhead] at ha
      rw [h3] at hb
      exact hb.2.2 l (by simp) ha.2.1
    · intro n
      rw [List.mem_append, hhead, h3]
      have kk : AMap.keys ((l, s) :: m) = l :: AMap.keys m := rfl
      rw [kk]
      simp only [List.mem_append, List.mem_singleton, List.mem_cons]
      constructor
      · rintro (⟨a, b, c⟩ | ⟨a, ⟨l', b, b'⟩, c⟩)
        · exact ⟨a, ⟨l, Or.inl rfl, b⟩, c⟩
        · exact ⟨a, ⟨l', Or.inr b, b'⟩, fun x hx => c x (Or.inl hx)⟩
      · rintro ⟨a, ⟨l', b, b'⟩, c⟩
        by_cases hl : l ∈ labelsOf n
        · exact Or.inl ⟨a, hl, c⟩
        · refine Or.inr ⟨a, ⟨l', ?_, b'⟩, ?_⟩
          · rcases b with rfl | b
            · exact absurd b' hl
            · exact b
          · intro x hx
            rcases hx with hx | hx
            · exact c x hx
            · simp at hx; rw [hx]; exact hl

namespace NodeMap

theorem foldl_addTo_nolabels (n : Nat) : ∀ (ls : List String) (nm : NodeMap),
    (ls.foldl (fun nm l => nm.addTo n l) nm).nolabels = nm.nolabels
  | [], nm => rfl
  | l :: ls, nm => by
    rw [List.foldl_cons, foldl_addTo_nolabels n ls]
    obtain ⟨s, h, _⟩ := addTo_eq nm n l
    rw [h]

theorem foldl_removeFrom_nolabels (n : Nat) : ∀ (ls : List String) (nm : NodeMap),
    (ls.foldl (fun nm l => nm.removeFrom n l) nm).nolabels = nm.nolabels
  | [], nm => rfl
  | l :: ls, nm => by
    rw [List.foldl_cons, foldl_removeFrom_nolabels n ls]
    unfold removeFrom
    split
    · rfl
    · simp only; split <;> rfl

theorem mem_nolabels_add (nm : NodeMap) (n : Nat) (ls : List String) (x : Nat) :
    x ∈ AMap.keys (nm.add n ls).nolabels ↔ x ∈ AMap.keys nm.nolabels ∨ (x = n ∧ ls = []) := by
  unfold NodeMap.add
  split
  · rename_i h
    rw [FSet.mem_keys_add]; simp [List.length_eq_zero_iff.1 h]
  · rename_i h
    rw [foldl_addTo_nolabels]
    have : ls ≠ [] := by simpa using h
    simp [this]

theorem mem_nolabels_remove (nm : NodeMap) (n : Nat) (ls : List String) (x : Nat) :
    x ∈ AMap.keys (nm.remove n ls).nolabels ↔ x ∈ AMap.keys nm.nolabels ∧ ¬ (x = n ∧ ls = []) := by
  unfold NodeMap.remove
  split
  · rename_i h
    show x ∈ AMap.keys (AMap.del _ _) ↔ _
    rw [AMap.mem_keys_del]; simp [List.length_eq_zero_iff.1 h]
  · rename_i h
    rw [foldl_removeFrom_nolabels]
    have : ls ≠ [] := by simpa using h
    simp [this]

theorem mem_nolabels_replace (nm : NodeMap) (n : Nat) (old new : List String) (x : Nat) :
    x ∈ AMap.keys (nm.replace n old new).nolabels ↔
      (x ∈ AMap.keys nm.nolabels ∧ (new = [] ∨ ¬ (x = n ∧ old = []))) ∨ (x = n ∧ new = [] ∧ old ≠ []) := by
  unfold NodeMap.replace
  by_cases ho : old = []
  · subst ho
    by_cases hn : new = []
    · subst hn; simp
    · have hl : new.length ≠ 0 := by simpa using hn
      simp only [List.length_nil, hl, and_false, if_false, if_true]
      rw [foldl_addTo_nolabels, foldl_removeFrom_nolabels]
      show x ∈ AMap.keys (AMap.del _ _) ↔ _
      rw [AMap.mem_keys_del]; simp [hn]
  · have hl : old.length ≠ 0 := by simpa using ho
    by_cases hn : new = []
    · subst hn
      simp only [hl, false_and, if_false, List.length_nil, if_true]
      rw [FSet.mem_keys_add]; simp [ho]
    · have hl' : new.length ≠ 0 := by simpa using hn
      simp only [hl, hl', false_and, if_false]
      rw [foldl_addTo_nolabels, foldl_removeFrom_nolabels]; simp [ho, hn]

end NodeMap

/-- The label index is exact. -/
structure LblExact (s : State) (σ : Spec) : Prop where
  ok : s.byLabel.Ok
  mem : ∀ n l, n ∈ s.byLabel.members l ↔ n ∈ σ.nodes ∧ l ∈ s.nLabels n
  nolab : ∀ n, n ∈ AMap.keys s.byLabel.nolabels ↔ n ∈ σ.nodes ∧ s.nLabels n = []

theorem LblExact.init : LblExact State.new Spec.new :=
  ⟨NodeMap.Ok.empty, by simp [State.new, NodeMap.members_empty, Spec.new], by simp [State.new, NodeMap.empty, AMap.keys, Spec.new]⟩

theorem LblExact.congr {s s' : State} {σ σ' : Spec} (h : LblExact s σ) (h1 : s'.byLabel = s.byLabel)
    (h2 : s'.nLabels = s.nLabels) (h4 : σ'.nodes = σ.nodes) : LblExact s' σ' :=
  ⟨h1 ▸ h.ok, by rw [h1, h2, h4]; exact h.mem, by rw [h1, h2, h4]; exact h.nolab⟩

theorem LblExact.step {s s' : State} {σ : Spec} {op : Op} (c : Core s σ) (h : LblExact s σ) (hv : σ.Valid op)
    (hc : σ.KeepsLabels op) (hs : LPG.step s op = some s') : LblExact s' (σ.step op) := by
  cases op with
  | newNode ls ps =>
    obtain ⟨ixs, _, rfl⟩ := newNode_frame hs
    have hnx := c.next
    have hlt := c.nLt
    refine ⟨h.ok.add _ _, ?_, ?_⟩
    · intro n l
      simp only
      rw [NodeMap.mem_add, h.mem]
      simp only [Spec.step, List.mem_append, List.mem_singleton, upd_apply]
      by_cases hnn : n = s.idBase
      · subst hnn
        have : σ.next ∉ σ.nodes := fun hh => by have := hlt _ hh; omega
        simp [this, hnx]
      · have : n ≠ σ.next := by omega
        simp [hnn, this]
    · intro n
      simp only
      rw [NodeMap.mem_nolabels_add, h.nolab]
      simp only [Spec.step, List.mem_append, List.mem_singleton, upd_apply]
      by_cases hnn : n = s.idBase
      · subst hnn
        have : σ.next ∉ σ.nodes := fun hh => by have := hlt _ hh; omega
        simp [this, hnx]
      · have : n ≠ σ.next := by omega
        simp [hnn, this]
  | newEdge a b l ps =>
    obtain ⟨h1, h2, h3, h4, h5, h6, _⟩ := newEdge_frame hs
    exact h.congr h6 h4 rfl
  | setLabels n ls =>
    cases hs
    simp only [Spec.Valid] at hv
    have hcl : ls = [] → s.nLabels n = [] := by
      intro hl
      have h1 := hc hl
      have h2 := (c.labels n hv.1).2
      rw [h1] at h2
      cases hx : s.nLabels n with
      | nil => rfl
      | cons a t => rw [hx] at h2; exact absurd ((h2 a).1 (by simp)) (by simp)
    refine ⟨h.ok.replace _ _ _, ?_, ?_⟩
    · intro m l
      simp only [State.setLabels, Spec.step]
      rw [NodeMap.mem_replace, h.mem, upd_apply]
      by_cases hmn : m = n
      · subst hmn
        simp only [hv.1, if_true, true_and]
        by_cases hl : ls = []
        · subst hl; simp [hcl rfl]
        · simp only [hl, false_or]; grind
      · simp [hmn]
    · intro m
      simp only [State.setLabels, Spec.step]
      rw [NodeMap.mem_nolabels_replace, h.nolab, upd_apply]
      by_cases hmn : m = n
      · subst hmn
        simp only [hv.1, if_true, true_and]
        by_cases hl : ls = []
        · subst hl; simp [hcl rfl]
        · simp [hl]
      · simp [hmn]
  | setNodeProp n k v => obtain ⟨ixs, rfl⟩ := setNodeProp_frame hs; exact h.congr rfl rfl rfl
  | removeNodeProp n k => obtain ⟨ixs, rfl⟩ := removeNodeProp_frame hs; exact h.congr rfl rfl rfl
  | detach n =>
    obtain ⟨p0, p1, p2, im, om, ae, ix, rfl⟩ := detachNode_frame hs
    exact h.congr rfl rfl rfl
  | detachRemove n =>
    simp only [LPG.step, State.detachRemoveNode] at hs
    split at hs
    · cases hs
    · rename_i s1 h1
      obtain ⟨p0, p1, p2, im, om, ae, ix, rfl⟩ := detachNode_frame h1
      split at hs
      · cases hs
      · cases hs
        refine ⟨h.ok.remove _ _, ?_, ?_⟩
        · intro m l
          simp only [Spec.step, List.mem_filter, State.withEdges]
          rw [NodeMap.mem_remove, h.mem]
          by_cases hmn : m = n
          · subst hmn; simp
          · simp [hmn]
        · intro m
          simp only [Spec.step, List.mem_filter, State.withEdges]
          rw [NodeMap.mem_nolabels_remove, h.nolab]
          by_cases hmn : m = n
          · subst hmn; simp
          · simp [hmn]
  | setEdgeLabel e l =>
    simp only [LPG.step, State.setEdgeLabel] at hs
    split at hs
    · cases hs; exact h.congr rfl rfl rfl
    · obtain ⟨p1, p2, im, om, rfl⟩ := connect_frame hs
      exact h.congr rfl rfl rfl
  | setEdgeProp n k v => obtain ⟨ixs, rfl⟩ := setEdgeProp_frame hs; exact h.congr rfl rfl rfl
  | removeEdgeProp n k => obtain ⟨ixs, rfl⟩ := removeEdgeProp_frame hs; exact h.congr rfl rfl rfl
  | removeEdge e => cases hs; exact h.congr rfl rfl rfl
  | addNodeIndex k t => obtain ⟨ixs, rfl⟩ := addNodeIndex_frame hs; exact h.congr rfl rfl rfl
  | addEdgeIndex k t => obtain ⟨ixs, rfl⟩ := addEdgeIndex_frame hs; exact h.congr rfl rfl rfl

theorem LblExact.runFrom {ops : List Op} : ∀ {s s' : State} {σ : Spec}, Core s σ → LblExact s σ →
    σ.ValidFrom ops → σ.AlwaysFrom Spec.KeepsLabels ops → LPG.runFrom s ops = some s' → LblExact s' (σ.runFrom ops) := by
  induction ops with
  | nil => intro s s' σ _ h _ _ hs; simp [LPG.runFrom] at hs; subst hs; exact h
  | cons op ops ih =>
    intro s s' σ c h hv hc hs
    rw [LPG.runFrom] at hs
    split at hs
    · cases hs
    · rename_i s1 h1
      exact ih (c.step hv.1 h1) (h.step c hv.1 hc.1 h1) hv.2 hc.2 hs

end LPG
