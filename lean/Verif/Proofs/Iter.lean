import Verif.Spec.Iter
import Verif.Proofs.Base
/-!
# Iterators: lemmas
-/
namespace LPG
variable {σ φ α β : Type}

theorem Produces.unique {m : Machine σ α} {s : σ} {xs ys : List α} (h : Produces m s xs) : Produces m s ys → xs = ys := by
  induction h generalizing ys with
  | done h1 =>
    intro h2
    cases h2 with
    | done => rfl
    | item h2 => rw [h1] at h2; cases h2
  | item h1 h2 _ ih =>
    intro h3
    cases h3 with
    | done h3 => rw [h1] at h3; cases h3
    | item h3 h4 h5 =>
      rw [h1] at h3; cases h3
      rw [h2] at h4; cases h4
      rw [ih h5]

theorem Produces.collect_acc {m : Machine σ α} {s : σ} {xs : List α} (h : Produces m s xs) (acc : List α) :
    m.collect s acc = some (acc ++ xs) := by
  induction h generalizing acc with
  | done h1 => rw [Machine.collect, h1]; simp
  | item h1 h2 _ ih =>
    rw [Machine.collect, h1]; simp only [h2]
    rw [ih]; simp

theorem Produces.of_collect {m : Machine σ α} {s : σ} {acc r : List α} (h : m.collect s acc = some r) :
    ∃ xs, r = acc ++ xs ∧ Produces m s xs := by
  refine Machine.collect.partial_correctness m (motive := fun s acc r => ∃ xs, r = acc ++ xs ∧ Produces m s xs) ?_ s acc r h
  intro rec ih s acc r hr
  cases hn : m.next s with
  | none => rw [hn] at hr; cases hr
  | some p =>
    obtain ⟨b, s'⟩ := p
    rw [hn] at hr
    cases b with
    | false =>
      cases hr
      exact ⟨[], by simp, .done hn⟩
    | true =>
      simp only at hr
      cases hv : m.val s' with
      | none => rw [hv] at hr; cases hr
      | some x =>
        rw [hv] at hr
        obtain ⟨xs, h1, h2⟩ := ih _ _ _ hr
        exact ⟨x :: xs, by simp [h1], .item hn hv h2⟩

/-! ## filter -/

theorem filterNext_eq (m : Machine σ α) (f : φ → α → Option (Bool × φ)) (st : Machine.FilterSt σ φ α) :
    Machine.filterNext m f st =
      match m.next st.itr with
      | none => none
      | some (false, s) => some (false, { st with itr := s })
      | some (true, s) =>
        match m.val s with
        | none => none
        | some x =>
          match f st.env x with
          | none => none
          | some (true, g) => some (true, { itr := s, env := g, current := some x })
          | some (false, g) => Machine.filterNext m f { itr := s, env := g, current := none } := by
  conv => lhs; rw [Machine.filterNext]
  rfl

theorem Produces.of_next {m : Machine σ α} {s s' : σ} (h : m.next s = m.next s') {xs : List α} (hp : Produces m s' xs) :
    Produces m s xs := by
  cases hp with
  | done h1 => exact .done (h.trans h1)
  | item h1 h2 h3 => exact .item (h.trans h1) h2 h3

theorem Produces.filter {m : Machine σ α} {f : φ → α → Option (Bool × φ)} {s : σ} {xs : List α} (h : Produces m s xs) :
    ∀ {g : φ} {cur : Option α} {ys : List α}, filterAll f g xs = some ys →
      Produces (m.filter f) { itr := s, env := g, current := cur } ys := by
  induction h with
  | @done s s' h1 =>
    intro g cur ys hy
    cases hy
    refine .done (s' := { itr := s', env := g, current := cur }) ?_
    show Machine.filterNext m f _ = _
    rw [filterNext_eq]; simp only [h1]
  | @item s s' x xs h1 h2 _ ih =>
    intro g cur ys hy
    unfold filterAll at hy
    cases hf : f g x with
    | none => rw [hf] at hy; cases hy
    | some p =>
      obtain ⟨b, g'⟩ := p
      rw [hf] at hy
      simp only [Option.map_eq_some_iff] at hy
      obtain ⟨zs, hz, rfl⟩ := hy
      cases b with
      | true =>
        simp only [if_true]
        refine .item (s' := { itr := s', env := g', current := some x }) ?_ rfl (ih hz)
        show Machine.filterNext m f _ = _
        rw [filterNext_eq]; simp only [h1, h2, hf]
      | false =>
        simp only [Bool.false_eq_true, if_false]
        refine Produces.of_next (s' := { itr := s', env := g', current := none }) ?_ (ih hz)
        show Machine.filterNext m f _ = Machine.filterNext m f _
        rw [filterNext_eq]; simp only [h1, h2, hf]

theorem filterAll_pure (p : α → Bool) : ∀ (xs : List α), filterAll (Machine.pureFilter p) () xs = some (xs.filter p)
  | [] => rfl
  | x :: xs => by
    simp only [filterAll, Machine.pureFilter]
    have := filterAll_pure p xs
    rw [this]
    cases h : p x <;> simp [h]

/-- the items that are not in `seen`, at their first occurrence -/
def uniq [DecidableEq α] (seen : List α) : List α → List α
  | [] => []
  | x :: xs => if x ∈ seen then uniq seen xs else x :: uniq (x :: seen) xs

theorem filterAll_unique [DecidableEq α] : ∀ (xs seen : List α), filterAll Machine.uniqueFilter seen xs = some (uniq seen xs)
  | [], _ => rfl
  | x :: xs, seen => by
    simp only [filterAll, Machine.uniqueFilter, uniq]
    by_cases h : x ∈ seen
    · simp only [List.contains_iff_mem, h, if_true, filterAll_unique xs seen]
      simp
    · simp only [List.contains_iff_mem, h, if_false, filterAll_unique xs (x :: seen)]
      simp

theorem uniq_eq [DecidableEq α] : ∀ (xs pre seen : List α), (∀ x, x ∈ seen ↔ x ∈ pre) →
    uniq seen xs = ((xs.zipIdx pre.length).filter (fun p => decide (p.1 ∉ (pre ++ xs).take p.2))).map Prod.fst
  | [], _, _, _ => rfl
  | x :: xs, pre, seen, h => by
    simp only [uniq, List.zipIdx_cons]
    have e : pre ++ x :: xs = (pre ++ [x]) ++ xs := by simp
    by_cases hx : x ∈ seen
    · rw [if_pos hx, uniq_eq xs (pre ++ [x]) seen (fun y => by
        rw [h y]; simp only [List.mem_append, List.mem_singleton]
        exact ⟨Or.inl, fun hh => hh.elim id (fun e => by rw [e]; exact (h x).1 hx)⟩)]
      rw [List.filter_cons_of_neg (by simpa using (h x).1 hx), e]
      simp only [List.length_append, List.length_singleton]
    · rw [if_neg hx, uniq_eq xs (pre ++ [x]) (x :: seen) (fun y => by
        simp only [List.mem_append, List.mem_singleton, List.mem_cons, h y, List.not_mem_nil, or_false]; exact Or.comm)]
      rw [List.filter_cons_of_pos (by simpa using fun hh => hx ((h x).2 hh)), e]
      simp only [List.length_append, List.length_singleton, List.map_cons]

theorem uniq_firstOccs [DecidableEq α] (xs : List α) : uniq [] xs = firstOccs xs := by
  rw [uniq_eq xs [] [] (fun _ => Iff.rfl)]; rfl

theorem firstOccs_spec [DecidableEq α] (xs : List α) :
    (firstOccs xs).Nodup ∧ (firstOccs xs).Sublist xs ∧ ∀ x, x ∈ firstOccs xs ↔ x ∈ xs := by
  rw [← uniq_firstOccs]
  have key : ∀ (xs seen : List α), (uniq seen xs).Nodup ∧ (uniq seen xs).Sublist xs ∧
      ∀ x, x ∈ uniq seen xs ↔ x ∈ xs ∧ x ∉ seen := by
    intro xs
    induction xs with
    | nil => intro seen; simp [uniq]
    | cons y ys ih =>
      intro seen
      simp only [uniq]
      by_cases hy : y ∈ seen
      · obtain ⟨h1, h2, h3⟩ := ih seen
        rw [if_pos hy]
        refine ⟨h1, h2.cons _, ?_⟩
        intro x; rw [h3, List.mem_cons]
        grind
      · obtain ⟨h1, h2, h3⟩ := ih (y :: seen)
        rw [if_neg hy]
        refine ⟨List.nodup_cons.2 ⟨?_, h1⟩, h2.cons₂ _, ?_⟩
        · rw [h3]; simp
        · intro x; rw [List.mem_cons, h3, List.mem_cons, List.mem_cons]
          grind
  obtain ⟨h1, h2, h3⟩ := key xs []
  exact ⟨h1, h2, fun x => by rw [h3]; simp⟩

/-! ## func -/

/-- The iterators returned by `gen` from `g` on yield together the items. -/
inductive GenProduces (m : Machine σ α) (gen : φ → Option (Option σ × φ)) : φ → List α → Prop
  | done {g g' : φ} : gen g = some (none, g') → GenProduces m gen g []
  | more {g g' : φ} {s : σ} {xs ys : List α} : gen g = some (some s, g') → Produces m s xs → GenProduces m gen g' ys →
      GenProduces m gen g (xs ++ ys)

theorem funcNext_eq (m : Machine σ α) (gen : φ → Option (Option σ × φ)) (st : Option σ × φ) :
    Machine.funcNext m gen st =
      match st.1 with
      | some s =>
        match m.next s with
        | none => none
        | some (true, s) => some (true, some s, st.2)
        | some (false, _) =>
          match gen st.2 with
          | none => none
          | some (none, g) => some (false, none, g)
          | some (some s, g) => Machine.funcNext m gen (some s, g)
      | none =>
        match gen st.2 with
        | none => none
        | some (none, g) => some (false, none, g)
        | some (some s, g) => Machine.funcNext m gen (some s, g) := by
  conv => lhs; rw [Machine.funcNext]
  rfl

theorem Produces.func_aux {m : Machine σ α} {gen : φ → Option (Option σ × φ)} {g : φ} {ys : List α}
    (hg : ∀ cur : Option σ, (cur = none ∨ ∃ s s', cur = some s ∧ m.next s = some (false, s')) →
      Produces (m.func gen) (cur, g) ys) {s : σ} {xs : List α} (h : Produces m s xs) :
    Produces (m.func gen) (some s, g) (xs ++ ys) := by
  induction h with
  | @done s s' h1 => exact hg (some s) (Or.inr ⟨s, s', rfl, h1⟩)
  | @item s s' x xs h1 h2 _ ih =>
    refine .item (s' := (some s', g)) ?_ ?_ ih
    · show Machine.funcNext m gen _ = _
      rw [funcNext_eq]; simp only [h1]
    · exact h2

theorem GenProduces.func {m : Machine σ α} {gen : φ → Option (Option σ × φ)} {g : φ} {ys : List α}
    (h : GenProduces m gen g ys) : ∀ cur : Option σ, (cur = none ∨ ∃ s s', cur = some s ∧ m.next s = some (false, s')) →
      Produces (m.func gen) (cur, g) ys := by
  induction h with
  | @done g g' h1 =>
    intro cur hc
    refine .done (s' := (none, g')) ?_
    show Machine.funcNext m gen _ = _
    rcases hc with rfl | ⟨s, s', rfl, hs⟩
    · rw [funcNext_eq]; simp only [h1]
    · rw [funcNext_eq]; simp only [hs, h1]
  | @more g g' s xs ys h1 h2 _ ih =>
    intro cur hc
    refine Produces.of_next (s' := (some s, g')) ?_ (Produces.func_aux ih h2)
    show Machine.funcNext m gen _ = Machine.funcNext m gen _
    rcases hc with rfl | ⟨t, t', rfl, ht⟩
    · rw [funcNext_eq]; simp only [h1]
    · rw [funcNext_eq]; simp only [ht, h1]

/-! ## MultiIterator -/

theorem Itr.sum_produces {its : List (Itr α)} {i : Fin its.length} {s : (its.get i).σ} {xs : List α}
    (h : Produces (its.get i).m s xs) : Produces (Itr.sum its) ⟨i, s⟩ xs := by
  induction h with
  | @done s s' h1 => exact .done (s' := ⟨i, s'⟩) (by show ((its.get i).m.next s).map _ = _; rw [h1]; rfl)
  | @item s s' x xs h1 h2 _ ih =>
    refine .item (s' := ⟨i, s'⟩) (by show ((its.get i).m.next s).map _ = _; rw [h1]; rfl) ?_ ih
    exact h2

theorem Itr.multi_yields {its : List (Itr α)} {xss : List (List α)} (hl : its.length = xss.length)
    (h : ∀ (i : Nat) (h1 : i < its.length) (h2 : i < xss.length), (its[i]).Yields (xss[i])) :
    (Itr.multi its).Yields xss.flatten := by
  refine GenProduces.func (m := Itr.sum its) (gen := Itr.pop) ?_ none (Or.inl rfl)
  have hi : ∀ i : Fin its.length, (its.get i).Yields (xss[i.1]'(hl ▸ i.2)) := by
    intro i
    exact h i.1 i.2 (hl ▸ i.2)
  have key : ∀ (l : List (Fin its.length)), GenProduces (Itr.sum its) Itr.pop
      (l.map (fun i => (⟨i, (its.get i).s⟩ : Σ i : Fin its.length, (its.get i).σ)))
      (l.map (fun i => xss[i.1]'(hl ▸ i.2))).flatten := by
    intro l
    induction l with
    | nil => exact .done rfl
    | cons i l ih => exact .more rfl (Itr.sum_produces (hi i)) ih
  have e : (List.finRange its.length).map (fun i => xss[i.1]'(hl ▸ i.2)) = xss := by
    apply List.ext_getElem
    · simp [hl]
    · intro i h1 h2; simp
  have := key (List.finRange its.length)
  rw [e] at this
  exact this

/-! ## list, proc, withSize, empty, single, chains -/

theorem Produces.withSize {m : Machine σ α} {s : σ} {xs : List α} (h : Produces m s xs) (n : Int) :
    Produces (m.withSize n) s xs := by
  induction h with
  | done h1 => exact .done h1
  | item h1 h2 _ ih => exact .item h1 h2 ih

theorem Produces.list (n : Int) : ∀ (xs : List α) (c : Option α), Produces (Machine.list n) (xs, c) xs
  | [], _ => .done (s' := ([], none)) rfl
  | x :: xs, _ => .item (s' := (xs, some x)) rfl rfl (Produces.list n xs _)

theorem Produces.proc {m : Machine σ α} {f : α → Option β} {s : σ} {xs : List α} (h : Produces m s xs) :
    ∀ {ys : List β}, xs.map f = ys.map some → Produces (m.proc f) s ys := by
  induction h with
  | done h1 =>
    intro ys hy
    cases ys with
    | nil => exact .done h1
    | cons => cases hy
  | @item s s' x xs h1 h2 _ ih =>
    intro ys hy
    cases ys with
    | nil => cases hy
    | cons y ys =>
      simp only [List.map_cons, List.cons.injEq] at hy
      exact .item h1 (by simp [Machine.proc, h2, hy.1]) (ih hy.2)

theorem Itr.list_yields (xs : List α) (n : Int) : (Itr.list xs n).Yields xs := Produces.list n xs none

theorem Itr.empty_yields : (Itr.empty : Itr α).Yields [] := .done (s' := ()) rfl

theorem Itr.Yields.withSize {i : Itr α} {xs : List α} (h : i.Yields xs) (n : Int) : (i.withSize n).Yields xs :=
  Produces.withSize h n

theorem Itr.Yields.filter {i : Itr α} {xs : List α} (h : i.Yields xs) (p : α → Bool) : (i.filter p).Yields (xs.filter p) :=
  Produces.filter h (filterAll_pure p xs)

theorem Itr.Yields.unique [DecidableEq α] {i : Itr α} {xs : List α} (h : i.Yields xs) : i.unique.Yields (firstOccs xs) :=
  Produces.filter h (by rw [filterAll_unique, uniq_firstOccs])

theorem Itr.single_yields (e : Nat) : (Itr.single (some e)).Yields [e] :=
  .item (s' := true) rfl rfl (.done (s' := true) rfl)

theorem chain_produces {link : Nat → Option Nat} {head : Option Nat} {n : Int} : ∀ {fuel : Nat} {cur next : Option Nat}
    {xs : List Nat}, walk link fuel next = some xs → Produces (Itr.chain link head n).m (cur, next) xs
  | fuel, cur, none, xs, h => by
    have : xs = [] := by cases fuel <;> exact (Option.some.inj h).symm
    subst this
    exact .done (s' := (none, none)) rfl
  | 0, cur, some x, xs, h => by cases h
  | fuel + 1, cur, some x, xs, h => by
    unfold walk at h
    cases hw : walk link fuel (link x) with
    | none => rw [hw] at h; cases h
    | some ys =>
      rw [hw] at h; cases h
      exact .item (s' := (some x, link x)) rfl rfl (chain_produces hw)

theorem Itr.chain_yields {link : Nat → Option Nat} {head : Option Nat} {n : Int} {fuel : Nat} {xs : List Nat}
    (h : walk link fuel head = some xs) : (Itr.chain link head n).Yields xs := chain_produces h

/-! ## edge maps -/

theorem allEdges_produces {link : Nat → Option Nat} {s0 : AllEdgesSt} {n : Int} {fuel : Nat} :
    ∀ {rest : List EList} {k : Nat} {next cur : Option Nat} {xs ys : List Nat},
      walk link k next = some xs → concatOpt (rest.map (fun l => walk link fuel l.head)) = some ys →
      Produces (allEdgesItr link s0 n).m { rest := rest, next := next, current := cur } (xs ++ ys) := by
  intro rest
  induction rest with
  | nil =>
    intro k
    induction k with
    | zero =>
      intro next cur xs ys h1 h2
      cases next with
      | none =>
        cases h1; cases h2
        exact .done (s' := { rest := [], next := none, current := none }) rfl
      | some x => cases h1
    | succ k ih =>
      intro next cur xs ys h1 h2
      cases next with
      | none =>
        cases h1; cases h2
        exact .done (s' := { rest := [], next := none, current := none }) rfl
      | some x =>
        unfold walk at h1
        cases hw : walk link k (link x) with
        | none => rw [hw] at h1; cases h1
        | some zs =>
          rw [hw] at h1; cases h1
          exact .item (s' := { rest := [], next := link x, current := some x }) rfl rfl (ih hw h2)
  | cons l rest ihr =>
    have hnone : ∀ {cur : Option Nat} {ys : List Nat}, concatOpt ((l :: rest).map (fun l => walk link fuel l.head)) = some ys →
        Produces (allEdgesItr link s0 n).m { rest := l :: rest, next := none, current := cur } ys := by
      intro cur ys h2
      simp only [List.map_cons] at h2
      cases hw : walk link fuel l.head with
      | none => rw [hw] at h2; cases h2
      | some zs =>
        rw [hw] at h2
        simp only [concatOpt] at h2
        cases hc : concatOpt (rest.map (fun l => walk link fuel l.head)) with
        | none => rw [hc] at h2; cases h2
        | some ws =>
          rw [hc] at h2; cases h2
          exact Produces.of_next (m := (allEdgesItr link s0 n).m) (s := (⟨l :: rest, none, cur⟩ : AllEdgesSt))
            (s' := (⟨rest, l.head, none⟩ : AllEdgesSt)) rfl (ihr hw hc)
    intro k
    induction k with
    | zero =>
      intro next cur xs ys h1 h2
      cases next with
      | none => cases h1; exact hnone h2
      | some x => cases h1
    | succ k ih =>
      intro next cur xs ys h1 h2
      cases next with
      | none => cases h1; exact hnone h2
      | some x =>
        unfold walk at h1
        cases hw : walk link k (link x) with
        | none => rw [hw] at h1; cases h1
        | some zs =>
          rw [hw] at h1; cases h1
          exact .item (s' := { rest := l :: rest, next := link x, current := some x }) rfl rfl (ih hw h2)

theorem EdgeMap.iter_yields {P : Slot} {em : EdgeMap} {fuel : Nat} {xs : List Nat} (h : em.enum P fuel = some xs) :
    (em.iter P).Yields xs := by
  unfold EdgeMap.enum at h
  unfold EdgeMap.iter
  split
  · rename_i h0; rw [if_pos h0] at h; cases h; exact Itr.empty_yields
  · rename_i h0; rw [if_neg h0] at h
    split
    · rename_i h1; rw [if_pos h1] at h
      cases ho : em.only with
      | none => rw [ho] at h; cases h
      | some e => rw [ho] at h; cases h; exact Itr.single_yields e
    · rename_i h1; rw [if_neg h1] at h
      have hm : em.lists.map (fun p => walk (fun x => (P x).next) fuel p.2.head) =
          (em.lists.map Prod.snd).map (fun l => walk (fun x => (P x).next) fuel l.head) := by
        rw [List.map_map]; rfl
      rw [hm] at h
      split
      · rename_i hl; rw [hl] at h; cases h
        exact allEdges_produces (fuel := fuel) (k := 0) (xs := []) rfl rfl
      · rename_i l ls hl
        rw [hl] at h
        simp only [List.map_cons] at h
        cases hw : walk (fun x => (P x).next) fuel l.head with
        | none => rw [hw] at h; cases h
        | some zs =>
          rw [hw] at h
          simp only [concatOpt] at h
          cases hc : concatOpt (ls.map (fun l => walk (fun x => (P x).next) fuel l.head)) with
          | none => rw [hc] at h; cases h
          | some ws =>
            rw [hc] at h; cases h
            exact allEdges_produces hw hc

theorem EdgeMap.iterLabel_yields {P : Slot} {f : Nat → String} {em : EdgeMap} {l : String} {fuel : Nat} {xs : List Nat}
    (h : em.enumLabel P f fuel l = some xs) : ∃ i, em.iterLabel P f l = some i ∧ i.Yields xs := by
  unfold EdgeMap.enumLabel at h
  unfold EdgeMap.iterLabel
  have hby : ∀ {ys : List Nat}, (match em.lists.get l with
      | none => some []
      | some el => walk (fun x => (P x).next) fuel el.head) = some ys →
      Itr.Yields (match em.lists.get l with
        | none => .empty
        | some el => .chain (fun x => (P x).next) el.head el.n : Itr Nat) ys := by
    intro ys hy
    cases hg : em.lists.get l with
    | none => rw [hg] at hy; cases hy; exact Itr.empty_yields
    | some el => rw [hg] at hy; exact Itr.chain_yields hy
  simp only at h ⊢
  by_cases h0 : em.n = 0
  · rw [if_pos h0] at h ⊢; cases h; exact ⟨_, rfl, Itr.empty_yields⟩
  · rw [if_neg h0] at h ⊢
    by_cases h1 : em.n = 1
    · rw [if_pos h1] at h ⊢
      cases ho : em.only with
      | none => rw [ho] at h; cases h
      | some o =>
        rw [ho] at h
        simp only at h ⊢
        by_cases hl : l = f o
        · rw [if_pos hl] at h ⊢; cases h; exact ⟨_, rfl, Itr.single_yields o⟩
        · rw [if_neg hl] at h ⊢; exact ⟨_, rfl, hby h⟩
    · rw [if_neg h1] at h ⊢; exact ⟨_, rfl, hby h⟩

theorem EdgeMap.iterAny_yields {P : Slot} {f : Nat → String} {em : EdgeMap} {ls : List String} {fuel : Nat} {xs : List Nat}
    (h : em.enumAny P f fuel ls = some xs) : ∃ i, em.iterAny P f ls = some i ∧ i.Yields xs := by
  unfold EdgeMap.enumAny at h
  unfold EdgeMap.iterAny
  by_cases h0 : em.n = 0
  · rw [if_pos h0] at h ⊢; cases h; exact ⟨_, rfl, Itr.empty_yields⟩
  · rw [if_neg h0] at h ⊢
    by_cases h1 : em.n = 1
    · rw [if_pos h1] at h ⊢
      cases ho : em.only with
      | none => rw [ho] at h; cases h
      | some o =>
        rw [ho] at h
        simp only at h ⊢
        split at h <;> rename_i hl
        · rw [if_pos hl]; cases h; exact ⟨_, rfl, Itr.single_yields o⟩
        · rw [if_neg hl]; cases h; exact ⟨_, rfl, Itr.empty_yields⟩
    · rw [if_neg h1] at h ⊢
      refine ⟨_, rfl, ?_⟩
      refine GenProduces.func (gen := EdgeMap.anyGen em) ?_ none (Or.inl rfl)
      induction ls generalizing xs with
      | nil => cases h; exact .done rfl
      | cons l ls ih =>
        cases hg : em.lists.get l with
        | none =>
          rw [List.filter_cons_of_neg (by simp [hg])] at h
          have := ih h
          cases this with
          | done hd => exact .done (by rw [EdgeMap.anyGen, hg]; exact hd)
          | more hd h2 h3 => exact .more (by rw [EdgeMap.anyGen, hg]; exact hd) h2 h3
        | some el =>
          rw [List.filter_cons_of_pos (by simp [hg])] at h
          simp only [List.map_cons] at h
          have he : em.enumLabel P f fuel l = walk (fun x => (P x).next) fuel el.head := by
            unfold EdgeMap.enumLabel; simp only [hg, if_neg h0, if_neg h1]
          rw [he] at h
          cases hw : walk (fun x => (P x).next) fuel el.head with
          | none => rw [hw] at h; cases h
          | some zs =>
            rw [hw] at h
            simp only [concatOpt] at h
            split at h
            · cases h
            · rename_i ws hc
              cases h
              exact .more (by rw [EdgeMap.anyGen, hg]) (chain_produces hw) (ih hc)

end LPG
