import Verif.Spec.Show
import Verif.Proofs.Core
/-!
# The texts of nodes, edges and paths
-/
namespace LPG
namespace Show

theorem join_space (ts : List Text) : join [' '] ts = spaced ts := by
  induction ts with
  | nil => rfl
  | cons x r ih =>
    cases r with
    | nil => simp [join, spaced]
    | cons y r => rw [join, ih]; simp [spaced]

theorem setText_eq (xs : List String) : setText xs = match xs with
    | [] => []
    | x :: ys => x.toList ++ ys.flatMap (fun y => ", ".toList ++ y.toList) := by
  unfold setText
  induction xs with
  | nil => rfl
  | cons x r ih =>
    cases r with
    | nil => simp [join]
    | cons y r =>
      simp only [List.map_cons] at ih ⊢
      rw [join, ih]
      simp

theorem join_colon {ls : List String} (h : ls ≠ []) :
    ':' :: join [':'] (ls.map String.toList) = ls.flatMap (fun l => ':' :: l.toList) := by
  induction ls with
  | nil => exact (h rfl).elim
  | cons x r ih =>
    cases r with
    | nil => simp [join]
    | cons y r =>
      have := ih (by simp)
      simp only [List.map_cons, List.flatMap_cons] at this ⊢
      rw [join, ← this]
      simp

theorem elements_eq (E : Env) (ps : Props) :
    elements E ps = (ps.filter (fun p => !E.handle p.2)).map (fun p => p.1.toList ++ ':' :: E.text p.2) := by
  induction ps with
  | nil => rfl
  | cons p r ih =>
    obtain ⟨k, v⟩ := p
    rw [elements, ih, List.filter_cons]
    cases E.handle v <;> simp

theorem propsText_eq (E : Env) (ps : Props) : propsText E ps = braces E (ps.filter (fun p => !E.handle p.2)) := by
  rw [propsText, braces, join_space, elements_eq]

theorem nodeText_eq (E : Env) (ls : List String) (ps : Props) :
    nodeText E ls ps = '(' :: ls.flatMap (fun l => ':' :: l.toList) ++
      ' ' :: braces E (ps.filter (fun p => !E.handle p.2)) ++ [')'] := by
  unfold nodeText
  rw [propsText_eq]
  cases ls with
  | nil => simp [join]
  | cons x r => rw [← join_colon (by simp)]; simp

theorem get_mem {ps : Props} (hn : (AMap.keys ps).Nodup) (k : String) (v : Value) :
    (k, v) ∈ ps ↔ ps.get k = some v := by
  induction ps with
  | nil => simp [AMap.get]
  | cons p r ih =>
    obtain ⟨a, b⟩ := p
    rw [AMap.keys, List.map_cons, List.nodup_cons] at hn
    rw [AMap.get]
    by_cases h : a = k
    · subst h
      rw [if_pos rfl, List.mem_cons]
      constructor
      · rintro (h | h)
        · cases h; rfl
        · exact (hn.1 (List.mem_map.2 ⟨_, h, rfl⟩)).elim
      · intro h
        cases h
        exact .inl rfl
    · rw [if_neg h, List.mem_cons, ← ih hn.2]
      constructor
      · rintro (h' | h')
        · cases h'; exact (h rfl).elim
        · exact h'
      · exact .inr

/-- Lists of some properties, in any order. -/
theorem listed_iff (E : Env) {m : Props} {prop : String → Option Value} (hn : (AMap.keys m).Nodup)
    (hm : ∀ k, m.get k = prop k) (kvs : List (String × Value)) :
    Listed E prop kvs ↔ ∃ ps : Props, ps.Perm m ∧ kvs = ps.filter (fun p => !E.handle p.2) := by
  have hnd : m.Nodup := List.Pairwise.of_map _ (fun a b h e => h (congrArg _ e)) hn
  constructor
  · rintro ⟨h1, h2⟩
    have hk : kvs.Nodup := List.Pairwise.of_map _ (fun a b h e => h (congrArg _ e)) h1
    have hp : kvs.Perm (m.filter (fun p => !E.handle p.2)) := by
      rw [List.perm_ext_iff_of_nodup hk (hnd.filter _)]
      rintro ⟨k, v⟩
      rw [h2, List.mem_filter, get_mem hn, hm]
      simp
    refine ⟨kvs ++ m.filter (fun p => E.handle p.2), ?_, ?_⟩
    · refine (hp.append_right _).trans (List.perm_append_comm.trans ?_)
      exact List.filter_append_perm _ _
    · rw [List.filter_append, List.filter_filter, List.filter_eq_self.2, List.filter_eq_nil_iff.2]
      · simp
      · rintro ⟨k, v⟩ _
        simp
      · rintro ⟨k, v⟩ h
        simp [((h2 k v).1 h).2]
  · rintro ⟨ps, hp, rfl⟩
    refine ⟨?_, fun k v => ?_⟩
    · exact ((hp.map Prod.fst).nodup_iff.2 hn).sublist (List.filter_sublist.map _)
    · rw [List.mem_filter, hp.mem_iff, get_mem hn, hm]
      simp

theorem ofNode_iff {s : State} {σ : Spec} (c : Core s σ) (E : Env) {n : Nat} (hn : n ∈ σ.nodes) (t : Text) :
    OfNode E s n t ↔ NodeShown E σ n t := by
  obtain ⟨l1, l2⟩ := c.labels n hn
  obtain ⟨p1, p2⟩ := c.nprops n hn
  constructor
  · rintro ⟨ls, ps, h1, h2, rfl⟩
    refine ⟨ls, _, ⟨h1.nodup_iff.2 l1, fun l => by rw [h1.mem_iff, l2]⟩, (listed_iff E p1 p2 _).2 ⟨ps, h2, rfl⟩,
      nodeText_eq E ls ps⟩
  · rintro ⟨ls, kvs, ⟨h1, h2⟩, h3, rfl⟩
    obtain ⟨ps, h4, rfl⟩ := (listed_iff E p1 p2 _).1 h3
    refine ⟨ls, ps, ?_, h4, (nodeText_eq E ls ps).symm⟩
    rw [List.perm_ext_iff_of_nodup h1 l1]
    intro l
    rw [h2, l2]

theorem ofEdge_iff {s : State} {σ : Spec} (c : Core s σ) (E : Env) {e : Nat} (he : e ∈ σ.edges) (t : Text) :
    OfEdge E s e t ↔ EdgeShown E σ e t := by
  obtain ⟨p1, p2⟩ := c.eprops e he
  obtain ⟨_, _, h0⟩ := c.eattr e he
  constructor
  · rintro ⟨ps, h2, rfl⟩
    exact ⟨_, (listed_iff E p1 p2 _).2 ⟨ps, h2, rfl⟩, by rw [edgeText, propsText_eq, h0]⟩
  · rintro ⟨kvs, h3, rfl⟩
    obtain ⟨ps, h4, rfl⟩ := (listed_iff E p1 p2 _).1 h3
    exact ⟨ps, h4, by rw [edgeText, propsText_eq, h0]⟩

/-! ## Paths -/

/-- one turn of the loop, without the last space -/
def piece (x : Text × Text × Bool) : Text :=
  x.1 ++ "->".toList ++ x.2.1 ++ (if x.2.2 then " Reverse".toList else [])

theorem pathLoop_eq (ts : List (Text × Text × Bool)) : pathLoop ts = ts.flatMap (fun x => piece x ++ [' ']) := by
  induction ts with
  | nil => rfl
  | cons x r ih =>
    obtain ⟨a, b, d⟩ := x
    rw [pathLoop, ih, List.flatMap_cons, piece]
    cases d <;> simp

theorem flatMap_spaced (ts : List Text) : ts.flatMap (fun t => t ++ [' ']) = if ts = [] then [] else spaced ts ++ [' '] := by
  induction ts with
  | nil => rfl
  | cons x r ih =>
    rw [List.flatMap_cons, ih]
    cases r with
    | nil => simp [spaced]
    | cons y r => simp [spaced]

theorem trim_spaced {E : Env} (hE : SpaceOk E) {ts : List Text} (h1 : ∀ t ∈ ts, ∃ r, t = '(' :: r)
    (h2 : ∀ t ∈ ts, ∃ r c, t = r ++ [c] ∧ E.space c = false) :
    trimSpace E (ts.flatMap (fun t => t ++ [' '])) = spaced ts := by
  rw [flatMap_spaced]
  by_cases h : ts = []
  · subst h; rfl
  · rw [if_neg h]
    obtain ⟨e1, e2, _⟩ := hE
    have hs : ∃ r, spaced ts = '(' :: r := by
      cases ts with
      | nil => exact (h rfl).elim
      | cons x r =>
        obtain ⟨q, rfl⟩ := h1 x (by simp)
        exact ⟨_, rfl⟩
    have he : ∃ r c, spaced ts = r ++ [c] ∧ E.space c = false := by
      cases ts with
      | nil => exact (h rfl).elim
      | cons x r =>
        rcases List.eq_nil_or_concat r with rfl | ⟨r', y, rfl⟩
        · obtain ⟨q, c, h3, h4⟩ := h2 x (by simp)
          exact ⟨q, c, by rw [← h3]; simp [spaced], h4⟩
        · obtain ⟨q, c, h3, h4⟩ := h2 y (by simp)
          refine ⟨x ++ r'.flatMap (fun u => ' ' :: u) ++ ' ' :: q, c, ?_, h4⟩
          rw [spaced, List.concat_eq_append, List.flatMap_append, h3]
          simp
    obtain ⟨q, hq⟩ := hs
    obtain ⟨r, c, hr, hc⟩ := he
    have hd : (spaced ts ++ [' ']).dropWhile E.space = spaced ts ++ [' '] := by
      rw [hq]; simp [List.dropWhile, e2]
    unfold trimSpace
    rw [hd, List.reverse_append, hr]
    simp [List.dropWhile, e1, hc]

theorem shown_first {E : Env} {σ : Spec} {n : Nat} {t : Text} (h : NodeShown E σ n t) :
    (∃ r, t = '(' :: r) ∧ ∃ r, t = r ++ [')'] := by
  obtain ⟨ls, kvs, _, _, rfl⟩ := h
  exact ⟨⟨_, rfl⟩, ⟨_, rfl⟩⟩

theorem ofPath_iff {s : State} {σ : Spec} (c : Core s σ) {E : Env} (hE : SpaceOk E) {p : Path}
    (hp : ∀ el ∈ p.path, el.edge ∈ σ.edges) (t : Text) :
    OfPath E s p t ↔ ∃ ps, Pieces E σ p ps ∧ t = spaced ps := by
  have key : ∀ {els : List PathElement} {ts : List (Text × Text × Bool)}, (∀ el ∈ els, el.edge ∈ σ.edges) →
      List.Forall₂ (fun el x => OfNode E s (s.eFrom el.edge) x.1 ∧ OfNode E s (s.eTo el.edge) x.2.1 ∧ x.2.2 = el.reverse)
        els ts →
      List.Forall₂ (fun el t => ∃ a b, NodeShown E σ (σ.src el.edge) a ∧ NodeShown E σ (σ.dst el.edge) b ∧
        t = a ++ "->".toList ++ b ++ (if el.reverse then " Reverse".toList else [])) els (ts.map piece) := by
    intro els ts hl h
    induction h with
    | nil => exact .nil
    | @cons el x els ts h _ ih =>
      obtain ⟨h1, h2, h3⟩ := h
      have he := hl el (by simp)
      obtain ⟨a1, a2, _⟩ := c.eattr _ he
      obtain ⟨b1, b2⟩ := c.ends _ he
      rw [a1, ofNode_iff c E b1] at h1
      rw [a2, ofNode_iff c E b2] at h2
      exact .cons ⟨_, _, h1, h2, by rw [← h3]; rfl⟩ (ih (fun q hq => hl q (by simp [hq])))
  have back : ∀ {els : List PathElement} {ps : List Text}, (∀ el ∈ els, el.edge ∈ σ.edges) →
      List.Forall₂ (fun el t => ∃ a b, NodeShown E σ (σ.src el.edge) a ∧ NodeShown E σ (σ.dst el.edge) b ∧
        t = a ++ "->".toList ++ b ++ (if el.reverse then " Reverse".toList else [])) els ps →
      ∃ ts, List.Forall₂ (fun el x => OfNode E s (s.eFrom el.edge) x.1 ∧ OfNode E s (s.eTo el.edge) x.2.1 ∧
        x.2.2 = el.reverse) els ts ∧ ps = ts.map piece := by
    intro els ps hl h
    induction h with
    | nil => exact ⟨[], .nil, rfl⟩
    | @cons el t els ps h _ ih =>
      obtain ⟨a, b, h1, h2, rfl⟩ := h
      obtain ⟨ts, h3, rfl⟩ := ih (fun q hq => hl q (by simp [hq]))
      have he := hl el (by simp)
      obtain ⟨a1, a2, _⟩ := c.eattr _ he
      obtain ⟨b1, b2⟩ := c.ends _ he
      refine ⟨(a, b, el.reverse) :: ts, .cons ⟨?_, ?_, rfl⟩ h3, rfl⟩
      · rw [a1, ofNode_iff c E b1]; exact h1
      · rw [a2, ofNode_iff c E b2]; exact h2
  have trim : ∀ {ts : List (Text × Text × Bool)}, Pieces E σ p (ts.map piece) → pathText E ts = spaced (ts.map piece) := by
    intro ts h
    unfold pathText
    have hm : ts.flatMap (fun x => piece x ++ [' ']) = (ts.map piece).flatMap (fun t => t ++ [' ']) := by
      rw [List.flatMap_map]
    rw [pathLoop_eq, hm]
    have hall : ∀ t ∈ ts.map piece, (∃ r, t = '(' :: r) ∧ ∃ r c, t = r ++ [c] ∧ E.space c = false := by
      generalize ts.map piece = ps at h
      unfold Pieces at h
      generalize p.path = els at h
      induction h with
      | nil => intro t ht; cases ht
      | @cons el u els us h _ ih =>
        intro t ht
        rcases List.mem_cons.1 ht with rfl | ht
        · obtain ⟨a, b, h1, h2, rfl⟩ := h
          obtain ⟨⟨q, rfl⟩, _⟩ := shown_first h1
          obtain ⟨_, ⟨r, rfl⟩⟩ := shown_first h2
          refine ⟨⟨_, rfl⟩, ?_⟩
          cases el.reverse
          · exact ⟨('(' :: q) ++ "->".toList ++ r, ')', by simp, hE.2.2.1⟩
          · exact ⟨('(' :: q) ++ "->".toList ++ (r ++ [')']) ++ " Revers".toList, 'e', by simp, hE.2.2.2⟩
        · exact ih t ht
    exact trim_spaced hE (fun t ht => (hall t ht).1) (fun t ht => (hall t ht).2)
  constructor
  · rintro ⟨ts, h, rfl⟩
    exact ⟨_, key hp h, trim (key hp h)⟩
  · rintro ⟨ps, h, rfl⟩
    obtain ⟨ts, h1, rfl⟩ := back hp h
    exact ⟨ts, h1, (trim h).symm⟩

/-! ## The labels can be read from the text -/

theorem takeWhile_stop {a : Char} {xs r : Text} (h : a ∉ xs) : (xs ++ a :: r).takeWhile (fun c => c != a) = xs := by
  induction xs with
  | nil => simp
  | cons x xs ih =>
    rw [List.mem_cons, not_or] at h
    have hx : (x != a) = true := by simpa using fun e => h.1 e.symm
    rw [List.cons_append, List.takeWhile_cons, if_pos hx, ih h.2]

theorem colon_inj : ∀ {ls ms : List String}, (∀ l ∈ ls, ':' ∉ l.toList) → (∀ l ∈ ms, ':' ∉ l.toList) →
    ls.flatMap (fun l => ':' :: l.toList) = ms.flatMap (fun l => ':' :: l.toList) → ls = ms
  | [], [], _, _, _ => rfl
  | [], m :: ms, _, _, h => by simp at h
  | l :: ls, [], _, _, h => by simp at h
  | l :: ls, m :: ms, h1, h2, h => by
    simp only [List.flatMap_cons, List.cons_append, List.cons.injEq, true_and] at h
    have stop : ∀ (x : String) (xs : List String), ':' ∉ x.toList →
        (x.toList ++ xs.flatMap (fun l => ':' :: l.toList)).takeWhile (fun c => c != ':') = x.toList := by
      intro x xs hx
      cases xs with
      | nil =>
        have := takeWhile_stop (r := []) hx
        rw [List.flatMap_nil, List.append_nil]
        rw [List.takeWhile_append] at this
        split at this
        · rename_i h; exact (List.takeWhile_prefix _).eq_of_length h
        · exact this
      | cons y ys => rw [List.flatMap_cons, List.cons_append]; exact takeWhile_stop hx
    have hlm : l.toList = m.toList := by
      rw [← stop l ls (h1 l (by simp)), h, stop m ms (h2 m (by simp))]
    rw [hlm] at h
    rw [String.toList_inj.1 hlm, colon_inj (fun x hx => h1 x (by simp [hx])) (fun x hx => h2 x (by simp [hx]))
      (List.append_cancel_left h)]

theorem labels_shown {E : Env} {σ τ : Spec} {n m : Nat} {t : Text} (h1 : NodeShown E σ n t) (h2 : NodeShown E τ m t)
    (c1 : ∀ l ∈ σ.labels n, ':' ∉ l.toList ∧ ' ' ∉ l.toList) (c2 : ∀ l ∈ τ.labels m, ':' ∉ l.toList ∧ ' ' ∉ l.toList)
    (l : String) : l ∈ σ.labels n ↔ l ∈ τ.labels m := by
  obtain ⟨ls, kvs, ⟨_, a⟩, _, ht⟩ := h1
  obtain ⟨ms, kvs', ⟨_, b⟩, _, hu⟩ := h2
  have hs : ∀ {ls : List String}, (∀ l ∈ ls, ' ' ∉ l.toList) → ' ' ∉ ls.flatMap (fun l => ':' :: l.toList) := by
    intro ls h hm
    obtain ⟨l, hl, h'⟩ := List.mem_flatMap.1 hm
    simp only [List.mem_cons, Char.reduceEq, false_or] at h'
    exact h l hl h'
  have e1 := hs (fun l hl => (c1 l ((a l).1 hl)).2)
  have e2 := hs (fun l hl => (c2 l ((b l).1 hl)).2)
  rw [ht] at hu
  simp only [List.cons_append, List.append_assoc, List.cons.injEq, true_and] at hu
  have hf := congrArg (List.takeWhile (fun c => c != ' ')) hu
  rw [takeWhile_stop e1, takeWhile_stop e2] at hf
  have := colon_inj (fun l hl => (c1 l ((a l).1 hl)).1) (fun l hl => (c2 l ((b l).1 hl)).1) hf
  rw [← a, ← b, this]

end Show
end LPG
