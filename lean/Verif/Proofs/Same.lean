import Verif.Spec.Same
import Verif.Proofs.Core
import Verif.Proofs.PatternStart
import Verif.Proofs.PatternReport
/-!
# Facts about graphs that are the same up to names
-/
namespace LPG
open Pat

/-! ## Lists -/

theorem BijOn.filter_perm {f : Nat → Nat} {xs ys : List Nat} (b : BijOn f xs ys) (hx : xs.Nodup) (hy : ys.Nodup)
    {P Q : Nat → Bool} (hPQ : ∀ x ∈ xs, P x = Q (f x)) : ((xs.filter P).map f).Perm (ys.filter Q) := by
  have hn : ((xs.filter P).map f).Nodup := by
    rw [List.Nodup, List.pairwise_map]
    refine (hx.filter P).imp_of_mem (fun {a} {c} ha hc hne h => hne ?_)
    exact b.2.1 a (List.mem_filter.1 ha).1 c (List.mem_filter.1 hc).1 h
  rw [List.perm_ext_iff_of_nodup hn (hy.filter Q)]
  intro y
  rw [List.mem_map, List.mem_filter]
  constructor
  · rintro ⟨x, hx, rfl⟩
    obtain ⟨h1, h2⟩ := List.mem_filter.1 hx
    exact ⟨b.1 x h1, (hPQ x h1) ▸ h2⟩
  · rintro ⟨h1, h2⟩
    obtain ⟨x, hx, rfl⟩ := b.2.2 y h1
    exact ⟨x, List.mem_filter.2 ⟨hx, (hPQ x hx) ▸ h2⟩, rfl⟩

theorem BijOn.perm {f : Nat → Nat} {xs ys : List Nat} (b : BijOn f xs ys) (hx : xs.Nodup) (hy : ys.Nodup) :
    (xs.map f).Perm ys := by
  have := b.filter_perm hx hy (P := fun _ => true) (Q := fun _ => true) (fun _ _ => rfl)
  rwa [List.filter_eq_self.2 (by simp), List.filter_eq_self.2 (by simp)] at this

theorem BijOn.length_eq {f : Nat → Nat} {xs ys : List Nat} (b : BijOn f xs ys) (hx : xs.Nodup) (hy : ys.Nodup) :
    ys.length = xs.length := by
  rw [← (b.perm hx hy).length_eq, List.length_map]

/-- Filters by a condition that the map respects. -/
theorem Renamed.of_filter {f : Nat → Nat} {xs ys : List Nat} (b : BijOn f xs ys) (hx : xs.Nodup) (hy : ys.Nodup)
    {P Q : Nat → Bool} (hPQ : ∀ x ∈ xs, P x = Q (f x)) {a a' : Option (List Nat)} {as as' : List Nat}
    (ha : a = some as) (ha' : a' = some as') (hp : as.Perm (xs.filter P)) (hp' : as'.Perm (ys.filter Q)) : Renamed f a a' :=
  ⟨as, as', ha, ha', (hp.map f).trans ((b.filter_perm hx hy hPQ).trans hp'.symm)⟩

/-- Lists of the members that satisfy a condition. -/
theorem perm_of_mem {f : Nat → Nat} {xs ys : List Nat} (b : BijOn f xs ys) {as as' : List Nat} (ha : as.Nodup) (ha' : as'.Nodup)
    (hs : ∀ x ∈ as, x ∈ xs) (hs' : ∀ y ∈ as', y ∈ ys) (h : ∀ x ∈ xs, x ∈ as ↔ f x ∈ as') : (as.map f).Perm as' := by
  have hn : (as.map f).Nodup := by
    rw [List.Nodup, List.pairwise_map]
    exact ha.imp_of_mem (fun {a} {c} ha hc hne h => hne (b.2.1 a (hs a ha) c (hs c hc) h))
  rw [List.perm_ext_iff_of_nodup hn ha']
  intro y
  rw [List.mem_map]
  constructor
  · rintro ⟨x, hx, rfl⟩; exact (h x (hs x hx)).1 hx
  · intro hy
    obtain ⟨x, hx, rfl⟩ := b.2.2 y (hs' y hy)
    exact ⟨x, (h x hx).2 hy, rfl⟩

/-! ## Matches -/

variable {σ σ' : Spec} {f h : Nat → Nat}

theorem get_renameSymbols {symbols : Symbols} {k : String} :
    AMap.get (renameSymbols f h symbols) k = (AMap.get symbols k).map (renameSym f h) := by
  induction symbols with
  | nil => rfl
  | cons p symbols ih =>
    simp only [renameSymbols, List.map_cons, AMap.get] at ih ⊢
    split
    · rfl
    · exact ih

theorem Spec.SameAs.nodeMatches (S : σ.SameAs σ' f h) {n : Nat} (hn : n ∈ σ.nodes) (ls : List String) (req : AMap String Value) :
    σ'.NodeMatches ls req (f n) ↔ σ.NodeMatches ls req n := by
  unfold Spec.NodeMatches PropsMatch
  simp only [S.labels n hn, S.nprop n hn]

theorem Spec.SameAs.edgeMatches (S : σ.SameAs σ' f h) {e : Nat} (he : e ∈ σ.edges) (ls : List String) (req : AMap String Value) :
    σ'.EdgeMatches ls req (h e) ↔ σ.EdgeMatches ls req e := by
  unfold Spec.EdgeMatches PropsMatch
  simp only [S.label e he, S.eprop e he]

/-- the ends of the edges are nodes -/
def EndsIn (σ : Spec) : Prop := ∀ e ∈ σ.edges, σ.src e ∈ σ.nodes ∧ σ.dst e ∈ σ.nodes

theorem Spec.SameAs.src_eq (S : σ.SameAs σ' f h) (hc : EndsIn σ) {e n : Nat} (he : e ∈ σ.edges) (hn : n ∈ σ.nodes) :
    σ'.src (h e) = f n ↔ σ.src e = n := by
  rw [S.src e he]
  exact ⟨fun h => S.nodes.2.1 _ (hc e he).1 _ hn h, fun h => by rw [h]⟩

theorem Spec.SameAs.dst_eq (S : σ.SameAs σ' f h) (hc : EndsIn σ) {e n : Nat} (he : e ∈ σ.edges) (hn : n ∈ σ.nodes) :
    σ'.dst (h e) = f n ↔ σ.dst e = n := by
  rw [S.dst e he]
  exact ⟨fun h => S.nodes.2.1 _ (hc e he).2 _ hn h, fun h => by rw [h]⟩

theorem Spec.SameAs.along (S : σ.SameAs σ' f h) (hc : EndsIn σ) {d : State.Dir} {a e b : Nat} (ha : a ∈ σ.nodes)
    (he : e ∈ σ.edges) (hb : b ∈ σ.nodes) : Along σ'.ends d (f a) (h e) (f b) ↔ Along σ.ends d a e b := by
  have h1 := @Spec.SameAs.src_eq _ _ _ _ S hc e
  have h2 := @Spec.SameAs.dst_eq _ _ _ _ S hc e
  cases d <;> simp only [Along, Spec.ends, h1 he ha, h1 he hb, h2 he ha, h2 he hb]

theorem along_in (hc : EndsIn σ) {d : State.Dir} {a e b : Nat} (he : e ∈ σ.edges) (h : Along σ.ends d a e b) : b ∈ σ.nodes := by
  have := hc e he
  cases d <;> simp only [Along, Spec.ends] at h <;> grind

theorem Spec.SameAs.joins (S : σ.SameAs σ' f h) (hc : EndsIn σ) (hc' : EndsIn σ') {d : State.Dir} : ∀ {es : List Nat} {a b : Nat},
    a ∈ σ.nodes → (∀ e ∈ es, e ∈ σ.edges) → b ∈ σ.nodes → (Joins σ'.ends d (f a) (es.map h) (f b) ↔ Joins σ.ends d a es b)
  | [], a, b, ha, _, hb => ⟨fun h => S.nodes.2.1 a ha b hb h, fun h => by rw [List.map_nil, Joins, (h : a = b)]⟩
  | e :: es, a, b, ha, he, hb => by
    rw [List.map_cons, Joins, Joins]
    have hee := he e (by simp)
    constructor
    · rintro ⟨c', h1, h2⟩
      obtain ⟨c, hcn, rfl⟩ := S.nodes.2.2 c' (along_in hc' (S.edges.1 e hee) h1)
      exact ⟨c, (S.along hc ha hee hcn).1 h1, (S.joins hc hc' hcn (fun x hx => he x (by simp [hx])) hb).1 h2⟩
    · rintro ⟨c, h1, h2⟩
      have hcn := along_in hc hee h1
      exact ⟨f c, (S.along hc ha hee hcn).2 h1, (S.joins hc hc' hcn (fun x hx => he x (by simp [hx])) hb).2 h2⟩

/-- The names of the item at `i` are bound to nodes of the graph. -/
theorem Spec.SameAs.nodeFits (S : σ.SameAs σ' f h) {symbols : Symbols} {p : Pattern} (hp : PatternOk σ symbols p) {i n : Nat}
    (hi : i < p.length) (he : i % 2 = 0) (hn : n ∈ σ.nodes) :
    NodeFits σ' (renameSymbols f h symbols) (itemAt p i) (f n) ↔ NodeFits σ symbols (itemAt p i) n := by
  unfold NodeFits
  rw [S.nodeMatches hn]
  refine and_congr ⟨fun _ => hn, fun _ => S.nodes.1 n hn⟩ (and_congr Iff.rfl ?_)
  refine imp_congr_right (fun hne => ?_)
  rw [get_renameSymbols]
  cases hg : AMap.get symbols (itemAt p i).name with
  | none => simp
  | some sym =>
    obtain ⟨_, xs, hx, _, hin⟩ := hp.bound i hi he hne sym hg
    simp only [Option.map_some, Option.some.injEq, forall_eq', renameSym, hx]
    constructor
    · rintro ⟨ys, rfl, hy⟩
      obtain ⟨x, hx, hxy⟩ := List.mem_map.1 hy
      exact ⟨xs, rfl, S.nodes.2.1 x (hin x hx) n hn hxy ▸ hx⟩
    · rintro ⟨ys, h1, hy⟩
      cases h1
      exact ⟨_, rfl, List.mem_map_of_mem hy⟩

theorem nodup_map_iff {es : List Nat} {X : List Nat} (hi : ∀ x ∈ X, ∀ y ∈ X, h x = h y → x = y) (he : ∀ e ∈ es, e ∈ X) :
    (es.map h).Nodup ↔ es.Nodup := by
  rw [List.Nodup, List.pairwise_map]
  constructor
  · exact fun hp => hp.imp (fun hne heq => hne (by rw [heq]))
  · exact fun hp => hp.imp_of_mem (fun {a} {c} ha hc hne heq => hne (hi a (he a ha) c (he c hc) heq))

theorem Spec.SameAs.edgeFits (S : σ.SameAs σ' f h) (hc : EndsIn σ) (hc' : EndsIn σ') {symbols : Symbols} {p : Pattern}
    (hp : PatternOk σ symbols p) {i a b : Nat} {es : List Nat} (hi : i < p.length) (ho : i % 2 = 1) (ha : a ∈ σ.nodes)
    (hb : b ∈ σ.nodes) (hes : ∀ e ∈ es, e ∈ σ.edges) :
    EdgeFits σ' (renameSymbols f h symbols) (itemAt p i) (f a) (es.map h) (f b) ↔ EdgeFits σ symbols (itemAt p i) a es b := by
  unfold EdgeFits
  rw [S.joins hc hc' ha hes hb, nodup_map_iff S.edges.2.1 hes, List.length_map, List.forall_mem_map]
  refine and_congr (by simp) (and_congr Iff.rfl (and_congr ?_ (and_congr Iff.rfl (and_congr Iff.rfl ?_))))
  · refine forall_congr' (fun e => imp_congr_right (fun he => ?_))
    rw [S.edgeMatches (hes e he)]
    exact and_congr ⟨fun _ => hes e he, fun _ => S.edges.1 e (hes e he)⟩ Iff.rfl
  · refine imp_congr_right (fun hne => ?_)
    rw [get_renameSymbols, hp.free i hi ho hne]
    simp

theorem PatternOk.rename {symbols : Symbols} {p : Pattern} (hp : PatternOk σ symbols p) (S : σ.SameAs σ' f h) :
    PatternOk σ' (renameSymbols f h symbols) p := by
  refine ⟨hp.odd, hp.labels, fun i hi he hne sym hg => ?_, hp.kinds, fun i hi ho hne => ?_, hp.flat, fun n hn k w hw => ?_,
    fun e he k w hw => ?_⟩
  · rw [get_renameSymbols] at hg
    obtain ⟨sym0, hg0, rfl⟩ := Option.map_eq_some_iff.1 hg
    obtain ⟨h1, xs, h2, h3, h4⟩ := hp.bound i hi he hne sym0 hg0
    refine ⟨by simp [renameSym, h1], xs.map f, by simp [renameSym, h2], (nodup_map_iff S.nodes.2.1 h4).2 h3, ?_⟩
    intro n hn
    obtain ⟨x, hx, rfl⟩ := List.mem_map.1 hn
    exact S.nodes.1 x (h4 x hx)
  · rw [get_renameSymbols, hp.free i hi ho hne]; rfl
  · obtain ⟨x, hx, rfl⟩ := S.nodes.2.2 n hn
    rw [S.nprop x hx] at hw
    exact hp.flatNodes x hx k w hw
  · obtain ⟨x, hx, rfl⟩ := S.edges.2.2 e he
    rw [S.eprop x hx] at hw
    exact hp.flatEdges x hx k w hw

theorem NoTwice.rename {p : Pattern} (hx : NoTwice σ p) (S : σ.SameAs σ' f h) (hc : EndsIn σ) : NoTwice σ' p := by
  intro i hi ho hd hm e' he' hmt
  obtain ⟨e, he, rfl⟩ := S.edges.2.2 e' he'
  rw [S.edgeMatches he] at hmt
  rw [S.src e he, S.dst e he]
  intro heq
  exact hx i hi ho hd hm e he hmt (S.nodes.2.1 _ (hc e he).1 _ (hc e he).2 heq)

/-- The values of the match are of the graph. -/
def Match.In (σ : Spec) (M : Match) : Prop :=
  ∀ v ∈ M, match v with
    | .node n => n ∈ σ.nodes
    | .trail es => ∀ e ∈ es, e ∈ σ.edges

theorem Matches.inGraph {symbols : Symbols} {p : Pattern} {M : Match} (hM : Matches σ symbols p M) : M.In σ := by
  intro v hv
  obtain ⟨i, hi, hv⟩ := List.getElem_of_mem hv
  have hg : M[i]? = some v := by rw [List.getElem?_eq_getElem hi, hv]
  have := hM.2 i (hM.1 ▸ hi)
  split at this
  · obtain ⟨n, h1, h2⟩ := this
    rw [hg] at h1; cases h1
    exact h2.1
  · obtain ⟨a, es, b, _, h1, _, h2⟩ := this
    rw [hg] at h1; cases h1
    exact fun e he => (h2.2.2.1 e he).1

theorem Spec.SameAs.matches (S : σ.SameAs σ' f h) (hc : EndsIn σ) (hc' : EndsIn σ') {symbols : Symbols} {p : Pattern}
    (hp : PatternOk σ symbols p) {M : Match} (hin : M.In σ) :
    Matches σ' (renameSymbols f h symbols) p (M.rename f h) ↔ Matches σ symbols p M := by
  have hget : ∀ i, (M.rename f h)[i]? = M[i]?.map (Val.rename f h) := fun i => List.getElem?_map ..
  have hmem : ∀ {i v}, M[i]? = some v → v ∈ M := fun hv => List.mem_of_getElem? hv
  unfold Matches
  refine and_congr (by rw [Match.rename, List.length_map]) (forall_congr' (fun i => forall_congr' (fun hi => ?_)))
  simp only [hget]
  split
  · rename_i he
    constructor
    · rintro ⟨n', h1, h2⟩
      obtain ⟨v, hv, h1⟩ := Option.map_eq_some_iff.1 h1
      cases v with
      | trail es => simp [Val.rename] at h1
      | node n =>
        simp only [Val.rename, Val.node.injEq] at h1
        subst h1
        exact ⟨n, hv, (S.nodeFits hp hi he (hin _ (hmem hv))).1 h2⟩
    · rintro ⟨n, hv, h2⟩
      exact ⟨f n, by rw [hv]; rfl, (S.nodeFits hp hi he h2.1).2 h2⟩
  · rename_i ho
    have ho : i % 2 = 1 := by omega
    constructor
    · rintro ⟨a', es', b', h1, h2, h3, h4⟩
      obtain ⟨v1, hv1, h1⟩ := Option.map_eq_some_iff.1 h1
      obtain ⟨v2, hv2, h2⟩ := Option.map_eq_some_iff.1 h2
      obtain ⟨v3, hv3, h3⟩ := Option.map_eq_some_iff.1 h3
      cases v1 with
      | trail es => simp [Val.rename] at h1
      | node a =>
      cases v2 with
      | node n => simp [Val.rename] at h2
      | trail es =>
      cases v3 with
      | trail es => simp [Val.rename] at h3
      | node b =>
        simp only [Val.rename, Val.node.injEq, Val.trail.injEq] at h1 h2 h3
        subst h1; subst h2; subst h3
        exact ⟨a, es, b, hv1, hv2, hv3, (S.edgeFits hc hc' hp hi ho (hin _ (hmem hv1)) (hin _ (hmem hv3)) (hin _ (hmem hv2))).1 h4⟩
    · rintro ⟨a, es, b, hv1, hv2, hv3, h4⟩
      exact ⟨f a, es.map h, f b, by rw [hv1]; rfl, by rw [hv2]; rfl, by rw [hv3]; rfl,
        (S.edgeFits hc hc' hp hi ho (hin _ (hmem hv1)) (hin _ (hmem hv3)) (hin _ (hmem hv2))).2 h4⟩

theorem preimages {X Y : List Nat} (b : BijOn h X Y) : ∀ {ys : List Nat}, (∀ y ∈ ys, y ∈ Y) → ∃ xs : List Nat, (∀ x ∈ xs, x ∈ X) ∧ xs.map h = ys
  | [], _ => ⟨[], by simp, rfl⟩
  | y :: ys, hy => by
    obtain ⟨x, hx, rfl⟩ := b.2.2 y (hy y (by simp))
    obtain ⟨xs, h1, rfl⟩ := preimages b (ys := ys) (fun z hz => hy z (by simp [hz]))
    exact ⟨x :: xs, by simpa [hx] using h1, rfl⟩

/-- Every match in the other graph comes from one in the graph. -/
theorem Spec.SameAs.match_preimage (S : σ.SameAs σ' f h) : ∀ {M' : Match}, M'.In σ' → ∃ M : Match, M.In σ ∧ M.rename f h = M'
  | [], _ => ⟨[], (by intro v hv; cases hv), rfl⟩
  | v :: M', hin => by
    obtain ⟨M, h1, rfl⟩ := S.match_preimage (M' := M') (fun w hw => hin w (List.mem_cons_of_mem _ hw))
    have hv := hin v (List.mem_cons_self ..)
    cases v with
    | node n =>
      obtain ⟨x, hx, rfl⟩ := S.nodes.2.2 n hv
      refine ⟨.node x :: M, ?_, rfl⟩
      intro w hw
      rcases List.mem_cons.1 hw with rfl | hw
      · exact hx
      · exact h1 w hw
    | trail es =>
      obtain ⟨xs, hx, rfl⟩ := preimages S.edges hv
      refine ⟨.trail xs :: M, ?_, rfl⟩
      intro w hw
      rcases List.mem_cons.1 hw with rfl | hw
      · exact hx
      · exact h1 w hw

theorem map_injOn {X : List Nat} (hi : ∀ x ∈ X, ∀ y ∈ X, h x = h y → x = y) : ∀ {xs ys : List Nat}, (∀ x ∈ xs, x ∈ X) → (∀ y ∈ ys, y ∈ X) →
    xs.map h = ys.map h → xs = ys
  | [], [], _, _, _ => rfl
  | [], _ :: _, _, _, he => by simp at he
  | _ :: _, [], _, _, he => by simp at he
  | x :: xs, y :: ys, hx, hy, he => by
    simp only [List.map_cons, List.cons.injEq] at he
    rw [hi x (hx x (by simp)) y (hy y (by simp)) he.1,
      map_injOn hi (fun z hz => hx z (by simp [hz])) (fun z hz => hy z (by simp [hz])) he.2]

theorem Spec.SameAs.rename_inj (S : σ.SameAs σ' f h) : ∀ {M N : Match}, M.In σ → N.In σ → M.rename f h = N.rename f h → M = N
  | [], [], _, _, _ => rfl
  | [], _ :: _, _, _, he => by simp [Match.rename] at he
  | _ :: _, [], _, _, he => by simp [Match.rename] at he
  | v :: M, w :: N, hM, hN, he => by
    simp only [Match.rename, List.map_cons, List.cons.injEq] at he
    have hv := hM v (List.mem_cons_self ..)
    have hw := hN w (List.mem_cons_self ..)
    rw [S.rename_inj (M := M) (N := N) (fun x hx => hM x (List.mem_cons_of_mem _ hx)) (fun x hx => hN x (List.mem_cons_of_mem _ hx)) he.2]
    congr 1
    have he := he.1
    cases v <;> cases w <;> simp only [Val.rename, Val.node.injEq, Val.trail.injEq, reduceCtorEq] at he
    · rw [S.nodes.2.1 _ hv _ hw he]
    · rw [map_injOn S.edges.2.1 hv hw he]

end LPG
