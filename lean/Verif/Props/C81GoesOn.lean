import Verif.Props.C81
/-!
# C81: a program goes on after a copy

`CopyGraph` and `CopySubgraph` consist of the steps `cloneNode` and `cloneEdge` of `SurvivedAll`. So the theorems of C80 and C81 hold
of programs that mix calls and copies and recover from the panics of both.
-/
namespace LPG
open World State

/-- From world `W` the program has come to `W'` by making nodes and edges of graph `t`. -/
structure Onward (t : Nat) (W : World) (hist : List (Nat × Option Op)) (W' : World) (hist' : List (Nat × Option Op)) : Prop where
  runs : SurvivedAll W' hist'
  calls : ∃ ext, hist' = hist ++ ext ∧ ∀ p ∈ ext, p.1 = t ∧
    (p.2 = none ∨ (∃ ls ps, p.2 = some (.newNode ls ps)) ∨ ∃ x y l ps, p.2 = some (.newEdge x y l ps))
  grow : ∀ k x, (W.N k x → W'.N k x) ∧ (W.E k x → W'.E k x)
  nodes : ∀ x ∈ (WSpec.runLost hist t).nodes, x ∈ (WSpec.runLost hist' t).nodes

theorem Onward.refl {t : Nat} {W : World} {hist : List (Nat × Option Op)} (h : SurvivedAll W hist) : Onward t W hist W hist :=
  ⟨h, ⟨[], by simp, by simp⟩, fun _ _ => ⟨id, id⟩, fun _ h => h⟩

theorem Onward.trans {t : Nat} {W W1 W2 : World} {hist h1 h2 : List (Nat × Option Op)} (a : Onward t W hist W1 h1)
    (b : Onward t W1 h1 W2 h2) : Onward t W hist W2 h2 := by
  obtain ⟨e1, rfl, c1⟩ := a.calls
  obtain ⟨e2, rfl, c2⟩ := b.calls
  refine ⟨b.runs, ⟨e1 ++ e2, by simp, fun p hp => ?_⟩, fun k x => ⟨fun h => (b.grow k x).1 ((a.grow k x).1 h),
    fun h => (b.grow k x).2 ((a.grow k x).2 h)⟩, fun x hx => b.nodes x (a.nodes x hx)⟩
  rcases List.mem_append.1 hp with hp | hp
  · exact c1 p hp
  · exact c2 p hp

/-- the map of a copy has copies that are nodes of graph `t` -/
def MapOk (t : Nat) (hist : List (Nat × Option Op)) (m : AMap Nat Nat) : Prop :=
  ∀ k a, AMap.get m k = some a → a ∈ (WSpec.runLost hist t).nodes

theorem MapOk.later {t : Nat} {W W' : World} {hist h1 : List (Nat × Option Op)} {m : AMap Nat Nat} (h : MapOk t hist m)
    (a : Onward t W hist W' h1) : MapOk t h1 m := fun k x hk => a.nodes x (h k x hk)

theorem Onward.cloneNode {W : World} {hist : List (Nat × Option Op)} (h : SurvivedAll W hist) {s t n : Nat} (hn : W.N s n)
    (o : MapOrder) (f : String → Value → Value) : ∃ h1, Onward t W hist (W.tryCloneNode o t n f).1 h1 ∧
      (W.tryCloneNode o t n f).2.1 ∈ (WSpec.runLost h1 t).nodes := by
  obtain ⟨hv, hs⟩ := h.sound.newNode hn (t := t) f (.refl _)
  obtain ⟨_, _, hd, _⟩ := h.sound
  have hnx : W.heap.idBase = (WSpec.runLost hist t).next := (hd.core t).next
  have e : ((WSpec.runLost (hist ++ [(t, some (.newNode (W.heap.nLabels n) (cloneProps f (W.heap.nProps n))))])) t).nodes =
      (WSpec.runLost hist t).nodes ++ [(WSpec.runLost hist t).next] := by
    rw [WSpec.runLost, specLost_append]
    simp only [WSpec.runLostFrom, WSpec.stepLost, WSpec.step, if_true, Spec.step]
    rfl
  refine ⟨_, ⟨.cloneNode h hn, ⟨_, rfl, fun p hp => ?_⟩, (h.sound.keeps hv hs).2.2, fun x hx => ?_⟩, ?_⟩
  · rw [List.mem_singleton] at hp
    subst hp
    exact ⟨rfl, .inr (.inl ⟨_, _, rfl⟩)⟩
  · rw [e]; exact List.mem_append_left _ hx
  · rw [e]
    show W.heap.idBase ∈ _
    rw [hnx]; simp

theorem Onward.cloneEdge {W : World} {hist : List (Nat × Option Op)} (h : SurvivedAll W hist) {s t e : Nat} (he : W.E s e)
    {x y : Option Nat} (hx : ∀ a, x = some a → a ∈ (WSpec.runLost hist t).nodes)
    (hy : ∀ a, y = some a → a ∈ (WSpec.runLost hist t).nodes) {o : MapOrder} {f : String → Value → Value} {r : World × Nat × Bool}
    (hc : W.tryCloneEdge o t x y e f = some r) : ∃ h1, Onward t W hist r.1 h1 := by
  cases x with
  | none => cases hc; exact ⟨hist, .refl h⟩
  | some x =>
    cases y with
    | none => cases hc; exact ⟨hist, .refl h⟩
    | some y =>
      obtain ⟨W', i, b⟩ := r
      have hx := hx x rfl
      have hy := hy y rfl
      refine ⟨_, .cloneEdge h he hx hy hc, ⟨_, rfl, fun p hp => ?_⟩, ?_, fun a ha => ?_⟩
      · rw [List.mem_singleton] at hp
        subst hp
        refine ⟨rfl, ?_⟩
        dsimp only
        split
        · exact .inl rfl
        · exact .inr (.inr ⟨_, _, _, _, rfl⟩)
      · obtain ⟨hv, gx, gy, hs⟩ := h.sound.newEdge he hx hy f (.refl _)
        unfold tryCloneEdge at hc
        simp only [gx, gy, ne_eq, not_true, if_false] at hc
        cases hn : (W.view t).tryNewEdge x y (W.heap.eLabel e) (cloneProps f (W.heap.eProps e)) with
        | none =>
          rw [hn] at hc hs
          simp only at hc hs
          split at hc
          · rename_i hnil
            cases hc
            rw [if_pos hnil] at hs
            exact (h.sound.keeps hv hs).2.2
          · cases hc
        | some r =>
          rw [hn] at hc hs
          simp only at hc hs
          cases hc
          exact (h.sound.keeps hv hs).2.2
      · rw [WSpec.runLost, specLost_append]
        simp only [WSpec.runLostFrom]
        split
        · exact ha
        · simp only [WSpec.stepLost, WSpec.step, if_true, Spec.step]
          exact ha

theorem Onward.copyNodes {o : MapOrder} {s t : Nat} {f : String → Value → Value} {W : World} {nxt : Option Nat} {m : AMap Nat Nat}
    {r : World × AMap Nat Nat × Bool} (h : tryCopyNodes o t f W nxt m = some r) :
    ∀ {hist : List (Nat × Option Op)}, SurvivedAll W hist → (∀ n, nxt = some n → W.N s n) → MapOk t hist m →
      ∃ h1, Onward t W hist r.1 h1 ∧ MapOk t h1 r.2.1 := by
  revert h
  apply tryCopyNodes.partial_correctness o t f (motive := fun W nxt m r => ∀ {hist : List (Nat × Option Op)}, SurvivedAll W hist →
      (∀ n, nxt = some n → W.N s n) → MapOk t hist m → ∃ h1, Onward t W hist r.1 h1 ∧ MapOk t h1 r.2.1)
  intro rec ih W nxt m q h hist hS hn hm
  cases nxt with
  | none => cases h; exact ⟨hist, .refl hS, hm⟩
  | some n =>
    simp only at h
    obtain ⟨h1, a, hi⟩ := Onward.cloneNode hS (t := t) (hn n rfl) o f
    split at h
    · cases h
      exact ⟨h1, a, hm.later a⟩
    · obtain ⟨h2, b, hm2⟩ := ih _ _ _ _ h a.runs
        (fun n' hn' => by
          have := ((hS.full s).link n (hn n rfl)).1
          have hn' : (W.view s).nptr.next n = some n' := hn'
          rw [hn'] at this
          exact (a.grow s n').1 (this _ rfl))
        (fun k x hk => by
          rw [AMap.get_set] at hk
          split at hk
          · cases hk; exact hi
          · exact (hm.later a) k x hk)
      exact ⟨h2, a.trans b, hm2⟩

theorem Onward.copyEdges {o : MapOrder} {s t : Nat} {f : String → Value → Value} {m : AMap Nat Nat} :
    ∀ {es : List Nat} {W : World} {hist : List (Nat × Option Op)} {r : World × Bool}, SurvivedAll W hist → (∀ e ∈ es, W.E s e) →
      MapOk t hist m → tryCopyEdges o t f m W es = some r → ∃ h1, Onward t W hist r.1 h1
  | [], W, hist, r, hS, _, _, h => by cases h; exact ⟨hist, .refl hS⟩
  | e :: es, W, hist, r, hS, he, hm, h => by
    rw [tryCopyEdges] at h
    split at h
    · exact copyEdges hS (fun e' h' => he e' (List.mem_cons_of_mem _ h')) hm h
    · split at h
      · exact copyEdges hS (fun e' h' => he e' (List.mem_cons_of_mem _ h')) hm h
      · split at h
        · cases h
        · rename_i q hq
          obtain ⟨h1, a⟩ := Onward.cloneEdge hS (he e (by simp)) (hm _) (hm _) hq
          split at h
          · cases h; exact ⟨h1, a⟩
          · obtain ⟨h2, b⟩ := copyEdges a.runs (fun e' h' => (a.grow s e').2 (he e' (List.mem_cons_of_mem _ h'))) (hm.later a) h
            exact ⟨h2, a.trans b⟩

/-- After `CopyGraph`, returned or panicked, the program is one of those of C80 and C81: the copy amounts to new nodes and new edges of
the target, and the map has nodes of the target. Both graphs may be one. -/
theorem C81_goes_on {W W' : World} {hist : List (Nat × Option Op)} (h0 : SurvivedAll W hist) {s t : Nat} {o : MapOrder}
    {f : String → Value → Value} {m : AMap Nat Nat} {b : Bool} (h : W.tryCopyGraph o s t f = some (W', m, b)) :
    ∃ ext, SurvivedAll W' (hist ++ ext) ∧ (∀ p ∈ ext, p.1 = t ∧
      (p.2 = none ∨ (∃ ls ps, p.2 = some (.newNode ls ps)) ∨ ∃ x y l ps, p.2 = some (.newEdge x y l ps))) ∧
      ∀ k a, AMap.get m k = some a → a ∈ (WSpec.runLost (hist ++ ext) t).nodes := by
  have fin : ∀ {h1}, Onward t W hist W' h1 → MapOk t h1 m → ∃ ext, SurvivedAll W' (hist ++ ext) ∧ (∀ p ∈ ext, p.1 = t ∧
      (p.2 = none ∨ (∃ ls ps, p.2 = some (.newNode ls ps)) ∨ ∃ x y l ps, p.2 = some (.newEdge x y l ps))) ∧
      ∀ k a, AMap.get m k = some a → a ∈ (WSpec.runLost (hist ++ ext) t).nodes := by
    intro h1 a hm
    obtain ⟨ext, rfl, hc⟩ := a.calls
    exact ⟨ext, a.runs, hc, hm⟩
  unfold tryCopyGraph at h
  cases hc : tryCopyNodes o t f W (W.root s).allNodes.head [] with
  | none => rw [hc] at h; cases h
  | some q =>
    obtain ⟨h1, a, hm⟩ := Onward.copyNodes (s := s) hc h0
      (fun n hn => by
        have := (h0.full s).head
        have hn : (W.view s).allNodes.head = some n := hn
        rw [hn] at this
        exact this _ rfl) (fun k a hk => by cases hk)
    rw [hc] at h
    obtain ⟨W1, m1, _ | _⟩ := q
    · simp only at h
      split at h
      · cases h
      · rename_i es hes
        split at h
        · cases h
        · rename_i W2 b2 h2
          cases h
          obtain ⟨h3, c⟩ := Onward.copyEdges (s := s) a.runs ((C80_own a.runs s).2.1 es hes) hm h2
          exact fin (a.trans c) (hm.later c)
    · cases h
      exact fin a hm

/-- The same for `CopySubgraph` with a map that has nodes of the target. -/
theorem C81_sub_goes_on {W W' : World} {hist : List (Nat × Option Op)} (h0 : SurvivedAll W hist) {s t n : Nat} (hn : W.N s n)
    {m0 m : AMap Nat Nat} (hm : ∀ k a, AMap.get m0 k = some a → a ∈ (WSpec.runLost hist t).nodes) {o : MapOrder}
    {f : String → Value → Value} {b : Bool} (h : tryCopySubgraph o t f (W, m0) n = some ((W', m), b)) :
    ∃ ext, SurvivedAll W' (hist ++ ext) ∧ (∀ p ∈ ext, p.1 = t ∧
      (p.2 = none ∨ (∃ ls ps, p.2 = some (.newNode ls ps)) ∨ ∃ x y l ps, p.2 = some (.newEdge x y l ps))) ∧
      ∀ k a, AMap.get m k = some a → a ∈ (WSpec.runLost (hist ++ ext) t).nodes := by
  have key : ∀ st n r, tryCopySubgraph o t f st n = some r → ∀ {hist : List (Nat × Option Op)}, SurvivedAll st.1 hist → st.1.N s n →
      MapOk t hist st.2 → ∃ h1, Onward t st.1 hist r.1.1 h1 ∧ MapOk t h1 r.1.2 := by
    apply tryCopySubgraph.partial_correctness o t f
    intro rec ih st n r hr hist hS hn hm
    split at hr
    · cases hr; exact ⟨hist, .refl hS, hm⟩
    · obtain ⟨h1, a, hi⟩ := Onward.cloneNode hS (t := t) hn o f
      split at hr
      · cases hr
        exact ⟨h1, a, hm.later a⟩
      · simp only [Option.bind_eq_bind] at hr
        obtain ⟨es, h2, hr⟩ := Option.bind_eq_some_iff.1 hr
        have hm1 : MapOk t h1 (st.2.set n (st.1.tryCloneNode o t n f).2.1) := by
          intro k x hk
          rw [AMap.get_set] at hk
          split at hk
          · cases hk; exact hi
          · exact (hm.later a) k x hk
        have hes : ∀ e ∈ es, (st.1.tryCloneNode o t n f).1.E s e := by
          have c := a.runs.full s
          have h2 : ((st.1.tryCloneNode o t n f).1.view s).nodeEdges n .outgoing = some es := h2
          exact EdgeMap.enum_in c.sl1 (c.maps n ((a.grow s n).1 hn)).2 h2
        have loop : ∀ (es : List Nat) (A : (World × AMap Nat Nat) × Bool) {hA : List (Nat × Option Op)}, SurvivedAll A.1.1 hA →
            (∀ e ∈ es, A.1.1.E s e) → MapOk t hA A.1.2 →
            es.foldlM (fun (a : (World × AMap Nat Nat) × Bool) e =>
              if a.2 = true then pure a else (rec a.1 (a.1.1.heap.eTo e)).bind (fun b =>
                if b.2 = true then pure b else (b.1.1.tryCopyEdge o e t f b.1.2).bind (fun r => pure ((r.1, b.1.2), r.2.2)))) A = some r →
            ∃ h2, Onward t A.1.1 hA r.1.1 h2 ∧ MapOk t h2 r.1.2 := by
          intro es
          induction es with
          | nil => intro A hA hS _ hm h; cases h; exact ⟨hA, .refl hS, hm⟩
          | cons e es ihs =>
            intro A hA hS he hm h
            rw [List.foldlM_cons] at h
            obtain ⟨B, g1, h⟩ := Option.bind_eq_some_iff.1 h
            have step : ∃ h2, Onward t A.1.1 hA B.1.1 h2 ∧ MapOk t h2 B.1.2 := by
              split at g1
              · cases g1; exact ⟨hA, .refl hS, hm⟩
              · obtain ⟨C, g2, g1⟩ := Option.bind_eq_some_iff.1 g1
                have hto : A.1.1.N s (A.1.1.heap.eTo e) := ((hS.full s).ends e (he e (by simp))).2
                obtain ⟨h2, c, hmc⟩ := ih _ _ _ g2 hS hto hm
                split at g1
                · cases g1; exact ⟨h2, c, hmc⟩
                · obtain ⟨D, g3, g1⟩ := Option.bind_eq_some_iff.1 g1
                  cases g1
                  obtain ⟨h3, d⟩ := Onward.cloneEdge c.runs ((c.grow s e).2 (he e (by simp))) (hmc _) (hmc _) g3
                  exact ⟨h3, c.trans d, hmc.later d⟩
            obtain ⟨h2, c, hmc⟩ := step
            obtain ⟨h3, d, hmd⟩ := ihs B c.runs (fun e' h' => (c.grow s e').2 (he e' (List.mem_cons_of_mem _ h'))) hmc h
            exact ⟨h3, c.trans d, hmd⟩
        obtain ⟨h3, d, hmd⟩ := loop es _ a.runs hes hm1 hr
        exact ⟨h3, a.trans d, hmd⟩
  obtain ⟨h1, a, hm1⟩ := key _ _ _ h h0 hn hm
  obtain ⟨ext, rfl, hc⟩ := a.calls
  exact ⟨ext, a.runs, hc, hm1⟩

/-- The panicked copy of `C81_example` can be followed by any call, here by a new node of the source. -/
example : ∃ W hist W' W2 hist2, SurvivedAll W hist ∧ W.tryCopyGraph .listed 1 0 (fun _ v => v) = some (W', [], true) ∧
    W'.recoverStep .listed 1 (.newNode ["C"] []) = some (W2, false) ∧ SurvivedAll W2 hist2 := by
  obtain ⟨W, hist, W', h, hc, _⟩ := C81_example
  obtain ⟨ext, h1, _⟩ := C81_goes_on h hc
  have hv : (WSpec.runLost (hist ++ ext) 1).Valid (.newNode ["C"] []) := List.nodup_nil
  have hs : ∃ W2, W'.recoverStep .listed 1 (.newNode ["C"] []) = some (W2, false) := ⟨_, rfl⟩
  obtain ⟨W2, hs⟩ := hs
  obtain ⟨eff, _, _, h2⟩ := C80 h1 hv hs
  exact ⟨W, hist, W', W2, _, h, hc, hs, h2⟩

end LPG
