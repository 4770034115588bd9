import Verif.Model.PlanRuns
import Verif.Proofs.Base
/-!
# A run does not depend on what earlier runs left in the processors

Two runs that agree on the results of the steps that have been run, `Alike`, report the same: a step only reads results of
steps before it.
-/
namespace LPG
namespace Pat
open VPath

/-- two runs that differ only in results outside of `D` -/
structure Alike (D : Nat → Prop) (r r' : Run) : Prop where
  res : ∀ i, D i → r.result i = r'.result i
  locals : r.locals = r'.locals
  vnode : r.vnode = r'.vnode
  out : r.out = r'.out

def OutAlike (D : Nat → Prop) : Out → Out → Prop
  | none, none => True
  | some (e, r), some (e', r') => e = e' ∧ Alike D r r'
  | _, _ => False

section
variable {D D' : Nat → Prop} {s : State} {symbols : Symbols}

theorem Alike.symm {r r' : Run} (h : Alike D r r') : Alike D r' r :=
  ⟨fun i hi => (h.res i hi).symm, h.locals.symm, h.vnode.symm, h.out.symm⟩

theorem Alike.mono {r r' : Run} (h : Alike D r r') (hd : ∀ i, D' i → D i) : Alike D' r r' :=
  ⟨fun i hi => h.res i (hd i hi), h.locals, h.vnode, h.out⟩

theorem OutAlike.symm : ∀ {o o' : Out}, OutAlike D o o' → OutAlike D o' o
  | none, none, _ => trivial
  | some _, some _, h => ⟨h.1.symm, h.2.symm⟩
  | none, some _, h => h.elim
  | some _, none, h => h.elim

theorem OutAlike.mono (hd : ∀ i, D' i → D i) : ∀ {o o' : Out}, OutAlike D o o' → OutAlike D' o o'
  | none, none, _ => trivial
  | some _, some _, h => ⟨h.1, h.2.mono hd⟩
  | none, some _, h => h.elim
  | some _, none, h => h.elim

theorem Alike.record {st : Step} {v : Res} {r r' : Run} (h : Alike D r r') :
    Alike (fun i => D i ∨ i = st.ix) (Pat.record symbols st { r with result := upd r.result st.ix (some v) })
      (Pat.record symbols st { r' with result := upd r'.result st.ix (some v) }) := by
  have e : ∀ i, (D i ∨ i = st.ix) → upd r.result st.ix (some v) i = upd r'.result st.ix (some v) i := by
    intro i hi
    by_cases hx : i = st.ix
    · rw [hx, upd_same, upd_same]
    · rw [upd_other _ _ hx, upd_other _ _ hx]
      exact h.res i (hi.resolve_right hx)
  unfold Pat.record
  split
  · exact ⟨e, h.locals, h.vnode, h.out⟩
  · split
    · exact ⟨e, h.locals, h.vnode, h.out⟩
    · refine ⟨e, ?_, h.vnode, h.out⟩
      dsimp only
      rw [h.locals, upd_same, upd_same]

theorem Alike.reset {st : Step} {r r' : Run} (h : Alike D r r') : Alike D (Pat.reset symbols st r) (Pat.reset symbols st r') := by
  unfold Pat.reset
  split
  · exact h
  · split
    · exact h
    · refine ⟨h.res, ?_, h.vnode, h.out⟩
      dsimp only
      rw [h.locals]

theorem Alike.setNode {r r' : Run} (h : Alike D r r') (n : Option Nat) : Alike D { r with vnode := n } { r' with vnode := n } :=
  ⟨h.res, h.locals, rfl, h.out⟩

/-- the continuation does not look outside of `D` -/
def Blind (D : Nat → Prop) (K K' : Run → Out) : Prop := ∀ r r', Alike D r r' → OutAlike D (K r) (K' r')

theorem Blind.forEach {α : Type} {body body' : α → Run → Out} (hb : ∀ x, Blind D (body x) (body' x)) :
    ∀ xs, Blind D (Pat.forEach body xs) (Pat.forEach body' xs)
  | [] => fun _ _ h => ⟨rfl, h⟩
  | x :: xs => fun r r' h => by
    have h1 := hb x r r' h
    rw [Pat.forEach, Pat.forEach]
    cases hr : body x r with
    | none =>
      rw [hr] at h1
      cases hr' : body' x r' with
      | none => trivial
      | some q => rw [hr'] at h1; exact h1.elim
    | some q =>
      rw [hr] at h1
      cases hr' : body' x r' with
      | none => rw [hr'] at h1; exact h1.elim
      | some q' =>
        rw [hr'] at h1
        obtain ⟨e, q⟩ := q
        obtain ⟨e', q'⟩ := q'
        obtain ⟨rfl, h2⟩ := h1
        cases e with
        | none => exact Blind.forEach hb xs _ _ h2
        | some e => exact ⟨rfl, h2⟩

theorem Blind.visit {st : Step} {next next' : Run → Out} (hn : Blind (fun i => D i ∨ i = st.ix) next next') (v : Res) :
    Blind D (Pat.visit symbols st next v) (Pat.visit symbols st next' v) := by
  intro r r' h
  have h1 := hn _ _ (h.record (symbols := symbols) (st := st) (v := v))
  unfold Pat.visit
  generalize next _ = a at h1
  generalize next' _ = a' at h1
  match a, a', h1 with
  | none, none, _ => trivial
  | some (none, q), some (none, q'), h1 => exact ⟨rfl, (h1.2.mono (fun i hi => .inl hi)).reset⟩
  | some (some e, q), some (some e', q'), h1 => exact ⟨h1.1, h1.2.mono (fun i hi => .inl hi)⟩
  | some (none, q), some (some e', q'), h1 => cases h1.1
  | some (some e, q), some (none, q'), h1 => cases h1.1

theorem visitVar_alike {st : Step} {next next' : Run → Out} (hn : Blind (fun i => D i ∨ i = st.ix) next next') {o o' : Out}
    (ho : OutAlike D o o') (p : Path) :
    (visitVar s symbols st next o p).1 = (visitVar s symbols st next' o' p).1 ∧
    OutAlike D (visitVar s symbols st next o p).2 (visitVar s symbols st next' o' p).2 := by
  match o, o', ho with
  | none, none, _ => exact ⟨rfl, trivial⟩
  | some (e, r), some (e', r'), h =>
    have h1 := hn _ _ ((h.2.record (symbols := symbols) (st := st) (v := .path p)).setNode (p.last s.ends))
    unfold visitVar
    dsimp only
    generalize next _ = a at h1
    generalize next' _ = a' at h1
    match a, a', h1 with
    | none, none, _ => exact ⟨rfl, trivial⟩
    | some (none, q), some (none, q'), h1 => exact ⟨rfl, rfl, ((h1.2.mono (fun i hi => .inl hi)).setNode none).reset⟩
    | some (some e, q), some (some e', q'), h1 => exact ⟨rfl, h1.1, h1.2.mono (fun i hi => .inl hi)⟩
    | some (none, q), some (some e', q'), h1 => cases h1.1
    | some (some e, q), some (none, q'), h1 => cases h1.1

end

/-! ## Searches with two accumulators that answer alike -/

section
variable {φ : Type} {R : φ → φ → Prop} {q : Query φ} {acc : φ → Path → Bool × φ}

theorem descend_alike (hacc : ∀ st st' p, R st st' → (q.acc st p).1 = (acc st' p).1 ∧ R (q.acc st p).2 (acc st' p).2)
    {p : Path} {st : φ} {r : Bool × φ} (h : descend q p st = some r) :
    ∀ st', R st st' → ∃ r', descend { q with acc := acc } p st' = some r' ∧ r.1 = r'.1 ∧ R r.2 r'.2 := by
  refine descend.partial_correctness q
    (fun p st r => ∀ st', R st st' → ∃ r', descend { q with acc := acc } p st' = some r' ∧ r.1 = r'.1 ∧ R r.2 r'.2)
    (fun p es st r => ∀ st', R st st' → ∃ r', loop { q with acc := acc } p es st' = some r' ∧ r.1 = r'.1 ∧ R r.2 r'.2)
    (fun p st r => ∀ st', R st st' → ∃ r', recurse { q with acc := acc } p st' = some r' ∧ r.1 = r'.1 ∧ R r.2 r'.2)
    ?_ ?_ ?_ p st r h
  · intro loop' ih p st r h st' hst
    rw [descend]
    split at h
    · rename_i hm
      cases h
      exact ⟨(true, st'), if_pos hm, rfl, hst⟩
    · rename_i hm
      rw [if_neg (by exact hm)]
      have ec : candidates { q with acc := acc } p = candidates q p := rfl
      rw [ec]
      cases hc : candidates q p with
      | none => rw [hc] at h; cases h
      | some es =>
        rw [hc] at h
        exact ih p es st r h st' hst
  · intro loop' recurse' ih1 ih2 p es st r h st' hst
    rw [loop.eq_def]
    cases es with
    | nil => cases h; exact ⟨_, rfl, rfl, hst⟩
    | cons e es =>
      dsimp only at h ⊢
      split at h
      · rename_i hl
        rw [if_pos hl]
        exact ih1 p es st r h st' hst
      · rename_i hl
        rw [if_neg hl]
        cases hp : Path.append q.s.ends p.clone [orient q.s.ends (p.last q.s.ends) e] with
        | error _ => rw [hp] at h; cases h
        | ok p' =>
          rw [hp] at h
          dsimp only at h ⊢
          obtain ⟨r1, hr1, h⟩ := Option.bind_eq_some_iff.1 h
          obtain ⟨r1', hr1', e1, hR⟩ := ih2 p' st r1 hr1 st' hst
          rw [hr1']
          show ∃ r', (if r1'.1 = true then _ else _) = _ ∧ _
          rw [← e1]
          split at h
          · rename_i ht
            rw [if_pos ht]
            exact ih1 p es _ r h _ hR
          · rename_i ht
            rw [if_neg ht]
            cases h
            exact ⟨_, rfl, rfl, hR⟩
  · intro descend' ih p st r h st' hst
    rw [recurse]
    have ei : inRange { q with acc := acc } p = inRange q p := rfl
    rw [ei]
    split at h
    · rename_i hi
      rw [if_pos hi]
      have ha := hacc st st' p.clone hst
      dsimp only
      generalize q.acc st p.clone = a at h ha
      generalize acc st' p.clone = a' at ha
      obtain ⟨b, v⟩ := a
      obtain ⟨b', v'⟩ := a'
      obtain ⟨e1, e2⟩ := ha
      dsimp only at e1 e2
      subst e1
      cases b with
      | false => cases h; exact ⟨_, rfl, rfl, e2⟩
      | true => exact ih p v r h v' e2
    · rename_i hi
      rw [if_neg hi]
      exact ih p st r h st' hst

theorem recurse_alike (hacc : ∀ st st' p, R st st' → (q.acc st p).1 = (acc st' p).1 ∧ R (q.acc st p).2 (acc st' p).2)
    {p : Path} {st : φ} {r : Bool × φ} (h : recurse q p st = some r) (st' : φ) (hst : R st st') :
    ∃ r', recurse { q with acc := acc } p st' = some r' ∧ r.1 = r'.1 ∧ R r.2 r'.2 := by
  rw [recurse] at h ⊢
  have ei : inRange { q with acc := acc } p = inRange q p := rfl
  rw [ei]
  split at h
  · rename_i hi
    rw [if_pos hi]
    have ha := hacc st st' p.clone hst
    dsimp only
    generalize q.acc st p.clone = a at h ha
    generalize acc st' p.clone = a' at ha
    obtain ⟨b, v⟩ := a
    obtain ⟨b', v'⟩ := a'
    obtain ⟨e1, e2⟩ := ha
    dsimp only at e1 e2
    subst e1
    cases b with
    | false => cases h; exact ⟨_, rfl, rfl, e2⟩
    | true => exact descend_alike hacc h v' e2
  · rename_i hi
    rw [if_neg hi]
    exact descend_alike hacc h st' hst

theorem firstLoop_alike (hacc : ∀ st st' p, R st st' → (q.acc st p).1 = (acc st' p).1 ∧ R (q.acc st p).2 (acc st' p).2)
    {n : Option Nat} : ∀ {es : List Nat} {st r : φ}, firstLoop q n es st = some r → ∀ st', R st st' →
    ∃ r', firstLoop { q with acc := acc } n es st' = some r' ∧ R r r'
  | [], _, _, h, st', hst => by cases h; exact ⟨st', rfl, hst⟩
  | e :: es, st, r, h, st', hst => by
    rw [firstLoop] at h ⊢
    cases hr : recurse q { only := none, path := [orient q.s.ends n e] } st with
    | none => rw [hr] at h; cases h
    | some w =>
      obtain ⟨r', hr', e1, hR⟩ := recurse_alike hacc hr st' hst
      have hr'' : recurse { q with acc := acc } { only := none, path := [orient q.s.ends n e] } st' = some r' := hr'
      rw [hr] at h
      dsimp only
      rw [hr'']
      obtain ⟨b, v⟩ := w
      obtain ⟨b', v'⟩ := r'
      dsimp only at e1 hR
      subst e1
      cases b with
      | false => cases h; exact ⟨_, rfl, hR⟩
      | true => exact firstLoop_alike hacc h v' hR

theorem collect_alike {acc' : φ → Path → Bool × φ} {q : Query φ}
    (hacc : ∀ st st' p, R st st' → (acc st p).1 = (acc' st' p).1 ∧ R (acc st p).2 (acc' st' p).2)
    (n : Option Nat) (es : List Nat) {st st' : φ} (hst : R st st') :
    (collectAllPaths { q with acc := acc } n es st = none ∧ collectAllPaths { q with acc := acc' } n es st' = none) ∨
    ∃ r r', collectAllPaths { q with acc := acc } n es st = some r ∧ collectAllPaths { q with acc := acc' } n es st' = some r' ∧
      R r r' := by
  unfold collectAllPaths
  cases h : firstLoop { q with acc := acc } n (uniqueItems [] es) st with
  | some r =>
    obtain ⟨r', h1, h2⟩ := firstLoop_alike (R := R) (acc := acc') (q := { q with acc := acc }) hacc h st' hst
    exact .inr ⟨r, r', rfl, h1, h2⟩
  | none =>
    refine .inl ⟨rfl, ?_⟩
    cases h' : firstLoop { q with acc := acc' } n (uniqueItems [] es) st' with
    | none => rfl
    | some r' =>
      obtain ⟨r, h1, h2⟩ := firstLoop_alike (R := fun a b => R b a) (acc := acc) (q := { q with acc := acc' })
        (fun a b p hab => ⟨(hacc b a p hab).1.symm, (hacc b a p hab).2⟩) h' st hst
      exact absurd (h.symm.trans h1) (by simp)

end

/-! ## Steps -/

section
variable {D : Nat → Prop} {s : State} {symbols : Symbols}

/-- the step reads only results in `D` -/
def Reads (D : Nat → Prop) (st : Step) : Prop :=
  match st.proc with
  | .connEdges src _ => D src
  | .connNodes src _ pn => D src ∧ ∀ j, pn = some j → D j
  | _ => True

theorem Blind.checkNode {st : Step} {next next' : Run → Out} (hn : Blind (fun i => D i ∨ i = st.ix) next next') (n : Nat) :
    Blind D (Pat.checkNode s symbols st next n) (Pat.checkNode s symbols st next' n) := by
  intro r r' h
  unfold Pat.checkNode
  split
  · rw [h.locals]
    split
    · exact ⟨rfl, h⟩
    · split
      · exact Blind.visit hn _ r r' h
      · exact ⟨rfl, h⟩
    · exact Blind.visit hn _ r r' h
  · exact ⟨rfl, h⟩

theorem Blind.step {st : Step} (hr : Reads D st) {next next' : Run → Out}
    (hn : Blind (fun i => D i ∨ i = st.ix) next next') :
    Blind D (runStep s symbols st next) (runStep s symbols st next') := by
  intro r r' h
  unfold runStep
  unfold Reads at hr
  cases hp : st.proc with
  | nodes itr =>
    dsimp only
    unfold runNodes
    rw [h.locals]
    cases st.item.isConstrainedNodes symbols r'.locals with
    | error e => exact ⟨rfl, h⟩
    | ok c =>
      cases itr with
      | none => trivial
      | some ns => exact Blind.forEach (fun n => Blind.visit hn _) _ r r' h
  | edges itr =>
    dsimp only
    unfold runEdges
    cases itr with
    | none => trivial
    | some ns => exact Blind.forEach (fun n => Blind.visit hn _) _ r r' h
  | connEdges src d =>
    rw [hp] at hr
    dsimp only at hr ⊢
    unfold runConnEdges
    rw [h.res src hr]
    cases r'.result src with
    | none => trivial
    | some v =>
      cases v with
      | path _ => trivial
      | node n =>
        dsimp only
        cases s.nodeEdgesWithAnyLabel n st.item.labels d with
        | none => trivial
        | some es =>
          dsimp only
          split
          · exact Blind.forEach (fun n => Blind.visit hn _) _ r r' h
          · have hc := collect_alike (R := OutAlike D) (acc := visitVar s symbols st next) (acc' := visitVar s symbols st next')
              (q := ⟨s, st.item.edgeOk s, d, st.item.min, st.item.max, visitVar s symbols st next⟩)
              (fun o o' p ho => visitVar_alike hn ho p) (some n) (es.filter (st.item.edgeOk s))
              (st := some (none, r)) (st' := some (none, r')) ⟨rfl, h⟩
            rcases hc with ⟨h1, h2⟩ | ⟨o, o', h1, h2, h3⟩
            · rw [h1, h2]; trivial
            · rw [h1, h2]; exact h3
  | connNodes src use pn =>
    rw [hp] at hr
    obtain ⟨hr1, hr2⟩ := hr
    dsimp only
    unfold runConnNodes
    rw [h.res src hr1]
    cases r'.result src with
    | none => trivial
    | some v =>
      cases v with
      | node _ => trivial
      | path p =>
        dsimp only
        cases p.getEdge ((p.numEdges : Int) - 1) with
        | none => trivial
        | some edge =>
          dsimp only
          rw [h.vnode]
          cases hv : r'.vnode with
          | some n =>
            dsimp only
            have h1 := Blind.checkNode (s := s) (symbols := symbols) hn n _ _ (h.setNode none)
            generalize Pat.checkNode s symbols st next n _ = a at h1
            generalize Pat.checkNode s symbols st next' n _ = a' at h1
            match a, a', h1 with
            | none, none, _ => trivial
            | some (e, q), some (e', q'), h1 => exact ⟨h1.1, h1.2.setNode _⟩
          | none =>
            dsimp only
            cases edge with
            | none => trivial
            | some e =>
              dsimp only
              have ee : endNode s use pn r e = endNode s use pn r' e := by
                unfold endNode
                cases use with
                | toNode => rfl
                | fromNode => rfl
                | anyNode =>
                  cases pn with
                  | none => rfl
                  | some j =>
                    dsimp only
                    rw [h.res j (hr2 j rfl)]
              rw [ee]
              cases endNode s use pn r' e with
              | none => trivial
              | some n => exact Blind.checkNode hn n r r' h

/-- the steps read only results in `D` or of earlier ones; at the end the steps of the plan have results -/
def ReadsAll (plan : Plan) : (Nat → Prop) → List Step → Prop
  | D, [] => ∀ st ∈ plan.steps, D st.ix
  | D, st :: sts => Reads D st ∧ ReadsAll plan (fun i => D i ∨ i = st.ix) sts

/-- two plans for the same items, from starts with other candidates -/
structure SamePlan (plan plan' : Plan) : Prop where
  steps : plan.steps.map (fun st => (st.ix, st.item)) = plan'.steps.map (fun st => (st.ix, st.item))
  forward : plan.nForward = plan'.nForward

theorem captureSymbols_same {ρ ρ' : Nat → Option Res} : ∀ {sts sts' : List Step} (ret : AMap String Res),
    sts.map (fun st => (st.ix, st.item)) = sts'.map (fun st => (st.ix, st.item)) → (∀ st ∈ sts, ρ st.ix = ρ' st.ix) →
    captureSymbols ρ sts ret = captureSymbols ρ' sts' ret
  | [], [], _, _, _ => rfl
  | [], _ :: _, _, h, _ => by cases h
  | _ :: _, [], _, h, _ => by cases h
  | st :: sts, st' :: sts', ret, h, hr => by
    simp only [List.map_cons, List.cons.injEq, Prod.mk.injEq] at h
    obtain ⟨⟨e1, e2⟩, h⟩ := h
    have ih := fun ret => captureSymbols_same (sts := sts) (sts' := sts') ret h (fun st hst => hr st (by simp [hst]))
    have e3 : ρ st.ix = ρ' st'.ix := by rw [hr st (by simp), e1]
    unfold captureSymbols
    rw [e2, e3]
    simp only [ih]

theorem Blind.store {plan plan' : Plan} (hp : SamePlan plan plan') (hd : ∀ st ∈ plan.steps, D st.ix) :
    Blind D (storeResult s plan) (storeResult s plan') := by
  intro r r' h
  have hres : ∀ st ∈ plan.steps, r.result st.ix = r'.result st.ix := fun st hst => h.res _ (hd st hst)
  have e1 : plan.steps.map (fun st => r.result st.ix) = plan'.steps.map (fun st => r'.result st.ix) := by
    rw [List.map_congr_left hres]
    have := congrArg (List.map (fun x : Nat × Item => r'.result x.1)) hp.steps
    simpa only [List.map_map, Function.comp_def] using this
  have e2 : currentPath s.ends plan r.result = currentPath s.ends plan' r'.result := by
    unfold currentPath
    rw [e1, hp.forward]
  unfold storeResult
  rw [e2]
  cases currentPath s.ends plan' r'.result with
  | none => trivial
  | some p =>
    refine ⟨rfl, h.res, h.locals, h.vnode, ?_⟩
    dsimp only
    rw [h.out, captureSymbols_same [] hp.steps hres]

theorem Blind.steps {plan plan' : Plan} (hp : SamePlan plan plan') : ∀ {sts : List Step} {D : Nat → Prop}, ReadsAll plan D sts →
    Blind D (runSteps s symbols plan sts) (runSteps s symbols plan' sts)
  | [], _, h => Blind.store hp h
  | _ :: _, _, h => Blind.step h.1 (Blind.steps hp h.2)

end

/-! ## The plans of `GetPlan` -/

theorem ReadsAll.congr {plan : Plan} : ∀ {sts : List Step} {D D' : Nat → Prop}, (∀ i, D i → D' i) → ReadsAll plan D sts →
    ReadsAll plan D' sts
  | [], _, _, hd, h => fun st hst => hd _ (h st hst)
  | st :: sts, D, D', hd, h => by
    refine ⟨?_, ReadsAll.congr (fun i hi => hi.imp (hd i) id) h.2⟩
    have h1 := h.1
    unfold Reads at h1 ⊢
    cases hp : st.proc with
    | nodes _ => trivial
    | edges _ => trivial
    | connEdges src _ => rw [hp] at h1; exact hd _ h1
    | connNodes src _ pn => rw [hp] at h1; exact ⟨hd _ h1.1, fun j hj => hd _ (h1.2 j hj)⟩

theorem backward_reads {p : Pattern} {plan : Plan} {hi : Nat} : ∀ {i : Nat} {back : List Step}, backwardSteps p i = some back →
    (i + 1 < p.length → i + 1 ≤ hi) → i ≤ hi → (∀ st ∈ plan.steps, st.ix ≤ hi) → ReadsAll plan (fun j => i ≤ j ∧ j ≤ hi) back
  | 0, back, h, _, _, hp => by
    cases h
    exact fun st hst => ⟨Nat.zero_le _, hp st hst⟩
  | i + 1, back, h, h1, h2, hp => by
    rw [backwardSteps] at h
    cases hb : backwardStep p i with
    | none => rw [hb] at h; cases h
    | some st =>
      cases hr : backwardSteps p i with
      | none => rw [hb, hr] at h; cases h
      | some rest =>
        rw [hb, hr] at h
        cases h
        have hst : st.ix = i ∧ Reads (fun j => i + 1 ≤ j ∧ j ≤ hi) st := by
          unfold backwardStep at hb
          dsimp only at hb
          split at hb
          · split at hb
            · cases hb; exact ⟨rfl, Nat.le_refl _, h2⟩
            · split at hb <;> cases hb <;> exact ⟨rfl, Nat.le_refl _, h2⟩
          · split at hb
            · cases hb; exact ⟨rfl, ⟨Nat.le_refl _, h2⟩, fun j hj => by cases hj⟩
            · split at hb
              · cases hb; exact ⟨rfl, ⟨Nat.le_refl _, h2⟩, fun j hj => by cases hj⟩
              · split at hb
                · rename_i hl
                  cases hb
                  exact ⟨rfl, ⟨Nat.le_refl _, h2⟩, fun j hj => by cases hj; exact ⟨by omega, h1 hl⟩⟩
                · cases hb
        refine ⟨hst.2, ReadsAll.congr ?_ (backward_reads hr (fun _ => h2) (by omega) hp)⟩
        intro j hj
        have := hst.1
        omega

theorem forward_reads {p : Pattern} {plan : Plan} {index : Nat} {back : List Step} : ∀ (m i : Nat), index < i →
    ReadsAll plan (fun j => index ≤ j ∧ j < i + m) back →
    ReadsAll plan (fun j => index ≤ j ∧ j < i) ((List.range' i m).map (forwardStep p index) ++ back)
  | 0, _, _, h => by simpa using h
  | m + 1, i, hi, h => by
    rw [List.range'_succ, List.map_cons, List.cons_append]
    refine ⟨?_, ReadsAll.congr ?_ (forward_reads m (i + 1) (by omega) (ReadsAll.congr ?_ h))⟩
    · unfold Reads forwardStep
      dsimp only
      split
      · rename_i src d he
        split at he
        · split at he
          · cases he; omega
          · split at he <;> cases he <;> omega
        · split at he
          · cases he
          · split at he <;> cases he
      · rename_i src u pn he
        split at he
        · split at he
          · cases he
          · split at he <;> cases he
        · split at he
          · cases he; exact ⟨by omega, fun j hj => by cases hj⟩
          · split at he
            · cases he; exact ⟨by omega, fun j hj => by cases hj⟩
            · cases he
              refine ⟨by omega, fun j hj => ?_⟩
              split at hj
              · cases hj; omega
              · cases hj
      · trivial
    · intro j hj
      have : (forwardStep p index i).ix = i := rfl
      omega
    · intro j hj
      omega

theorem backward_ix {p : Pattern} : ∀ {i : Nat} {back : List Step}, backwardSteps p i = some back → ∀ st ∈ back, st.ix < i
  | 0, _, h => by cases h; simp
  | i + 1, back, h => by
    rw [backwardSteps] at h
    cases hb : backwardStep p i with
    | none => rw [hb] at h; cases h
    | some st =>
      cases hr : backwardSteps p i with
      | none => rw [hb, hr] at h; cases h
      | some rest =>
        rw [hb, hr] at h
        cases h
        have hst : st.ix = i := by
          unfold backwardStep at hb
          dsimp only at hb
          grind
        intro st' h'
        rcases List.mem_cons.1 h' with rfl | h'
        · omega
        · have := backward_ix hr st' h'
          omega

/-- The steps after the start read the results of the start and of each other. -/
theorem plan_reads {p : Pattern} {itr : Option (List Nat)} {index : Nat} {plan : Plan} (h : planFrom p itr index = some plan) :
    ∃ sts, plan.steps = { ix := index, item := itemAt p index, proc := if index % 2 = 0 then .nodes itr else .edges itr } :: sts ∧
      ReadsAll plan (fun j => j = index) sts ∧
      ∀ itr', ∃ plan', planFrom p itr' index = some plan' ∧ SamePlan plan plan' ∧
        plan'.steps = { ix := index, item := itemAt p index, proc := if index % 2 = 0 then .nodes itr' else .edges itr' } :: sts := by
  unfold planFrom at h
  cases hb : backwardSteps p index with
  | none => rw [hb] at h; cases h
  | some back =>
    rw [hb] at h
    cases h
    refine ⟨_, rfl, ?_, fun itr' => ?_⟩
    rotate_left
    · cases h' : planFrom p itr' index with
      | none => unfold planFrom at h'; rw [hb] at h'; cases h'
      | some plan' =>
        unfold planFrom at h'
        rw [hb] at h'
        cases h'
        exact ⟨_, rfl, ⟨rfl, rfl⟩, rfl⟩
    refine ReadsAll.congr ?_ (forward_reads (p.length - (index + 1)) (index + 1) (by omega) (index := index) ?_)
    · intro j hj; omega
    · refine ReadsAll.congr ?_ (backward_reads (hi := index + (p.length - (index + 1))) hb (by omega) (by omega) ?_)
      · intro j hj; omega
      · intro st hst
        dsimp only at hst
        rcases List.mem_cons.1 hst with rfl | hst
        · dsimp only; omega
        · rcases List.mem_append.1 hst with hst | hst
          · obtain ⟨i, hi, rfl⟩ := List.mem_map.1 hst
            have := List.mem_range'_1.1 hi
            show i ≤ _
            omega
          · have := backward_ix hb st hst
            omega

end Pat
end LPG
