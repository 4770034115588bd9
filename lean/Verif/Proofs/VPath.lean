import Verif.Spec.VPath
import Verif.Proofs.Iter
import Verif.Proofs.Path
import Verif.Proofs.NodeList

namespace LPG
namespace VPath

theorem uniqueItems_eq : ∀ (seen xs : List Nat), uniqueItems seen xs = uniq seen xs
  | _, [] => rfl
  | seen, x :: xs => by
    simp only [uniqueItems, uniq, List.contains_iff_mem]
    split <;> rw [uniqueItems_eq]

theorem uniqueItems_spec (xs : List Nat) :
    (uniqueItems [] xs).Nodup ∧ ∀ x, x ∈ uniqueItems [] xs ↔ x ∈ xs := by
  rw [uniqueItems_eq, uniq_firstOccs]
  obtain ⟨a, _, c⟩ := firstOccs_spec xs
  exact ⟨a, c⟩

theorem isLoop_iff {pe : PathElement} : ∀ {q : List PathElement}, isLoop q pe = true ↔ pe.edge ∈ q.map (·.edge)
  | [] => by simp [isLoop]
  | p :: q => by
    rw [isLoop]
    split
    · rename_i h; simp [h]
    · rename_i h; rw [isLoop_iff]; simp [h]

theorem orient_oriented {g : Ends} {v : Option Nat} {e : Nat} : Oriented g v (orient g v e) := by
  unfold Oriented orient
  simp only
  split <;> simp_all

theorem oriented_unique {g : Ends} {v : Option Nat} {pe : PathElement} (h : Oriented g v pe) : pe = orient g v pe.edge := by
  have h2 := orient_oriented (g := g) (v := v) (e := pe.edge)
  obtain ⟨e, r⟩ := pe
  simp only at h h2 ⊢
  have : r = (orient g v e).reverse := by
    unfold Oriented at h h2
    simp only [show (orient g v e).edge = e from rfl] at h2
    rw [← h] at h2
    cases r <;> cases hh : (orient g v e).reverse <;> simp_all
  rw [this]; rfl

theorem orient_source {g : Ends} {d : State.Dir} {v e : Nat} (h : Leads g d e v) :
    (orient g (some v) e).getSourceNode g = v := by
  unfold orient PathElement.getSourceNode
  cases d <;> simp only [Leads] at h <;> simp only [Option.some.injEq] <;> grind

theorem runStop_append {φ α : Type} {acc : φ → α → Bool × φ} : ∀ {xs ys : List α} {st : φ},
    runStop acc st (xs ++ ys) =
      if (runStop acc st xs).1 then runStop acc (runStop acc st xs).2 ys else (false, (runStop acc st xs).2)
  | [], ys, st => by simp [runStop]
  | x :: xs, ys, st => by
    simp only [List.cons_append, runStop]
    split
    · exact runStop_append
    · simp

section
variable {s : State} {f : Nat → Bool} {d : State.Dir} {min max : Int} {nodes live : List Nat}

/-- what the search needs to know about the graph -/
structure Good (s : State) (d : State.Dir) (nodes live : List Nat) : Prop where
  adj : ∀ v ∈ nodes, ∃ es, s.nodeEdges v d = some es ∧ ∀ e, e ∈ es ↔ e ∈ live ∧ Leads s.ends d e v
  ends : ∀ e ∈ live, s.ends.src e ∈ nodes ∧ s.ends.dst e ∈ nodes

/-- `pe` can be appended to the trail `q` -/
def Next (g : Ends) (live : List Nat) (f : Nat → Bool) (d : State.Dir) (q : List PathElement) (pe : PathElement) : Prop :=
  ∃ l, q.getLast? = some l ∧ pe.edge ∈ live ∧ f pe.edge = true ∧ Leads g d pe.edge (l.getTargetNode g) ∧
    Oriented g (some (l.getTargetNode g)) pe ∧ pe.edge ∉ q.map (·.edge)

def Ext (g : Ends) (live : List Nat) (f : Nat → Bool) (d : State.Dir) : List PathElement → List PathElement → Prop
  | _, [] => True
  | q, pe :: ext => Next g live f d q pe ∧ Ext g live f d (q ++ [pe]) ext

/-- `T` are the trails that `X` describes, and `run` reports them in this order -/
def Reports (s : State) (f : Nat → Bool) (d : State.Dir) (min max : Int)
    (run : ∀ (φ : Type), Query φ → φ → Option (Bool × φ)) (X : List PathElement → Prop) : Prop :=
  ∃ T : List (List PathElement), T.Nodup ∧ (∀ es, es ∈ T ↔ X es) ∧
    ∀ (φ : Type) (acc : φ → Path → Bool × φ) (st : φ),
      run φ ⟨s, f, d, min, max, acc⟩ st = some (runStop acc st (T.map (fun es => { only := none, path := es })))

theorem last_path {g : Ends} {q : List PathElement} {l : PathElement} (h : q.getLast? = some l) :
    Path.last g { only := none, path := q } = some (l.getTargetNode g) := by
  simp [Path.last, h]

theorem target_live (hg : Good s d nodes live) {l : PathElement} (h : l.edge ∈ live) : l.getTargetNode s.ends ∈ nodes := by
  unfold PathElement.getTargetNode
  split
  · exact (hg.ends _ h).1
  · exact (hg.ends _ h).2

theorem candidates_spec (hg : Good s d nodes live) {q : List PathElement} {l : PathElement} (hl : q.getLast? = some l)
    (hq : l.edge ∈ live) : ∃ cs : List Nat, cs.Nodup ∧
      (∀ e, e ∈ cs ↔ e ∈ live ∧ f e = true ∧ Leads s.ends d e (l.getTargetNode s.ends)) ∧
      ∀ (φ : Type) (acc : φ → Path → Bool × φ), candidates ⟨s, f, d, min, max, acc⟩ { only := none, path := q } = some cs := by
  obtain ⟨es, h1, h2⟩ := hg.adj _ (target_live hg hq)
  obtain ⟨u1, u2⟩ := uniqueItems_spec (es.filter f)
  refine ⟨_, u1, fun e => ?_, fun φ acc => ?_⟩
  · rw [u2, List.mem_filter, h2]
    exact ⟨fun ⟨⟨a, b⟩, c⟩ => ⟨a, c, b⟩, fun ⟨a, b, c⟩ => ⟨⟨a, c⟩, b⟩⟩
  · unfold candidates
    simp only [last_path hl, h1]

theorem append_ok {g : Ends} {q : List PathElement} {l : PathElement} (hl : q.getLast? = some l) {e : Nat}
    (h : Leads g d e (l.getTargetNode g)) :
    Path.append g (Path.clone { only := none, path := q }) [orient g (some (l.getTargetNode g)) e] =
      .ok { only := none, path := q ++ [orient g (some (l.getTargetNode g)) e] } := by
  have h1 := last_path (g := g) hl
  have hq : q ≠ [] := by rintro rfl; cases hl
  have h0 : Path.numNodes { only := none, path := q } ≠ 0 := by
    simp only [Path.numNodes, Path.numEdges]
    have : q.length ≠ 0 := by simpa using hq
    simp [hq]
  simp only [Path.append, Path.clone, if_neg h0, h1, orient_source h]
  rw [if_neg (by simp), if_pos]
  simp [Path.linked, orient_source h]

theorem lengthOk_iff {φ : Type} {acc : φ → Path → Bool × φ} {q : List PathElement} :
    inRange ⟨s, f, d, min, max, acc⟩ { only := none, path := q } = true ↔ LengthOk min max q.length := by
  simp only [inRange, LengthOk, Path.numEdges, Bool.and_eq_true, Bool.or_eq_true]
  grind

/-- one step of the loop -/
theorem loop_cons {φ : Type} {acc : φ → Path → Bool × φ} {q : List PathElement} {l : PathElement}
    (hl : q.getLast? = some l) {e : Nat} {es : List Nat} (he : Leads s.ends d e (l.getTargetNode s.ends)) {st : φ} :
    loop ⟨s, f, d, min, max, acc⟩ { only := none, path := q } (e :: es) st =
      if e ∈ q.map (·.edge) then loop ⟨s, f, d, min, max, acc⟩ { only := none, path := q } es st
      else (recurse ⟨s, f, d, min, max, acc⟩
          { only := none, path := q ++ [orient s.ends (some (l.getTargetNode s.ends)) e] } st).bind
        (fun r => if r.1 then loop ⟨s, f, d, min, max, acc⟩ { only := none, path := q } es r.2 else some (false, r.2)) := by
  rw [loop]
  simp only [last_path hl]
  by_cases h : e ∈ q.map (·.edge)
  · rw [if_pos h, if_pos (isLoop_iff.2 h)]
  · rw [if_neg h, if_neg (fun h' => h (isLoop_iff.1 h'))]
    simp only [append_ok hl he]
    rfl

/-- the loop over a list of candidates, if the descent over each of them is right -/
theorem loop_reports {q : List PathElement} {l : PathElement} (hl : q.getLast? = some l) :
    ∀ (cs : List Nat), cs.Nodup → (∀ e ∈ cs, e ∈ live ∧ f e = true ∧ Leads s.ends d e (l.getTargetNode s.ends)) →
    (∀ e ∈ cs, e ∉ q.map (·.edge) → Reports s f d min max
      (fun φ Q st => recurse Q { only := none, path := q ++ [orient s.ends (some (l.getTargetNode s.ends)) e] } st)
      (fun es => ∃ ext, es = q ++ [orient s.ends (some (l.getTargetNode s.ends)) e] ++ ext ∧
        Ext s.ends live f d (q ++ [orient s.ends (some (l.getTargetNode s.ends)) e]) ext ∧ LengthOk min max es.length)) →
    Reports s f d min max (fun φ Q st => loop Q { only := none, path := q } cs st)
      (fun es => ∃ pe ext, pe.edge ∈ cs ∧ Next s.ends live f d q pe ∧ es = q ++ pe :: ext ∧
        Ext s.ends live f d (q ++ [pe]) ext ∧ LengthOk min max es.length)
  | [], _, _, _ => by
    refine ⟨[], List.nodup_nil, fun es => by simp, fun φ acc st => ?_⟩
    simp only
    rw [loop]; rfl
  | e :: cs, hn, hc, hr => by
    obtain ⟨hn1, hn2⟩ := List.nodup_cons.1 hn
    obtain ⟨T2, t1, t2, t3⟩ := loop_reports hl cs hn2 (fun e he => hc e (by simp [he])) (fun e he => hr e (by simp [he]))
    obtain ⟨c1, c2, c3⟩ := hc e (by simp)
    by_cases hin : e ∈ q.map (·.edge)
    · refine ⟨T2, t1, fun es => ?_, fun φ acc st => ?_⟩
      · rw [t2]
        constructor
        · rintro ⟨pe, ext, h1, h2⟩; exact ⟨pe, ext, by simp [h1], h2⟩
        · rintro ⟨pe, ext, h1, h2, h3⟩
          rcases List.mem_cons.1 h1 with h1 | h1
          · obtain ⟨_, _, _, _, _, _, hh⟩ := h2
            rw [h1] at hh; exact absurd hin hh
          · exact ⟨pe, ext, h1, h2, h3⟩
      · simp only
        rw [loop_cons hl c3, if_pos hin]
        exact t3 φ acc st
    · obtain ⟨T1, r1, r2, r3⟩ := hr e (by simp) hin
      simp only at r2 r3 t3
      refine ⟨T1 ++ T2, ?_, fun es => ?_, fun φ acc st => ?_⟩
      · rw [List.nodup_append]
        refine ⟨r1, t1, fun a ha b hb hab => ?_⟩
        subst hab
        obtain ⟨ext, h1, _⟩ := (r2 a).1 ha
        obtain ⟨pe, ext', h2, _, h3, _⟩ := (t2 a).1 hb
        rw [h1] at h3
        simp only [List.append_assoc, List.cons_append, List.nil_append, List.append_cancel_left_eq, List.cons.injEq] at h3
        rw [← h3.1] at h2
        exact hn1 h2
      · rw [List.mem_append, r2, t2]
        constructor
        · rintro (⟨ext, h1, h2, h3⟩ | ⟨pe, ext, h1, h2⟩)
          · refine ⟨orient s.ends (some (l.getTargetNode s.ends)) e, ext, by simp [orient], ?_, by simp [h1], h2, h3⟩
            exact ⟨l, hl, c1, c2, c3, orient_oriented, hin⟩
          · exact ⟨pe, ext, by simp [h1], h2⟩
        · rintro ⟨pe, ext, h1, h2, h3, h4, h5⟩
          rcases List.mem_cons.1 h1 with h1 | h1
          · left
            obtain ⟨l', hl', _, _, _, ho, _⟩ := h2
            rw [hl] at hl'; cases hl'
            have hpe := oriented_unique ho
            rw [h1] at hpe
            rw [← hpe]
            exact ⟨ext, by simp [h3], h4, h5⟩
          · exact Or.inr ⟨pe, ext, h1, h2, h3, h4, h5⟩
      · simp only
        rw [loop_cons hl c3, if_neg hin, r3, List.map_append, runStop_append]
        simp only [Option.bind_some]
        split
        · rw [t3]
        · rfl

theorem recurse_reports (hg : Good s d nodes live) : ∀ (m : Nat) (q : List PathElement), q ≠ [] →
    (∀ pe ∈ q, pe.edge ∈ live) → (q.map (·.edge)).Nodup → live.length ≤ q.length + m →
    Reports s f d min max (fun φ Q st => recurse Q { only := none, path := q } st)
      (fun es => ∃ ext, es = q ++ ext ∧ Ext s.ends live f d q ext ∧ LengthOk min max es.length) := by
  intro m
  induction m with
  | zero => ?_
  | succ m ih => ?_
  all_goals
    intro q hq hlive hnd hm
    obtain ⟨l, hl⟩ : ∃ l, q.getLast? = some l := ⟨_, List.getLast?_eq_some_getLast hq⟩
    have hll : l.edge ∈ live := hlive l (List.mem_of_getLast? hl)
    -- the descent
    have key : Reports s f d min max (fun φ Q st => descend Q { only := none, path := q } st)
        (fun es => ∃ pe ext, es = q ++ pe :: ext ∧ Ext s.ends live f d q (pe :: ext) ∧ LengthOk min max es.length) := by
      by_cases hmax : max ≠ -1 ∧ (q.length : Int) ≥ max
      · refine ⟨[], List.nodup_nil, fun es => ?_, fun φ acc st => ?_⟩
        · simp only [List.not_mem_nil, false_iff]
          rintro ⟨pe, ext, rfl, _, h⟩
          have := h.2
          simp only [List.length_append, List.length_cons] at this
          omega
        · simp only
          rw [descend, if_pos (by exact hmax)]
          rfl
      · obtain ⟨cs, k1, k2, k3⟩ := candidates_spec (f := f) (min := min) (max := max) hg hl hll
        have hL := loop_reports (s := s) (f := f) (d := d) (min := min) (max := max) (live := live) hl cs k1
          (fun e he => (k2 e).1 he) (fun e he hin => by
            have hsub : ∀ x ∈ (q.map (·.edge)) ++ [e], x ∈ live := by
              intro x hx
              rcases List.mem_append.1 hx with hx | hx
              · obtain ⟨pe, hpe, rfl⟩ := List.mem_map.1 hx
                exact hlive pe hpe
              · rw [List.mem_singleton.1 hx]; exact ((k2 e).1 he).1
            have hnd' : ((q.map (·.edge)) ++ [e]).Nodup := by
              rw [List.nodup_append]
              refine ⟨hnd, by simp, fun a ha b hb => ?_⟩
              rw [List.mem_singleton.1 hb]; rintro rfl; exact hin ha
            have hlen : q.length + 1 ≤ live.length := by
              have := (List.subperm_of_subset hnd' hsub).length_le
              simpa using this
            first
            | exact absurd hm (by omega)
            | exact ih (q ++ [orient s.ends (some (l.getTargetNode s.ends)) e]) (by simp)
                (fun pe hpe => by
                  rcases List.mem_append.1 hpe with hpe | hpe
                  · exact hlive pe hpe
                  · rw [List.mem_singleton.1 hpe]; exact ((k2 e).1 he).1)
                (by simpa [orient] using hnd') (by simp; omega))
        obtain ⟨T, t1, t2, t3⟩ := hL
        refine ⟨T, t1, fun es => ?_, fun φ acc st => ?_⟩
        · rw [t2]
          constructor
          · rintro ⟨pe, ext, h1, h2, h3, h4, h5⟩; exact ⟨pe, ext, h3, ⟨h2, h4⟩, h5⟩
          · rintro ⟨pe, ext, h3, ⟨h2, h4⟩, h5⟩
            refine ⟨pe, ext, ?_, h2, h3, h4, h5⟩
            obtain ⟨l', hl', a, b, c, _⟩ := h2
            rw [hl] at hl'; cases hl'
            exact (k2 _).2 ⟨a, b, c⟩
        · simp only at t3 ⊢
          rw [descend, if_neg (by exact hmax), k3]
          exact t3 φ acc st
    obtain ⟨T, t1, t2, t3⟩ := key
    simp only at t3
    by_cases hr : LengthOk min max q.length
    · refine ⟨q :: T, List.nodup_cons.2 ⟨fun hqT => ?_, t1⟩, fun es => ?_, fun φ acc st => ?_⟩
      · obtain ⟨pe, ext, h, _⟩ := (t2 q).1 hqT
        have := congrArg List.length h
        simp at this
      · rw [List.mem_cons, t2]
        constructor
        · rintro (rfl | ⟨pe, ext, h1, h2, h3⟩)
          · exact ⟨[], by simp, trivial, hr⟩
          · exact ⟨pe :: ext, h1, h2, h3⟩
        · rintro ⟨ext, h1, h2, h3⟩
          cases ext with
          | nil => left; simpa using h1
          | cons pe ext => exact Or.inr ⟨pe, ext, h1, h2, h3⟩
      · simp only [List.map_cons, runStop]
        rw [recurse, if_pos (lengthOk_iff.2 hr)]
        simp only [Path.clone]
        split <;> rename_i h <;> rw [h]
        · rfl
        · exact t3 φ acc _
    · refine ⟨T, t1, fun es => ?_, fun φ acc st => ?_⟩
      · rw [t2]
        constructor
        · rintro ⟨pe, ext, h1, h2, h3⟩
          exact ⟨pe :: ext, h1, h2, h3⟩
        · rintro ⟨ext, h1, h2, h3⟩
          cases ext with
          | nil => exfalso; apply hr; rw [h1] at h3; simpa using h3
          | cons pe ext => exact ⟨pe, ext, h1, h2, h3⟩
      · simp only
        rw [recurse, if_neg (fun h => hr (lengthOk_iff.1 h))]
        exact t3 φ acc st

/-- the step at position `i + 1` is right -/
def StepAt (g : Ends) (live : List Nat) (f : Nat → Bool) (d : State.Dir) (es : List PathElement) (i : Nat)
    (h : i + 1 < es.length) : Prop :=
  es[i + 1].edge ∈ live ∧ f es[i + 1].edge = true ∧
    Leads g d es[i + 1].edge (es[i].getTargetNode g) ∧ Oriented g (some (es[i].getTargetNode g)) es[i + 1]

theorem stepAt_congr {g : Ends} {es es' : List PathElement} {i : Nat} {h : i + 1 < es.length} (he : es = es')
    (hh : StepAt g live f d es i h) (h' : i + 1 < es'.length) : StepAt g live f d es' i h' := by
  subst he; exact hh

theorem ext_iff {g : Ends} : ∀ {ext q : List PathElement}, q ≠ [] → (q.map (·.edge)).Nodup →
    (Ext g live f d q ext ↔ ((q ++ ext).map (·.edge)).Nodup ∧
      ∀ i (h : i + 1 < (q ++ ext).length), q.length ≤ i + 1 → StepAt g live f d (q ++ ext) i h)
  | [], q, hq, hn => by
    simp only [Ext, List.append_nil, true_iff]
    exact ⟨hn, fun i h h' => absurd h (by omega)⟩
  | pe :: ext, q, hq, hn => by
    obtain ⟨l, hl⟩ : ∃ l, q.getLast? = some l := ⟨_, List.getLast?_eq_some_getLast hq⟩
    have hpos : 0 < q.length := List.length_pos_iff.2 hq
    have hlast : q[q.length - 1]'(by omega) = l := by
      rw [List.getLast?_eq_getElem?] at hl
      rw [List.getElem?_eq_getElem (by omega)] at hl
      exact Option.some.inj hl
    have happ : q ++ pe :: ext = (q ++ [pe]) ++ ext := by simp
    have hat : ∀ h : q.length - 1 + 1 < (q ++ pe :: ext).length, StepAt g live f d (q ++ pe :: ext) (q.length - 1) h ↔
        pe.edge ∈ live ∧ f pe.edge = true ∧ Leads g d pe.edge (l.getTargetNode g) ∧
          Oriented g (some (l.getTargetNode g)) pe := by
      intro h
      have e1 : (q ++ pe :: ext)[q.length - 1 + 1] = pe := by
        rw [List.getElem_append_right (by omega)]
        have : q.length - 1 + 1 - q.length = 0 := by omega
        simp [this]
      have e2 : (q ++ pe :: ext)[q.length - 1] = l := by
        rw [List.getElem_append_left (by omega)]
        exact hlast
      unfold StepAt
      rw [e1, e2]
    have hlen : (q ++ pe :: ext).length = q.length + ext.length + 1 := by simp; omega
    constructor
    · rintro ⟨⟨l', hl', a, b, c, dd, hin⟩, h2⟩
      rw [hl] at hl'; cases hl'
      have hn' : ((q ++ [pe]).map (·.edge)).Nodup := by
        rw [List.map_append, List.nodup_append]
        refine ⟨hn, by simp, fun x hx y hy => ?_⟩
        simp only [List.map_cons, List.map_nil, List.mem_singleton] at hy
        rw [hy]; rintro rfl; exact hin hx
      obtain ⟨k1, k2⟩ := (ext_iff (by simp) hn').1 h2
      refine ⟨by rw [happ]; exact k1, fun i h h' => ?_⟩
      by_cases hi : i = q.length - 1
      · subst hi
        exact (hat h).2 ⟨a, b, c, dd⟩
      · exact stepAt_congr happ.symm (k2 i (by rw [← happ]; exact h) (by simp; omega)) h
    · rintro ⟨k1, k2⟩
      rw [happ] at k1
      have hn' : ((q ++ [pe]).map (·.edge)).Nodup := by
        rw [List.map_append] at k1
        exact (List.nodup_append.1 k1).1
      refine ⟨?_, (ext_iff (by simp) hn').2 ⟨k1, fun i h h' => ?_⟩⟩
      · obtain ⟨a, b, c, dd⟩ := (hat (by omega)).1 (k2 (q.length - 1) (by omega) (by omega))
        refine ⟨l, hl, a, b, c, dd, fun hin => ?_⟩
        rw [List.map_append, List.nodup_append] at hn'
        exact hn'.2.2 _ hin pe.edge (by simp) rfl
      · have hh : i + 1 < (q ++ pe :: ext).length := by rw [happ]; exact h
        exact stepAt_congr happ (k2 i hh (by simp at h'; omega)) h

theorem isTrail_iff {g : Ends} {start : Option Nat} {first : List Nat} {es : List PathElement} :
    IsTrail g live f d start first es ↔
      ∃ e ∈ first, ∃ ext, es = [orient g start e] ++ ext ∧ Ext g live f d [orient g start e] ext := by
  constructor
  · rintro ⟨h1, h2, h3, h4⟩
    cases es with
    | nil => exact absurd rfl h1
    | cons pe ext =>
      obtain ⟨a, b⟩ := h3 pe rfl
      have hpe := oriented_unique b
      refine ⟨pe.edge, a, ext, by rw [← hpe]; rfl, ?_⟩
      rw [← hpe]
      exact (ext_iff (by simp) (by simp)).2 ⟨h2, fun i h _ => h4 i h⟩
  · rintro ⟨e, he, ext, rfl, hext⟩
    obtain ⟨k1, k2⟩ := (ext_iff (by simp) (by simp)).1 hext
    refine ⟨by simp, k1, fun pe hpe => ?_, fun i h => k2 i h (by simp)⟩
    simp only [List.cons_append, List.nil_append, List.head?_cons, Option.mem_def, Option.some.injEq] at hpe
    subst hpe
    exact ⟨he, orient_oriented⟩

/-- the whole search -/
theorem firstLoop_reports (hg : Good s d nodes live) (start : Option Nat) : ∀ (cs : List Nat), cs.Nodup →
    (∀ e ∈ cs, e ∈ live) →
    ∃ T : List (List PathElement), T.Nodup ∧
      (∀ es, es ∈ T ↔ IsTrail s.ends live f d start cs es ∧ LengthOk min max es.length) ∧
      ∀ (φ : Type) (acc : φ → Path → Bool × φ) (st : φ), firstLoop ⟨s, f, d, min, max, acc⟩ start cs st =
        some (runStop acc st (T.map (fun es => { only := none, path := es }))).2
  | [], _, _ => by
    refine ⟨[], List.nodup_nil, fun es => ?_, fun φ acc st => rfl⟩
    rw [isTrail_iff]; simp
  | e :: cs, hn, hc => by
    obtain ⟨hn1, hn2⟩ := List.nodup_cons.1 hn
    obtain ⟨T2, t1, t2, t3⟩ := firstLoop_reports hg start cs hn2 (fun e he => hc e (by simp [he]))
    obtain ⟨T1, r1, r2, r3⟩ := recurse_reports (f := f) (min := min) (max := max) hg live.length
      [orient s.ends start e] (by simp) (by intro pe hpe; rw [List.mem_singleton.1 hpe]; exact hc e (by simp)) (by simp)
      (by simp)
    simp only at r2 r3
    refine ⟨T1 ++ T2, ?_, fun es => ?_, fun φ acc st => ?_⟩
    · rw [List.nodup_append]
      refine ⟨r1, t1, fun a ha b hb hab => ?_⟩
      subst hab
      obtain ⟨ext, h1, _⟩ := (r2 a).1 ha
      obtain ⟨e', he', ext', h3, _⟩ := isTrail_iff.1 ((t2 a).1 hb).1
      rw [h1] at h3
      simp only [List.cons_append, List.nil_append, List.cons.injEq] at h3
      have : e = e' := congrArg PathElement.edge h3.1
      exact hn1 (this ▸ he')
    · rw [List.mem_append, r2, t2, isTrail_iff, isTrail_iff]
      constructor
      · rintro (⟨ext, h1, h2, h3⟩ | ⟨⟨e', he', h⟩, h3⟩)
        · exact ⟨⟨e, by simp, ext, h1, h2⟩, h3⟩
        · exact ⟨⟨e', by simp [he'], h⟩, h3⟩
      · rintro ⟨⟨e', he', ext, h1, h2⟩, h3⟩
        rcases List.mem_cons.1 he' with rfl | he'
        · exact Or.inl ⟨ext, h1, h2, h3⟩
        · exact Or.inr ⟨⟨e', he', ext, h1, h2⟩, h3⟩
    · rw [firstLoop]
      simp only [r3, List.map_append, runStop_append]
      cases hb : runStop acc st (T1.map (fun es => ({ only := none, path := es } : Path))) with
      | mk b st' =>
        cases b
        · simp
        · simp only [if_true]
          exact t3 φ acc st'

theorem isTrail_congr {g g' : Ends} {start : Option Nat} {first : List Nat} (hf : ∀ e ∈ first, e ∈ live)
    (h : ∀ e ∈ live, g.src e = g'.src e ∧ g.dst e = g'.dst e) {es : List PathElement} :
    IsTrail g live f d start first es ↔ IsTrail g' live f d start first es := by
  have one : ∀ {g g' : Ends}, (∀ e ∈ live, g.src e = g'.src e ∧ g.dst e = g'.dst e) →
      IsTrail g live f d start first es → IsTrail g' live f d start first es := by
    rintro g g' h ⟨h1, h2, h3, h4⟩
    have hl : ∀ i (hi : i < es.length), es[i].edge ∈ live := by
      intro i hi
      cases i with
      | zero => exact hf _ (h3 es[0] (by simp [List.head?_eq_getElem?, List.getElem?_eq_getElem hi])).1
      | succ i => exact (h4 i hi).1
    have hO : ∀ v pe, pe.edge ∈ live → Oriented g v pe → Oriented g' v pe := by
      intro v pe hpe
      obtain ⟨a, b⟩ := h _ hpe
      unfold Oriented; rw [a, b]; exact id
    have hT : ∀ pe : PathElement, pe.edge ∈ live → pe.getTargetNode g = pe.getTargetNode g' := by
      intro pe hpe
      obtain ⟨a, b⟩ := h _ hpe
      unfold PathElement.getTargetNode; rw [a, b]
    have hL : ∀ e v, e ∈ live → Leads g d e v → Leads g' d e v := by
      intro e v he
      obtain ⟨a, b⟩ := h _ he
      unfold Leads; cases d <;> simp only [a, b] <;> exact id
    refine ⟨h1, h2, fun pe hpe => ⟨(h3 pe hpe).1, hO _ _ (hf _ (h3 pe hpe).1) (h3 pe hpe).2⟩, fun i hi => ?_⟩
    obtain ⟨a, b, c, e⟩ := h4 i hi
    rw [← hT _ (hl i (by omega))]
    exact ⟨a, b, hL _ _ a c, hO _ _ a e⟩
  exact ⟨one h, one (fun e he => ⟨(h e he).1.symm, (h e he).2.symm⟩)⟩

end
end VPath
end LPG
