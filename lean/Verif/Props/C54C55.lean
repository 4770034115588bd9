import Verif.Model.SetJson
import Verif.Proofs.JsonText
import Verif.Props.C19
/-!
# C54: sets of strings survive JSON. C55: interning does not change strings
-/
namespace LPG
open Json

/-- The text is JSON for the set `P`: null for the empty set, or an array of its members, where null stands for the empty
string. -/
def Denotes (ts : List Tok) (P : String → Prop) : Prop :=
  (ts = text .null ∧ ∀ x, ¬ P x) ∨
  ∃ vs, ts = text (.arr vs) ∧ (∀ v ∈ vs, v = .null ∨ ∃ s, v = .str s) ∧ ∀ x, P x ↔ (.str x ∈ vs ∨ x = "" ∧ .null ∈ vs)

theorem readAll_eq {ts : List Tok} {v : JVal} : readAll ts = some v ↔ ts = text v := by
  unfold readAll
  constructor
  · intro h
    split at h
    · rename_i v' h'
      cases h
      have := readValue_sound h'
      rwa [List.append_nil] at this
    · cases h
  · rintro rfl
    have := readValue_text v (2 * (text v).length) [] (Nat.le_refl _)
    rw [List.append_nil] at this
    rw [this]

theorem toAll_strs : ∀ {vs : List JVal} {arr : List String}, toAll (toStr "") vs = some arr →
    (∀ v ∈ vs, v = .null ∨ ∃ s, v = .str s) ∧ ∀ x, x ∈ arr ↔ (.str x ∈ vs ∨ x = "" ∧ .null ∈ vs)
  | [], arr, h => by
    simp only [toAll, Option.some.injEq] at h
    subst h
    simp
  | v :: vs, arr, h => by
    simp only [toAll] at h
    split at h
    · rename_i x xs h1 h2
      cases h
      obtain ⟨a, b⟩ := toAll_strs h2
      cases v <;> simp only [toStr, Option.some.injEq, reduceCtorEq] at h1
      · subst h1
        refine ⟨by simpa using a, fun y => ?_⟩
        rw [List.mem_cons, b]
        simp only [List.mem_cons, reduceCtorEq, false_or, true_or, and_true]
        grind
      · subst h1
        refine ⟨by simpa using a, fun y => ?_⟩
        rw [List.mem_cons, b]
        simp only [List.mem_cons, reduceCtorEq, false_or, JVal.str.injEq]
        grind
    · cases h

theorem toAll_total : ∀ {vs : List JVal}, (∀ v ∈ vs, v = .null ∨ ∃ s, v = .str s) → ∃ arr, toAll (toStr "") vs = some arr
  | [], _ => ⟨[], rfl⟩
  | v :: vs, h => by
    obtain ⟨arr, ha⟩ := toAll_total (fun w hw => h w (List.mem_cons_of_mem _ hw))
    rcases h v (List.mem_cons_self ..) with rfl | ⟨s, rfl⟩
    · exact ⟨"" :: arr, by simp [toAll, ha, toStr]⟩
    · exact ⟨s :: arr, by simp [toAll, ha, toStr]⟩

theorem read_denotes {ts : List Tok} {arr : List String} (h : (readAll ts).bind (toSlice (toStr "")) = some arr) :
    Denotes ts (fun x => x ∈ arr) := by
  obtain ⟨v, h1, h2⟩ := Option.bind_eq_some_iff.1 h
  rw [readAll_eq] at h1
  cases v <;> simp only [toSlice, Option.some.injEq, reduceCtorEq] at h2
  · subst h2
    exact Or.inl ⟨h1, by simp⟩
  · obtain ⟨a, b⟩ := toAll_strs h2
    exact Or.inr ⟨_, h1, a, b⟩

theorem denotes_read {ts : List Tok} {P : String → Prop} (h : Denotes ts P) :
    ∃ arr, (readAll ts).bind (toSlice (toStr "")) = some arr ∧ ∀ x, x ∈ arr ↔ P x := by
  rcases h with ⟨rfl, h⟩ | ⟨vs, rfl, h1, h2⟩
  · rw [readAll_eq.2 rfl]
    exact ⟨[], rfl, by simpa using h⟩
  · rw [readAll_eq.2 rfl]
    obtain ⟨arr, ha⟩ := toAll_total h1
    exact ⟨arr, ha, fun x => by rw [h2]; exact (toAll_strs ha).2 x⟩

/-- `UnmarshalJSON` on the variable `w`. -/
def SSState.unmarshal (s : SSState) (w : Nat) (ts : List Tok) : SSState × Bool :=
  let r := s.heap.unmarshalJSON (s.vars w) ts
  ({ heap := r.1, vars := upd s.vars w r.2.1 }, r.2.2)

theorem SSRep.foldl (ops : List SSOp) : ∀ {s : SSState} {σ : SSSpec}, SSRep s σ →
    SSRep (ops.foldl SSState.step s) (ops.foldl SSSpec.step σ) := by
  induction ops with
  | nil => intro s σ h; exact h
  | cons op ops ih => intro s σ h; exact ih (h.step op)

theorem SSRep.unmarshal {s : SSState} {σ : SSSpec} (h : SSRep s σ) (w : Nat) {ts : List Tok} {P : String → Prop}
    (hd : Denotes ts P) : (s.unmarshal w ts).2 = true ∧ SSRep (s.unmarshal w ts).1 (upd σ w P) := by
  obtain ⟨arr, h1, h2⟩ := denotes_read hd
  unfold SSState.unmarshal SHeap.unmarshalJSON
  rw [h1]
  refine ⟨rfl, ?_⟩
  obtain ⟨a1, a2, a3, a4⟩ := s.heap.fill arr
  exact h.fresh w _ P a1 (fun x => (a2 x).trans (h2 x)) a3 a4

/-- `UnmarshalJSON` of any text after any operations on sets: if the text is JSON for a set, the receiver becomes that set, and
all variables hold the right sets ever after; otherwise there is an error and nothing changes. -/
theorem C54_read (ops : List SSOp) (w : Nat) (ts : List Tok) :
    (∀ P, Denotes ts P → ((SSState.run ops).unmarshal w ts).2 = true ∧
      ∀ (ops' : List SSOp) (v : Nat), let s := ops'.foldl SSState.step ((SSState.run ops).unmarshal w ts).1
        (s.heap.slice (s.vars v)).Nodup ∧
        ∀ x, x ∈ s.heap.slice (s.vars v) ↔ ops'.foldl SSSpec.step (upd (SSSpec.run ops) w P) v x) ∧
    ((¬ ∃ P, Denotes ts P) → ((SSState.run ops).unmarshal w ts).2 = false ∧
      ∀ v, (((SSState.run ops).unmarshal w ts).1.vars v = (SSState.run ops).vars v ∧
        ((SSState.run ops).unmarshal w ts).1.heap = (SSState.run ops).heap)) := by
  constructor
  · intro P hd
    obtain ⟨h1, h2⟩ := (SSRep.run ops).unmarshal w hd
    exact ⟨h1, fun ops' v => ⟨(SSRep.foldl ops' h2).nodup v, (SSRep.foldl ops' h2).mem v⟩⟩
  · intro hn
    have : (readAll ts).bind (toSlice (toStr "")) = none := by
      cases h : (readAll ts).bind (toSlice (toStr "")) with
      | none => rfl
      | some arr => exact absurd ⟨_, read_denotes h⟩ hn
    unfold SSState.unmarshal SHeap.unmarshalJSON
    rw [this]
    refine ⟨rfl, fun v => ⟨?_, rfl⟩⟩
    dsimp only
    rw [upd_apply]
    split
    · rename_i h; rw [h]
    · rfl

/-- A set that is written with `MarshalJSON` and read with `UnmarshalJSON`, into any variable, is the same set, and the two are
independent. -/
theorem C54_roundtrip (ops : List SSOp) (v w : Nat) :
    let s := SSState.run ops
    let t := s.heap.marshalJSON (s.vars v)
    Denotes t (SSSpec.run ops v) ∧ (s.unmarshal w t).2 = true ∧
    ∀ (ops' : List SSOp) (u : Nat), let s' := ops'.foldl SSState.step (s.unmarshal w t).1
      (s'.heap.slice (s'.vars u)).Nodup ∧
      ∀ x, x ∈ s'.heap.slice (s'.vars u) ↔ ops'.foldl SSSpec.step (upd (SSSpec.run ops) w (SSSpec.run ops v)) u x := by
  have hd : Denotes ((SSState.run ops).heap.marshalJSON ((SSState.run ops).vars v)) (SSSpec.run ops v) := by
    refine Or.inr ⟨_, rfl, fun x hx => ?_, fun x => ?_⟩
    · obtain ⟨y, _, rfl⟩ := List.mem_map.1 hx
      exact Or.inr ⟨y, rfl⟩
    · rw [← (SSRep.run ops).mem v x]
      simp only [List.mem_map, JVal.str.injEq, exists_eq_right, reduceCtorEq, and_false, exists_false, or_false]
      rfl
  obtain ⟨h1, h2⟩ := (C54_read ops w _).1 _ hd
  exact ⟨hd, h1, h2⟩

example : let s := SSState.run ssDemo
    s.heap.marshalJSON (s.vars 1) = [.lbrack, .str "b", .comma, .str "a", .comma, .str "c", .rbrack] ∧
    (let u := (s.unmarshal 3 [.lbrack, .str "b", .comma, .null, .rbrack]).1; u.heap.slice (u.vars 3) = ["b", ""]) ∧
    (s.unmarshal 3 [.lbrack, .num 1, .rbrack]).2 = false := by decide +kernel

/-! ## C55 -/

/-- The map of an interner that only `Intern` has written to, or that the caller has filled in the same way. -/
def Interned (i : AMap String String) : Prop := ∀ s k, i.get s = some k → k = s

theorem intern_spec {i : AMap String String} (h : Interned i) (s : String) : (intern i s).2 = s ∧ Interned (intern i s).1 ∧
    ∀ x, ((intern i s).1.get x).isSome ↔ (i.get x).isSome ∨ x = s := by
  unfold intern
  cases hg : i.get s with
  | some k =>
    refine ⟨h s k hg, h, fun x => ⟨Or.inl, ?_⟩⟩
    rintro (hx | rfl)
    · exact hx
    · simp [hg]
  | none =>
    refine ⟨rfl, fun x k hx => ?_, fun x => ?_⟩
    · rw [AMap.get_set] at hx
      split at hx
      · rename_i e; cases hx; exact e.symm
      · exact h x k hx
    · dsimp only
      rw [AMap.get_set]
      split
      · rename_i e; simp [e]
      · rename_i e; simp [show ¬ x = s from fun h' => e h']

/-- Any calls of `Intern` return the strings that they are given, and the map then holds these and what it held before. -/
theorem C55 (ss : List String) : ∀ (i : AMap String String), Interned i →
    (internAll i ss).2 = ss ∧ Interned (internAll i ss).1 ∧
    ∀ x, ((internAll i ss).1.get x).isSome ↔ (i.get x).isSome ∨ x ∈ ss := by
  induction ss with
  | nil => intro i h; exact ⟨rfl, h, fun x => by simp [internAll]⟩
  | cons s ss ih =>
    intro i h
    obtain ⟨h1, h2, h3⟩ := intern_spec h s
    obtain ⟨g1, g2, g3⟩ := ih _ h2
    refine ⟨?_, g2, fun x => ?_⟩
    · show (intern i s).2 :: (internAll (intern i s).1 ss).2 = _
      rw [h1, g1]
    · show ((internAll (intern i s).1 ss).1.get x).isSome ↔ _
      rw [g3, h3, List.mem_cons, or_assoc]

example : Interned [("a", "a")] ∧ internAll [("a", "a")] ["b", "a", "b"] = ([("a", "a"), ("b", "b")], ["b", "a", "b"]) := by
  refine ⟨fun s k h => ?_, by decide +kernel⟩
  simp only [AMap.get] at h
  split at h
  · rename_i e; cases h; exact e
  · cases h

/-- The condition is needed: the map is the caller's, who can fill it in another way. -/
example : (intern [("a", "b")] "a").2 = "b" := by decide +kernel

end LPG
