import Verif.Spec.Feed
import Verif.Props.C39C41
import Verif.Props.C04Always
import Verif.Proofs.Gone
/-!
# C65: Encode and the writer

`encode` (Verif.Model.Json) is what `Encode` writes when no `Write` fails; C39 and C40 are about it. Here the writer is
arbitrary.
-/
namespace LPG
namespace Json

/-- A piece of `Encode`, for all writers. -/
abbrev PPiece := {ω ε : Type} → Writer ω ε → Piece ω ε

/-- The piece writes the pieces of a fixed text, whatever the writer is. -/
def Sends (bytes : Tok → List UInt8) (p : PPiece) (o : Out) : Prop :=
  ∃ ts : List (List UInt8), ts.flatten = o.1.flatMap bytes ∧
    ∀ (ω ε : Type) (out : Writer ω ε) (w : ω), p out w = some (feed out o.2 ts w)

variable {bytes : Tok → List UInt8} {p q : PPiece} {a b : Out}

theorem feed_append {ω ε : Type} {out : Writer ω ε} {ok : Bool} {us : List (List UInt8)} : ∀ (ts : List (List UInt8)) (w : ω),
    feed out ok (ts ++ us) w =
      match feed out true ts w with
      | (w, some e) => (w, some e)
      | (w, none) => feed out ok us w
  | [], w => rfl
  | t :: ts, w => by
    simp only [List.cons_append, feed]
    cases h : out w t with
    | mk w1 e =>
      cases e with
      | none => exact feed_append ts w1
      | some e => rfl

theorem feed_failed {ω ε : Type} {out : Writer ω ε} : ∀ (ts : List (List UInt8)) (w : ω), (feed out false ts w).2 ≠ none
  | [], w => by simp [feed]
  | t :: ts, w => by
    rw [feed]
    cases h : out w t with
    | mk w1 e =>
      cases e with
      | none => exact feed_failed ts w1
      | some e => simp

theorem Sends.andThen (h : Sends bytes p a) (k : Sends bytes q b) :
    Sends bytes (fun out => (p out).andThen (q out)) (a.andThen b) := by
  obtain ⟨ts, h1, h2⟩ := h
  obtain ⟨us, k1, k2⟩ := k
  obtain ⟨at1, ok⟩ := a
  cases ok with
  | false =>
    refine ⟨ts, by simpa [Out.andThen] using h1, fun ω ε out w => ?_⟩
    have := feed_failed (out := out) ts w
    simp only [Piece.andThen, h2, Out.andThen, Bool.false_eq_true, if_false]
    cases hf : feed out false ts w with
    | mk w1 e =>
      cases e with
      | none => rw [hf] at this; exact absurd rfl this
      | some e => rfl
  | true =>
    refine ⟨ts ++ us, by simp only [Out.andThen, if_true, List.flatten_append, h1, k1, List.flatMap_append],
      fun ω ε out w => ?_⟩
    simp only [Piece.andThen, h2, Out.andThen, if_true, feed_append]
    cases hf : feed out true ts w with
    | mk w1 e =>
      cases e with
      | none => exact k2 ω ε out w1
      | some e => rfl

theorem Sends.put (ts : List Tok) : Sends bytes (fun out => put bytes out ts) (emit ts) := by
  refine ⟨[ts.flatMap bytes], by simp [emit], fun ω ε out w => ?_⟩
  simp only [Json.put, feed, emit]
  cases h : out w (ts.flatMap bytes) with
  | mk w1 e => cases e <;> rfl

theorem Sends.skip : Sends bytes (fun _ => skip) (emit []) := ⟨[], rfl, fun _ _ _ _ => rfl⟩

theorem Sends.fail : Sends bytes (fun _ => fail) ([], false) := ⟨[], rfl, fun _ _ _ _ => rfl⟩

/-- two texts written one after the other -/
theorem Sends.put2 {ts us : List Tok} (h : Sends bytes p (emit us)) :
    Sends bytes (fun out => (Json.put bytes out ts).andThen (p out)) (emit (ts ++ us)) := (Sends.put ts).andThen h

variable {c : Codec} {s : State} {nodeMap : AMap Nat Nat}

theorem encodeEdge_sends (f : Bool) (e : Nat) :
    Sends bytes (fun out => encodeEdgeTo bytes out c s nodeMap f e) (encodeEdge c s nodeMap f e) := by
  unfold encodeEdgeTo encodeEdge
  cases edgeValue c s nodeMap f e with
  | none => exact Sends.fail
  | some v => exact Sends.put _

theorem writeOutgoing_sends : ∀ (es : List Nat) (first : Bool),
    Sends bytes (fun out => writeOutgoingTo bytes out c s nodeMap first es) (writeOutgoing c s nodeMap first es)
  | [], true => Sends.skip
  | [], false => Sends.put _
  | e :: es, true =>
    (Sends.put2 (ts := [.comma]) (Sends.put2 (ts := [.str "edges", .colon]) (Sends.put [.lbrack]))).andThen
      ((encodeEdge_sends false e).andThen (writeOutgoing_sends es false))
  | e :: es, false => (Sends.put [.comma]).andThen ((encodeEdge_sends false e).andThen (writeOutgoing_sends es false))

theorem writeNode_sends {n : Nat} (ix : Nat) {es : List Nat} (he : s.nodeEdges n .outgoing = some es) :
    Sends bytes (fun out => writeNodeTo bytes out c s nodeMap n ix) (writeNode c s nodeMap n ix es) := by
  have hl : Sends bytes (fun out => writeLabelsTo bytes out s n)
      (if (s.nLabels n).length > 0 then emit (.comma :: .str "labels" :: .colon :: text (.arr ((s.nLabels n).map .str)))
        else emit []) := by
    unfold writeLabelsTo
    split
    · exact Sends.put2 (ts := [.comma]) (Sends.put2 (ts := [.str "labels", .colon]) (Sends.put _))
    · exact Sends.skip
  have hp : Sends bytes (fun out => writePropsTo bytes out c s n)
      (if (s.nProps n).length > 0 then
          Out.andThen (emit [.comma, .str "properties", .colon])
            (match marshalProperties c (s.nProps n) [] with
            | none => ([], false)
            | some m => emit (text (.obj m)))
          else emit []) := by
    unfold writePropsTo
    split
    · cases marshalProperties c (s.nProps n) [] with
      | none => exact (Sends.put [.comma]).andThen ((Sends.put [.str "properties", .colon]).andThen Sends.fail)
      | some m => exact (Sends.put [.comma]).andThen ((Sends.put [.str "properties", .colon]).andThen (Sends.put _))
    · exact Sends.skip
  have ht : Sends bytes (fun out => writeTailTo bytes out c s nodeMap n)
      (if c.separately then emit [.rbrace] else Out.andThen (writeOutgoing c s nodeMap true es) (emit [.rbrace])) := by
    unfold writeTailTo
    split
    · exact Sends.put _
    · simp only [he]
      exact (writeOutgoing_sends es true).andThen (Sends.put _)
  have := (Sends.put (bytes := bytes) [.lbrace]).andThen ((Sends.put [.str "n", .colon]).andThen ((Sends.put [.num ix]).andThen
    (hl.andThen (hp.andThen ht))))
  exact this

theorem writeNodes_sends : ∀ {xs : AMap Nat Nat} {first : Bool} {o : Out}, writeNodes c s nodeMap first xs = some o →
    Sends bytes (fun out => writeNodesTo bytes out c s nodeMap first xs) o
  | [], first, o, h => by cases h; exact Sends.skip
  | (n, ix) :: rest, first, o, h => by
    rw [writeNodes] at h
    cases he : s.nodeEdges n .outgoing with
    | none => rw [he] at h; cases h
    | some es =>
      cases hr : writeNodes c s nodeMap false rest with
      | none => rw [he, hr] at h; cases h
      | some o' =>
        rw [he, hr] at h
        cases h
        refine Sends.andThen ?_ ((writeNode_sends ix he).andThen (writeNodes_sends hr))
        cases first with
        | true => exact Sends.skip
        | false => exact Sends.put _

theorem writeEdges_sends : ∀ (es : List Nat) (first : Bool),
    Sends bytes (fun out => writeEdgesTo bytes out c s nodeMap first es) (writeEdges c s nodeMap first es)
  | [], _ => Sends.skip
  | e :: es, true => Sends.skip.andThen ((encodeEdge_sends true e).andThen (writeEdges_sends es false))
  | e :: es, false => (Sends.put [.comma]).andThen ((encodeEdge_sends true e).andThen (writeEdges_sends es false))

end Json

open Json

/-- `Encode` gives the writer the text of C39 and C40 in pieces that do not depend on the writer, stops at the first error
of the writer and returns it, and otherwise returns what it would return with a writer that does not fail. -/
theorem C65 {c : Codec} {order : AMap Nat Nat → AMap Nat Nat} {s : State} {o : Out} (h : encode c order s = some o)
    (bytes : Tok → List UInt8) : ∃ ts : List (List UInt8), ts.flatten = o.1.flatMap bytes ∧
      ∀ (ω ε : Type) (out : Writer ω ε) (w : ω), encodeTo bytes out c order s w = some (feed out o.2 ts w) := by
  unfold encode at h
  unfold encodeTo
  cases hn : s.getNodes with
  | none => rw [hn] at h; cases h
  | some ns =>
    rw [hn] at h
    simp only at h ⊢
    cases hw : writeNodes c s (number 0 ns []) true (order (number 0 ns [])) with
    | none => rw [hw] at h; cases h
    | some on =>
      cases he : (if c.separately then s.getEdges else some []) with
      | none => rw [hw, he] at h; cases h
      | some es =>
        rw [hw, he] at h
        cases h
        have h1 : Sends bytes (fun out => writeNodeArrayTo bytes out c s (number 0 ns []) order)
            (if (number 0 ns []).length > 0 then
              Out.andThen (emit [.str "nodes", .colon, .lbrack]) (Out.andThen on (emit [.rbrack])) else emit []) := by
          unfold writeNodeArrayTo
          split
          · exact (Sends.put [.str "nodes", .colon]).andThen ((Sends.put [.lbrack]).andThen
              ((writeNodes_sends hw).andThen (Sends.put _)))
          · exact Sends.skip
        have h2 : Sends bytes (fun out => writeEdgeArrayTo bytes out c s (number 0 ns []))
            (if c.separately then Out.andThen (emit [.comma, .str "edges", .colon, .lbrack])
                (Out.andThen (writeEdges c s (number 0 ns []) true es) (emit [.rbrack])) else emit []) := by
          unfold writeEdgeArrayTo
          split
          · rename_i hsep
            rw [if_pos hsep] at he
            simp only [he]
            exact (Sends.put [.comma]).andThen ((Sends.put [.str "edges", .colon]).andThen ((Sends.put [.lbrack]).andThen
              ((writeEdges_sends es true).andThen (Sends.put _))))
          · exact Sends.skip
        exact (Sends.put [.lbrace]).andThen (h1.andThen (h2.andThen (Sends.put [.rbrace])))

theorem feed_appends {ω ε : Type} {out : Writer ω ε} {content : ω → List UInt8} (ha : Appends out content) {ok : Bool} :
    ∀ (ts : List (List UInt8)) (w : ω), ∃ t', content (feed out ok ts w).1 = content w ++ t' ∧ t' <+: ts.flatten ∧
      ((feed out ok ts w).2 = none → t' = ts.flatten ∧ ok = true) ∧
      ((feed out ok ts w).2 = some .property → t' = ts.flatten ∧ ok = false)
  | [], w => ⟨[], by simp [feed], by simp, by cases ok <;> simp [feed], by cases ok <;> simp [feed]⟩
  | t :: ts, w => by
    obtain ⟨t1, h1, h2, h3⟩ := ha w t
    rw [feed]
    cases hw : out w t with
    | mk w1 e =>
      rw [hw] at h1 h3
      cases e with
      | some e =>
        refine ⟨t1, h1, ?_, by simp, by simp⟩
        rw [List.flatten_cons]
        exact h2.trans (List.prefix_append _ _)
      | none =>
        obtain ⟨t2, g1, g2, g3, g4⟩ := feed_appends ha (ok := ok) ts w1
        have e1 := h3 rfl
        subst e1
        refine ⟨t1 ++ t2, ?_, ?_, fun h => ?_, fun h => ?_⟩
        · simp only [g1, h1, List.append_assoc]
        · rw [List.flatten_cons]; exact List.prefix_append_right_inj t1 |>.2 g2
        · rw [List.flatten_cons, (g3 h).1]; exact ⟨rfl, (g3 h).2⟩
        · rw [List.flatten_cons, (g4 h).1]; exact ⟨rfl, (g4 h).2⟩

/-- `Encode` to a writer that keeps what it gets: the writer gets a first part of the text; the whole text, if `Encode`
returns no error, and then no property had an error. -/
theorem C65_prefix {c : Codec} {order : AMap Nat Nat → AMap Nat Nat} {s : State} {o : Out} (h : encode c order s = some o)
    (bytes : Tok → List UInt8) {ω ε : Type} {out : Writer ω ε} {content : ω → List UInt8} (ha : Appends out content) (w : ω) :
    ∃ w' err t, encodeTo bytes out c order s w = some (w', err) ∧ content w' = content w ++ t ∧ t <+: o.1.flatMap bytes ∧
      (err = none → t = o.1.flatMap bytes ∧ o.2 = true) ∧ (err = some .property → t = o.1.flatMap bytes ∧ o.2 = false) := by
  obtain ⟨ts, h1, h2⟩ := C65 h bytes
  obtain ⟨t, g1, g2, g3, g4⟩ := feed_appends ha (ok := o.2) ts w
  rw [← h1]
  exact ⟨_, _, t, h2 ω ε out w, g1, g2, g3, g4⟩

theorem writeNodes_some {c : Codec} {s : State} {nodeMap : AMap Nat Nat} : ∀ {xs : AMap Nat Nat} {first : Bool},
    (∀ p ∈ xs, s.nodeEdges p.1 .outgoing ≠ none) → writeNodes c s nodeMap first xs ≠ none
  | [], _, _ => by simp [writeNodes]
  | (n, ix) :: rest, first, h => by
    rw [writeNodes]
    cases he : s.nodeEdges n .outgoing with
    | none => exact absurd he (h (n, ix) (by simp))
    | some es =>
      cases hr : writeNodes c s nodeMap false rest with
      | none => exact absurd hr (writeNodes_some (fun p hp => h p (by simp [hp])))
      | some o => simp

/-- `Encode` returns after every history, with every writer (`C65`), also after those that spoil the lists of C01 and C04;
if the edges are written separately, unless `NumEdges` is 1 and the history spoils the list of C04. -/
theorem C65_returns_partial {ops : List Op} (hv : Spec.ValidHistory ops) {s : State} (hs : run ops = some s) (c : Codec)
    (hr : c.separately = true → FiledOk ops ∨ s.numEdges ≠ 1) {order : AMap Nat Nat → AMap Nat Nat}
    (ho : ∀ m, (order m).Perm m) : encode c order s ≠ none := by
  obtain ⟨ns, hN, _⟩ := C01_order_partial ops hv s hs
  have k := Core.run hv hs
  have g := Gone.init.runFrom Core.init hv hs
  obtain ⟨es, hE⟩ : ∃ es, (if c.separately then s.getEdges else some []) = some es := by
    cases hsep : c.separately with
    | false => exact ⟨[], by simp⟩
    | true =>
      rcases hr hsep with hf | hn
      · obtain ⟨_, E, hE, _⟩ := C04_filed_partial ops hv hf s hs
        exact ⟨E, by simp [hE]⟩
      · obtain ⟨⟨E, hE, _⟩, _⟩ := C04_ends_partial ops hv s hs hn
        exact ⟨E, by simp [hE]⟩
  unfold encode
  rw [hN, hE]
  cases hw : writeNodes c s (number 0 ns []) true (order (number 0 ns [])) with
  | some o => simp [hw]
  | none =>
    refine absurd hw (writeNodes_some (fun p hp => ?_))
    by_cases hp : p.1 ∈ (Spec.run ops).nodes
    · obtain ⟨es, h1, _⟩ := k.out_enum hp
      intro h2
      exact absurd (h1.symm.trans h2) (by simp)
    · have := (g p.1 hp).2
      simp [State.nodeEdges, this, EdgeMap.enum, EdgeMap.empty]

/-! ## Examples -/

/-- A writer with room for a number of bytes, which writes what fits and then fails. -/
def bounded : Writer (List UInt8 × Nat) String := fun w t =>
  if t.length ≤ w.2 then ((w.1 ++ t, w.2 - t.length), none) else ((w.1 ++ t.take w.2, 0), some "full")

example : Appends bounded Prod.fst := by
  intro w t
  unfold bounded
  by_cases h : t.length ≤ w.2
  · exact ⟨t, by simp [h], List.prefix_refl _, fun _ => rfl⟩
  · exact ⟨t.take w.2, by simp [h], List.take_prefix _ _, by simp [h]⟩

/-- two nodes and an edge; each token is one byte here -/
def encodeOps : List Op := [.newNode ["A"] [], .newNode [] [], .newEdge 0 1 "e" []]

def plainCodec : Codec := ⟨false, fun _ => .null, fun _ => .str "", none, none⟩

/-- A writer that counts the pieces and fails at one of them. -/
def failAt (k : Nat) : Writer Nat String := fun w _ => if w = k then (w, some "full") else (w + 1, none)

example : ((run encodeOps).bind (fun s => encode plainCodec id s)).map (fun o => (o.1.length, o.2)) = some (37, true) ∧
    (run encodeOps).bind (fun s => encodeTo (fun _ => [0]) (failAt 20) plainCodec id s 0) = some (20, some (.write "full")) ∧
    (run encodeOps).bind (fun s => encodeTo (fun _ => [0]) (failAt 50) plainCodec id s 0) = some (22, none) := by
  decide +kernel

end LPG
