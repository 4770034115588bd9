import Verif.Proofs.JsonOdd
import Verif.Props.C62
/-!
# C41, C62 Unknown keys in JSON documents

`Decode` passes over the value of an unknown key by counting brackets up and everything else down. Where the count is right at
the end of the value (`Skips`), the key makes no difference; this file says so, says for which values it is right, and says what
happens if it is not: for every codec, every graph and every document of the given form, not only in examples.
`Plain ms`: the count is right for all unknown keys of `ms`.
-/
namespace LPG
open Json

/-- Which values `Decode` skips properly: values without parts, lists of them that are not empty and do not have the texts
`nodes` and `edges` in them, and all values with exactly one key or value without parts. -/
theorem C41_skips (v : JVal) :
    ((∀ vs, v ≠ .arr vs) → (∀ ms, v ≠ .obj ms) → Skips v) ∧
    (∀ vs, v = .arr vs → vs ≠ [] →
      (∀ w ∈ vs, (∀ l, w ≠ .arr l) ∧ (∀ m, w ≠ .obj m) ∧ w ≠ .str "nodes" ∧ w ≠ .str "edges") → Skips v) ∧
    (leaves v = 1 → Skips v) := by
  refine ⟨fun h1 h2 => ?_, fun vs h hne hw => h ▸ skips_list hne hw, skips_leaves⟩
  cases v with
  | arr vs => exact absurd rfl (h1 vs)
  | obj ms => exact absurd rfl (h2 ms)
  | _ => exact skips_leaves rfl

/-- A key with a value that is skipped properly makes no difference, wherever it is in the document. -/
theorem C41_skipped (c : Codec) (s : State) {ms : List (String × JVal)} (hm : Plain ms) {k : String} (h1 : k ≠ "nodes")
    (h2 : k ≠ "edges") {v : JVal} (hv : Skips v) (ms' : List (String × JVal)) (rest : List Tok) :
    decode c s (text (.obj (ms ++ (k, v) :: ms')) ++ rest) = decode c s (text (.obj (ms ++ ms')) ++ rest) := by
  refine decode_swallow (os := [(k, v)]) s hm ?_ ms' rest
  rw [skimMembers, skimText, if_pos rfl, if_neg (by rintro (rfl | rfl) <;> simp at h1 h2), Option.bind_some, hv]
  rfl

/-- a list of authors in front of a node -/
example (ms' : List (String × JVal)) (rest : List Tok) :
    decode (plain false) State.new (text (.obj ([("version", .num 2)] ++ ("authors", .arr [.str "a", .str "b", .str "c"]) :: ms')) ++ rest) =
      decode (plain false) State.new (text (.obj ([("version", .num 2)] ++ ms')) ++ rest) :=
  C41_skipped _ _ (by decide) (by decide) (by decide) (by decide) ms' rest

/-- What happens if the count comes to 0 inside the object that is the value of an unknown key, namely after the members `os`
of it: then what follows in that object, `os'`, is loaded as if it were outside, and everything after that object (the
members `after` and what follows the document) is dropped. There is no error because of that. -/
theorem C41_nested (c : Codec) (s : State) {ms : List (String × JVal)} (hm : Plain ms) {k : String} (h1 : k ≠ "nodes")
    (h2 : k ≠ "edges") {os os' : List (String × JVal)} (ho : skimMembers 2 os = some 0) (hp : Plain os')
    (after : List (String × JVal)) (rest : List Tok) :
    decode c s (text (.obj (ms ++ (k, .obj (os ++ os')) :: after)) ++ rest) = decode c s (text (.obj (ms ++ os'))) := by
  rw [members_text, members_append]
  exact decode_nested s h1 h2 hm hp ho _

/-- The case of an object with one member: everything after it is dropped. -/
theorem C41_dropped (c : Codec) (s : State) {ms : List (String × JVal)} (hm : Plain ms) {k : String} (h1 : k ≠ "nodes")
    (h2 : k ≠ "edges") (a : String) {w : JVal} (hw : Skips w) (after : List (String × JVal)) (rest : List Tok) :
    decode c s (text (.obj (ms ++ (k, .obj [(a, w)]) :: after)) ++ rest) = decode c s (text (.obj ms)) := by
  have := C41_nested c s hm h1 h2 (os := [(a, w)]) (os' := [])
    (by rw [skimMembers, skimText, if_neg (by decide), Option.bind_some, hw]; rfl) (by simp [Plain]) after rest
  rwa [List.append_nil, List.append_nil] at this

/-- `{"nodes": [...], "meta": {"version": 1}, "edges": [...]}`: the edges are dropped, whatever they are. -/
example (c : Codec) (s : State) (ns es : JVal) :
    decode c s (text (.obj [("nodes", ns), ("meta", .obj [("version", .num 1)]), ("edges", es)]) ++ []) =
      decode c s (text (.obj [("nodes", ns)])) :=
  C41_dropped c s (ms := [("nodes", ns)]) (by simp [Plain]) (by decide) (by decide) "version" (by decide) [("edges", es)] []

/-- `{"meta": {"version": 1, "nodes": [...]}}`: the nodes in the unknown key are loaded. -/
example (c : Codec) (s : State) (ns : JVal) :
    decode c s (text (.obj [("meta", .obj [("version", .num 1), ("nodes", ns)])]) ++ []) =
      decode c s (text (.obj [("nodes", ns)])) :=
  C41_nested c s (ms := []) (by simp [Plain]) (by decide) (by decide) (os := [("version", .num 1)]) (os' := [("nodes", ns)])
    (by decide) (by simp [Plain]) [] []

/-- A text that stops there is accepted too, though it is no JSON. -/
theorem C62_cut (c : Codec) (s : State) {ms : List (String × JVal)} (hm : Plain ms) {k : String} (h1 : k ≠ "nodes")
    (h2 : k ≠ "edges") (a : String) {w : JVal} (hw : Skips w) (rest : List Tok) :
    decode c s (.lbrace :: textMembers (ms ++ [(k, .obj [(a, w)])]) ++ rest) = decode c s (text (.obj ms)) := by
  have e : .lbrace :: textMembers (ms ++ [(k, .obj [(a, w)])]) ++ rest =
      .lbrace :: members true ms (fun b => member b k (.obj ([(a, w)] ++ [])) rest) := by
    have := members_append ms [(k, .obj [(a, w)])] (fun _ => rest) true
    simp only [members] at this
    rw [List.append_nil, ← this]
    cases ms with
    | nil => simp [textMembers, textMoreMembers, members, member]
    | cons p ms => simp [textMembers, members, member, ← more_members]
  rw [e, decode_nested s h1 h2 hm (by simp [Plain])
    (by rw [skimMembers, skimText, if_neg (by decide), Option.bind_some, hw]; rfl), List.append_nil]

example (c : Codec) (s : State) (ns : JVal) :
    decode c s (.lbrace :: textMembers [("nodes", ns), ("meta", .obj [("version", .num 1)])] ++ [.comma, .comma]) =
      decode c s (text (.obj [("nodes", ns)])) :=
  C62_cut c s (ms := [("nodes", ns)]) (by simp [Plain]) (by decide) (by decide) "version" (by decide) [.comma, .comma]

/-- Members through which the count is right all in all make no difference, though there may be `nodes` and `edges` among
them: these are swallowed without an error. -/
theorem C41_swallowed (c : Codec) (s : State) {ms os : List (String × JVal)} (hm : Plain ms) (ho : skimMembers 0 os = some 0)
    (ms' : List (String × JVal)) (rest : List Tok) :
    decode c s (text (.obj (ms ++ (os ++ ms'))) ++ rest) = decode c s (text (.obj (ms ++ ms')) ++ rest) :=
  decode_swallow s hm ho ms' rest

/-- `{"x": [], "nodes": [null, null]}`: without the first member it has two nodes, but it is read as the document without
members. -/
example : ((decode (plain false) State.new (text (.obj [("nodes", .arr [.null, .null])]))).map
      (fun r => (r.1, r.2.numNodes))) = some (none, 2) ∧
    ∀ (c : Codec) (s : State), decode c s (text (.obj ([] ++ ([("x", .arr []), ("nodes", .arr [.null, .null])] ++ []))) ++ []) =
      decode c s (text (.obj ([] ++ [])) ++ []) :=
  ⟨by decide +kernel, fun c s => C41_swallowed c s (by simp [Plain]) (by decide) [] []⟩

end LPG
