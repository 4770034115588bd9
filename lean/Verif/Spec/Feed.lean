import Verif.Model.EncodeTo
/-!
# Writing a text piece by piece
-/
namespace LPG
namespace Json

/-- Write the pieces one after the other and stop at the first error. `ok`: no error comes after the last piece. -/
def feed {ω ε : Type} (out : Writer ω ε) (ok : Bool) : List (List UInt8) → ω → ω × Option (Fail ε)
  | [], w => (w, if ok then none else some .property)
  | t :: ts, w =>
    match out w t with
    | (w, none) => feed out ok ts w
    | (w, some e) => (w, some (.write e))

/-- The writer keeps what it is given in `content`; of a piece whose writing fails it keeps a first part. -/
def Appends {ω ε : Type} (out : Writer ω ε) (content : ω → List UInt8) : Prop :=
  ∀ w t, ∃ t', content (out w t).1 = content w ++ t' ∧ t' <+: t ∧ ((out w t).2 = none → t' = t)

end Json
end LPG
