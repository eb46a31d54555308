import Verif.Model.Operator
/-! # Specification vocabulary for `op` and `gen_op` (C37, C38) -/
namespace Wicked

/-- A component such as `"v+ v+ o o"` as a sequence of letters with a mark for creation operators; the letters are
labels of registered spaces. -/
abbrev Component := List (Char × Bool)

/-- number of creation operators (`cre = true`) or annihilation operators (`cre = false`) of the component in space `s` -/
def Component.count (o : OSI) (t : Component) (cre : Bool) (s : Nat) : Int :=
  ((t.filter (fun x => x.2 == cre && decide (o.labelToSpace x.1 = .ok (s : Int)))).length : Int)

/-- the operator with the numbers of creation and annihilation operators of the component -/
def Component.operator (o : OSI) (label : Str) (t : Component) : Operator :=
  ⟨label, GraphMatrix.tab (fun s => (t.count o true s, t.count o false s))⟩

/-- all letters are labels of registered spaces -/
def Component.Registered (o : OSI) (t : Component) : Prop :=
  ∀ x ∈ t, ∃ s : Nat, s < o.spaces.length ∧ o.labelToSpace x.1 = .ok (s : Int)

/-- one second-quantized operator as written in a component: `x` or `x+` or `x^` -/
def tokenText (x : Char × Bool) (dagger : Char) : Str := if x.2 then [x.1, dagger] else [x.1]

/-- a component written with one separator character between the operators -/
def Component.text (sep dagger : Char) : Component → Str
  | [] => []
  | [x] => tokenText x dagger
  | x :: y :: t => tokenText x dagger ++ sep :: Component.text sep dagger (y :: t)

end Wicked
