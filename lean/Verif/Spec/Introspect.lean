import Verif.Model.Introspect
/-! # Specification vocabulary for what the registry shows (C79) -/
namespace Wicked

/-- the field types a user can name -/
def namesField (s : String) (f : FieldType) : Prop := (s = "fermion" ∧ f = .fermion) ∨ (s = "boson" ∧ f = .boson)

/-- the space types a user can name -/
def namesSpace (s : String) (t : SpaceType) : Prop :=
  (s = "occupied" ∧ t = .occupied) ∨ (s = "unoccupied" ∧ t = .unoccupied) ∨ (s = "general" ∧ t = .general)

/-- what is observable of a space: label, field type, space type, index names -/
def OrbitalSpace.view (s : OrbitalSpace) : Char × FieldType × SpaceType × List Str :=
  (s.label, s.fieldType, s.spaceType, s.indices)

/-- every index name of the registry is non-empty and has no comma and no closing bracket -/
def OSI.PlainNames (o : OSI) : Prop := ∀ s ∈ o.spaces, ∀ i ∈ s.indices, i ≠ [] ∧ ',' ∉ i ∧ ']' ∉ i

/-- the call of `add_space` that a user would make to register a space with what `str` and `to_dict` show of it -/
def OrbitalSpace.asCall (s : OrbitalSpace) (ft st : String) : PyAdd := ⟨s.label, ft.toList, st.toList, s.indices, []⟩

/-- a run of Python calls of `add_space`, all of which succeed -/
def PyRuns : OSI → List PyAdd → OSI → Prop
  | o, [], o' => o' = o
  | o, a :: as, o' => (a.call o).2 = .ok () ∧ PyRuns (a.call o).1 as o'

end Wicked
