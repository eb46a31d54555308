import Verif.Model.Equation
/-! # The registry as the Python API shows it (wicked/helpers/orbital_space.cc:43-70, 103-120, api/orbital_space_api.cc) -/
namespace Wicked
open CppLt CppEq

/-- `FieldType_to_str` (orbital_space.cc:11-12) -/
def FieldType.str : FieldType → Str
  | .fermion => "fermion".toList
  | .boson => "boson".toList

/-- `SpaceType_to_str` (orbital_space.cc:17-21) -/
def SpaceType.str : SpaceType → Str
  | .occupied => "occupied".toList
  | .unoccupied => "unoccupied".toList
  | .general => "general".toList

/-- `string_to_space_type` (orbital_space.cc:43-58): the first entry of the table with this text, in the order of the enum -/
def stringToSpaceType (s : Str) : Res SpaceType :=
  match [SpaceType.occupied, .unoccupied, .general].find? (fun t => eq s t.str) with
  | some t => .ok t
  | none => .error .throw

/-- `string_to_field_type` (orbital_space.cc:60-70) -/
def stringToFieldType (s : Str) : Res FieldType :=
  match [FieldType.fermion, .boson].find? (fun t => eq s t.str) with
  | some t => .ok t
  | none => .error .throw

/-- the arguments of the Python function `add_space` (api/orbital_space_api.cc:30-37) -/
structure PyAdd where
  label : Char
  fieldType : Str
  spaceType : Str
  indices : List Str
  elementary : List Char
deriving DecidableEq, Repr

/-- the Python function `add_space` (api/orbital_space_api.cc:38-41): the registry after the call, also when it raises -/
def PyAdd.call (o : OSI) (a : PyAdd) : OSI × Res Unit :=
  match stringToFieldType a.fieldType with
  | .error f => (o, .error f)
  | .ok ft =>
    match stringToSpaceType a.spaceType with
    | .error f => (o, .error f)
    | .ok st => o.addSpace a.label ft st a.indices a.elementary

/-- one entry of `OrbitalSpaceInfo::str` (orbital_space.cc:106-109) -/
def OrbitalSpace.str (s : OrbitalSpace) : Str :=
  "space label: ".toList ++ [s.label] ++ "\nfield type: ".toList ++ s.fieldType.str ++
    "\nspace type: ".toList ++ s.spaceType.str ++ "\nindices: [".toList ++ join [','] s.indices ++ [']']

/-- `OrbitalSpaceInfo::str` (orbital_space.cc:103-112) -/
def OSI.str (o : OSI) : Str := join ['\n', '\n'] (o.spaces.map OrbitalSpace.str)

/-- `OrbitalSpaceInfo::to_dict` (orbital_space.cc:114-120) -/
def OSI.toMap (o : OSI) : SMap Str (List Str) :=
  o.spaces.foldl (fun d s => d.insert [s.label] s.indices) []

end Wicked
