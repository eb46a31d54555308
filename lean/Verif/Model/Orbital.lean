import Verif.Model.Basic
/-!
# The orbital space registry (wicked/helpers/orbital_space.h, orbital_space.cc)

The global `orbital_subspaces` object is an explicit value `OSI`.  The two `std::map`s are
association lists of which only membership and lookup are ever used.
-/
namespace Wicked

/-- `enum class FieldType` (orbital_space.h). -/
inductive FieldType where
  | fermion | boson
deriving DecidableEq, Repr

/-- `enum class SpaceType` (orbital_space.h). -/
inductive SpaceType where
  | occupied | unoccupied | general
deriving DecidableEq, Repr

/-- `class OrbitalSpace` (orbital_space.h:21-38). -/
structure OrbitalSpace where
  label : Char
  fieldType : FieldType
  spaceType : SpaceType
  indices : List Str
  elementary : List Int
deriving DecidableEq, Repr

/-- `class OrbitalSpaceInfo` (orbital_space.h:40-96): `space_info_`, `label_to_pos_`,
`indices_to_pos_`. -/
structure OSI where
  spaces : List OrbitalSpace
  labelPos : List (Char × Int)
  idxPos : List (Str × Int)
deriving DecidableEq, Repr

namespace OSI

/-- `OrbitalSpaceInfo::OrbitalSpaceInfo()` (orbital_space.cc:72). -/
def empty : OSI := ⟨[], [], []⟩

/-- `OrbitalSpaceInfo::reset` (orbital_space.cc:159-163). -/
def reset (_ : OSI) : OSI := ⟨[], [], []⟩

/-- `OrbitalSpaceInfo::num_spaces` (orbital_space.h:57). -/
def numSpaces (o : OSI) : Int := o.spaces.length

/-- `std::map::find` on an association list (orbital_space.cc:72-101) -/
def mapGet {κ : Type} [DecidableEq κ] (m : List (κ × Int)) (k : κ) : Option Int :=
  (m.find? (fun p => decide (p.1 = k))).map Prod.snd

/-- `OrbitalSpaceInfo::label_to_space` (orbital_space.cc:148-157). -/
def labelToSpace (o : OSI) (l : Char) : Res Int :=
  match mapGet o.labelPos l with
  | some i => .ok i
  | none => .error .throw

/-- `space_info_[pos]` (used at orbital_space.cc:122, 133, 137, 145): unchecked access. -/
def space (o : OSI) (pos : Int) : Res OrbitalSpace :=
  if 0 ≤ pos then
    match o.spaces[pos.toNat]? with
    | some s => .ok s
    | none => .error .ub
  else .error .ub

/-- `OrbitalSpaceInfo::label` (orbital_space.cc:122). -/
def label (o : OSI) (pos : Int) : Res Char := do return (← o.space pos).label

/-- `OrbitalSpaceInfo::space_type` (orbital_space.cc:132-134). -/
def spaceType (o : OSI) (pos : Int) : Res SpaceType := do return (← o.space pos).spaceType

/-- `OrbitalSpaceInfo::field_type` (orbital_space.cc:136-138). -/
def fieldType (o : OSI) (pos : Int) : Res FieldType := do return (← o.space pos).fieldType

/-- `OrbitalSpaceInfo::indices` (orbital_space.cc:144-146). -/
def indices (o : OSI) (pos : Int) : Res (List Str) := do return (← o.space pos).indices

/-- `OrbitalSpaceInfo::index_label` (orbital_space.cc:124-130).  The comparison
`idx < index_labels.size()` converts `idx` to an unsigned number, so it is false for negative
`idx`. -/
def indexLabel (o : OSI) (pos idx : Int) : Res Str := do
  let names ← o.indices pos
  if 0 ≤ idx then
    match names[idx.toNat]? with
    | some s => return s
    | none => do let l ← o.label pos; return l :: '_' :: '{' :: (intStr idx ++ ['}'])
  else do let l ← o.label pos; return l :: '_' :: '{' :: (intStr idx ++ ['}'])

/-- the loop of orbital_space.cc:86-94: registers the index names one by one, throwing at the
first one already present; returns the map as it is when the loop ends or throws. -/
def addIndices (pos : Int) : List Str → List (Str × Int) → List (Str × Int) × Res Unit
  | [], m => (m, .ok ())
  | i :: is, m =>
    match mapGet m i with
    | some _ => (m, .error .throw)
    | none => addIndices pos is ((i, pos) :: m)

/-- `OrbitalSpaceInfo::add_space` (orbital_space.cc:74-101).  Returns the registry as it is after
the call, also when the call throws. -/
def addSpace (o : OSI) (label : Char) (ft : FieldType) (st : SpaceType) (indices : List Str)
    (elementary : List Char) : OSI × Res Unit :=
  match mapGet o.labelPos label with
  | some _ => (o, .error .throw)
  | none =>
    let pos := o.numSpaces
    let o1 : OSI := { o with labelPos := (label, pos) :: o.labelPos }
    match addIndices pos indices o1.idxPos with
    | (m, .error f) => ({ o1 with idxPos := m }, .error f)
    | (m, .ok ()) =>
      let o2 : OSI := { o1 with idxPos := m }
      match elementary.mapM (m := Except Fault) o2.labelToSpace with
      | .error f => (o2, .error f)
      | .ok el => ({ o2 with spaces := o2.spaces ++ [⟨label, ft, st, indices, el⟩] }, .ok ())

end OSI

/-- the registry calls of the Python API (api/orbital_space_api.cc:24-43) -/
inductive RegOp where
  | reset
  | add (label : Char) (ft : FieldType) (st : SpaceType) (indices : List Str) (elementary : List Char)
deriving DecidableEq, Repr

/-- one call (api/orbital_space_api.cc) -/
def RegOp.step (o : OSI) : RegOp → OSI × Res Unit
  | .reset => (o.reset, .ok ())
  | .add l f s i e => o.addSpace l f s i e

/-- a history of calls; exceptions are caught by the caller and the next call is made (api/orbital_space_api.cc) -/
def runReg (o : OSI) : List RegOp → OSI
  | [] => o
  | op :: ops => runReg (op.step o).1 ops

/-- every call of the history succeeded (api/orbital_space_api.cc) -/
def allOk (o : OSI) : List RegOp → Prop
  | [] => True
  | op :: ops => (op.step o).2 = .ok () ∧ allOk (op.step o).1 ops

end Wicked
