import Verif.Model.Equation
/-! # `compile_einsum` of wicked/utils.py -/
namespace Wicked

/-- `d.get(k)` for a Python dictionary whose latest assignments come first (utils.py:66-73) -/
def dictGet {κ ν : Type} [DecidableEq κ] (m : List (κ × ν)) (k : κ) : Option ν :=
  (m.find? (fun p => decide (p.1 = k))).map Prod.snd

/-- state of the allocation of letters: `index_dict` and `unused_indices` (utils.py:78-79), two Python dictionaries, the
latter from the one-character label of a space to the list of its names that have not been used -/
structure PyLetters where
  dict : List (Str × Str)
  unused : List (Char × List Str)

/-- `OrbitalSpaceInfo::to_dict` (orbital_space.cc:114-120): the names of the indices of every space. Simplified: the entries are in the
order of registration; the function itself is `OSI.toMap` (Model/Introspect), with the same entries (`C79_to_dict_python`) -/
def OSI.toDict (o : OSI) : List (Char × List Str) := o.spaces.map (fun s => (s.label, s.indices))

/-- the body of the loop of `_get_unique_tensor_indices` (utils.py:66-73). An entry that is missing or the empty string (`index_dict.get(i)` is
false) is replaced by the first unused name of the space; `KeyError` and `IndexError` (`pop` from an empty list) are exceptions. -/
def pyLetter (o : OSI) (i : Index) (st : PyLetters) : Res (Str × PyLetters) := do
  let name ← i.str o
  match dictGet st.dict name with
  | some (c :: s) => return (c :: s, st)
  | _ =>
    match name with
    | [] => throw .throw
    | l :: _ =>
      match dictGet st.unused l with
      | some (x :: xs) => return (x, ⟨(name, x) :: st.dict, (l, xs) :: st.unused⟩)
      | _ => throw .throw

/-- `_get_unique_tensor_indices` (utils.py:64-75) for a list of indices -/
def pyIndices (o : OSI) : List Index → PyLetters → Res (Str × PyLetters)
  | [], st => .ok ([], st)
  | i :: l, st => do
    let r ← pyLetter o i st
    let r' ← pyIndices o l r.2
    return (r.1 ++ r'.1, r'.2)

/-- `LABEL["SPACES"],` for one tensor (utils.py:89): the first characters of the names of the indices -/
def pyArg (o : OSI) (t : Tensor) : Res Str := do
  let u ← (t.upper ++ t.lower).mapM (m := Except Fault) (fun i => do
    let s ← i.str o
    match s with
    | [] => throw Fault.throw
    | c :: _ => return c)
  return t.label ++ "[\"".toList ++ u ++ "\"],".toList

/-- the loop over the tensors on the right (utils.py:88-91): the arguments, the subscripts -/
def pyTensors (o : OSI) : List Tensor → PyLetters → Res (Str × Str × PyLetters)
  | [], st => .ok ([], [], st)
  | t :: l, st => do
    let a ← pyArg o t
    let r ← pyIndices o (t.upper ++ t.lower) st
    let r' ← pyTensors o l r.2
    return (a ++ r'.1, r.1 ++ [','] ++ r'.2.1, r'.2.2)

/-- `compile_einsum` (utils.py:58-110).  The decimal printing of the factor (`{float(factor):+.8f}`) is the parameter `fmt`.
For a left-hand side with indices, utils.py:99 calls a method of `Tensor` on the list `rhs.tensors()`: an `AttributeError` (an
`IndexError` in line 97 if the list is empty; line 98 calls `osi.label`). -/
def compileEinsumPy (o : OSI) (fmt : Rational → Str) (q : Equation) : Res Str := do
  let r ← pyTensors o q.rhs.tensors ⟨[], o.toDict⟩
  let indexString := r.2.1.dropLast ++ "->".toList
  let labels := r.1 ++ "optimize='optimal')".toList
  match q.lhs.tensors with
  | [] => throw .throw
  | t :: _ =>
    if t.upper ≠ [] ∨ t.lower ≠ [] then
      if q.rhs.tensors = [] then throw .throw
      else
        let _ ← spaceLabels o t
        throw .throw
    else
      return t.label ++ [' '] ++ "+= ".toList ++ fmt q.factor ++ " * np.einsum('".toList ++ indexString ++ "', ".toList ++ labels

end Wicked
