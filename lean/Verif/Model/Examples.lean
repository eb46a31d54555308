import Verif.Model.Equation
import Mathlib.Algebra.Field.Defs
import Mathlib.Data.Int.Cast.Basic
/-! # The helpers of the numerical examples (examples/numerical/examples_helpers.py, examples_helpers_spin_integrated.py) -/
namespace Wicked

/-- one line `X_anti += SIGN * np.einsum("INP->OUT", X)` (or `-=`, or without a literal) (examples_helpers.py:49-98) -/
structure TransposeLine where
  sign : Int
  inp : String
  out : String
deriving DecidableEq, Repr

section
variable {Ω S : Type} [Inhabited Ω] [CommRing S]

/-- `np.einsum("INP->OUT", X)` where `OUT` is a rearrangement of the different letters `INP`: the element `x` of the result is the
element of `X` at the values that the letters of `OUT` have at `x` (examples_helpers.py:49-98) -/
def einsumTranspose (inp out : String) (X : List Ω → S) (x : List Ω) : S :=
  X (inp.toList.map (fun c => x.getD (out.toList.idxOf c) default))

/-- the lines are executed one after the other on an array of zeros (examples_helpers.py:49-98) -/
def runTranspose (lines : List TransposeLine) (X : List Ω → S) (x : List Ω) : S :=
  lines.foldl (fun acc l => acc + (l.sign : S) * einsumTranspose l.inp l.out X x) 0

/-- `antisymmetrize_residual_2_2` (examples_helpers.py:49-56, examples_helpers_spin_integrated.py:52-59) -/
def antisym22Lines : List TransposeLine :=
  [⟨1, "ijab", "ijab"⟩, ⟨-1, "ijab", "jiab"⟩, ⟨-1, "ijab", "ijba"⟩, ⟨1, "ijab", "jiba"⟩]

/-- `antisymmetrize_residual_3_3` (examples_helpers.py:59-98, examples_helpers_spin_integrated.py:61-100) -/
def antisym33Lines : List TransposeLine :=
  [⟨1, "ijkabc", "ijkabc"⟩, ⟨-1, "ijkabc", "ijkacb"⟩, ⟨-1, "ijkabc", "ijkbac"⟩, ⟨1, "ijkabc", "ijkbca"⟩,
   ⟨1, "ijkabc", "ijkcab"⟩, ⟨-1, "ijkabc", "ijkcba"⟩, ⟨-1, "ijkabc", "ikjabc"⟩, ⟨1, "ijkabc", "ikjacb"⟩,
   ⟨1, "ijkabc", "ikjbac"⟩, ⟨-1, "ijkabc", "ikjbca"⟩, ⟨-1, "ijkabc", "ikjcab"⟩, ⟨1, "ijkabc", "ikjcba"⟩,
   ⟨-1, "ijkabc", "jikabc"⟩, ⟨1, "ijkabc", "jikacb"⟩, ⟨1, "ijkabc", "jikbac"⟩, ⟨-1, "ijkabc", "jikbca"⟩,
   ⟨-1, "ijkabc", "jikcab"⟩, ⟨1, "ijkabc", "jikcba"⟩, ⟨1, "ijkabc", "jkiabc"⟩, ⟨-1, "ijkabc", "jkiacb"⟩,
   ⟨-1, "ijkabc", "jkibac"⟩, ⟨1, "ijkabc", "jkibca"⟩, ⟨1, "ijkabc", "jkicab"⟩, ⟨-1, "ijkabc", "jkicba"⟩,
   ⟨1, "ijkabc", "kijabc"⟩, ⟨-1, "ijkabc", "kijacb"⟩, ⟨-1, "ijkabc", "kijbac"⟩, ⟨1, "ijkabc", "kijbca"⟩,
   ⟨1, "ijkabc", "kijcab"⟩, ⟨-1, "ijkabc", "kijcba"⟩, ⟨-1, "ijkabc", "kjiabc"⟩, ⟨1, "ijkabc", "kjiacb"⟩,
   ⟨1, "ijkabc", "kjibac"⟩, ⟨-1, "ijkabc", "kjibca"⟩, ⟨-1, "ijkabc", "kjicab"⟩, ⟨1, "ijkabc", "kjicba"⟩]

/-- `antisymmetrize_residual_3_3_aab` (examples_helpers_spin_integrated.py:102-109) -/
def antisymAabLines : List TransposeLine :=
  [⟨1, "ijkabc", "ijkabc"⟩, ⟨-1, "ijkabc", "ijkbac"⟩, ⟨-1, "ijkabc", "jikabc"⟩, ⟨1, "ijkabc", "jikbac"⟩]

/-- `antisymmetrize_residual_3_3_abb` (examples_helpers_spin_integrated.py:111-118) -/
def antisymAbbLines : List TransposeLine :=
  [⟨1, "ijkabc", "ijkabc"⟩, ⟨-1, "ijkabc", "ijkacb"⟩, ⟨-1, "ijkabc", "ikjabc"⟩, ⟨1, "ijkabc", "ikjacb"⟩]

/-- `antisymmetrize_residual_2_2` (examples_helpers.py:49-56) -/
def antisymmetrize22 (X : List Ω → S) : List Ω → S := runTranspose antisym22Lines X
/-- `antisymmetrize_residual_3_3` (examples_helpers.py:59-98) -/
def antisymmetrize33 (X : List Ω → S) : List Ω → S := runTranspose antisym33Lines X
/-- `antisymmetrize_residual_3_3_aab` (examples_helpers_spin_integrated.py:102-109) -/
def antisymmetrizeAab (X : List Ω → S) : List Ω → S := runTranspose antisymAabLines X
/-- `antisymmetrize_residual_3_3_abb` (examples_helpers_spin_integrated.py:111-118) -/
def antisymmetrizeAbb (X : List Ω → S) : List Ω → S := runTranspose antisymAbbLines X
end

/-! ## the generated Python functions -/

/-- the text before and after the first occurrence of `sep` (not empty) (Python's `in` and `split` in examples_helpers.py:142-145) -/
def pyPartition (sep : Str) : Str → Option (Str × Str)
  | [] => none
  | c :: s => if sep.isPrefixOf (c :: s) then some ([], (c :: s).drop sep.length) else (pyPartition sep s).map (fun p => (c :: p.1, p.2))

/-- `s.split(sep)`; the first argument bounds the number of rounds (examples_helpers.py:142-145) -/
def pySplitAux : Nat → Str → Str → List Str
  | 0, _, s => [s]
  | n + 1, sep, s =>
    match pyPartition sep s with
    | none => [s]
    | some p => p.1 :: pySplitAux n sep p.2

/-- `s.split(sep)` of Python (examples_helpers.py:142-145, examples_helpers_spin_integrated.py:5-8) -/
def pySplit (sep s : Str) : List Str := pySplitAux (s.length + 1) sep s

/-- four spaces (examples_helpers.py:8-20) -/
def indent : Str := "    ".toList

/-- the part that both versions of `generate_equation` have in common (examples_helpers.py:6-23,
examples_helpers_spin_integrated.py:5-22); `mbeq` is a dictionary, `mbeq[key]` raises `KeyError` if the key is absent, `eq.compile("einsum")` is
`compileEinsum` with the printer `fmt` of coefficients -/
def generateFunction (o : OSI) (fmt : Rational → Str) (mbeq : List (Str × List Equation)) (name resSym key : Str) (nocc nvir : Nat) : Res Str :=
  match mbeq.find? (fun p => decide (p.1 = key)) with
  | none => throw .throw
  | some (_, eqs) => do
    let lines ← eqs.mapM (m := Except Fault) (fun q => q.compileEinsum o fmt)
    return join ['\n'] (["def ".toList ++ name ++ "(H,T):".toList, indent ++ "# contributions to the residual".toList] ++
      [indent ++ if nocc + nvir = 0 then "R = 0.0".toList
        else resSym ++ " = np.zeros((".toList ++ join [','] (List.replicate nocc "nocc".toList ++ List.replicate nvir "nvir".toList) ++ "))".toList] ++
      lines.map (fun l => indent ++ l) ++ [indent ++ "return ".toList ++ resSym])

/-- `generate_equation(mbeq, nocc, nvir)` (examples_helpers.py:4-23), for `nocc, nvir >= 0` -/
def generateEquation (o : OSI) (fmt : Rational → Str) (mbeq : List (Str × List Equation)) (nocc nvir : Nat) : Res Str :=
  generateFunction o fmt mbeq ("evaluate_residual_".toList ++ natStr nocc ++ "_".toList ++ natStr nvir)
    ('R' :: (List.replicate nocc 'o' ++ List.replicate nvir 'v')) (List.replicate nocc 'o' ++ '|' :: List.replicate nvir 'v') nocc nvir

/-- `generate_equation(mbeq, nocc, nvir, space)` (examples_helpers_spin_integrated.py:3-22); `space.split('|')[1]` raises `IndexError` if there is no bar -/
def generateEquationSpace (o : OSI) (fmt : Rational → Str) (mbeq : List (Str × List Equation)) (nocc nvir : Nat) (space : Str) : Res Str :=
  match pySplit ['|'] space with
  | a :: b :: _ => generateFunction o fmt mbeq ("evaluate_residual_".toList ++ (a ++ b.reverse)) ('R' :: (a ++ b.reverse)) space nocc nvir
  | _ => throw .throw

/-- one round of the loop of `get_index_blocks` (examples_helpers.py:142-145): the block added for a line; `split(...)[1]` raises
`IndexError` if `H["` does not occur -/
def lineBlock (line : Str) : Res (Option Str) :=
  if (pyPartition "np.einsum".toList line).isSome && (pyPartition "H[".toList line).isSome then
    match pySplit "H[\"".toList line with
    | _ :: x :: _ => pure (some ((pySplit "\"]".toList x).headD []))
    | _ => throw .throw
  else pure none

/-- `get_index_blocks(func)` (examples_helpers.py:133-147, examples_helpers_spin_integrated.py:158-172); the set is a list in the order of insertion -/
def getIndexBlocks (func : Str) : Res (List Str) :=
  (pySplit ['\n'] func).foldlM (fun blocks line => do
    match ← lineBlock line with
    | none => return blocks
    | some b => return if b ∈ blocks then blocks else blocks ++ [b]) []


/-! ## denominators and amplitudes -/

/-- a numpy array: the lengths of its axes and its elements (examples_helpers.py:101-131) -/
structure NdArray (S : Type) where
  shape : List Nat
  elem : List Nat → S

section
variable {S : Type} [DivisionRing S]

/-- a dictionary of arrays, `D[key]`: `KeyError` if the key is absent (examples_helpers.py:42-46, 105-106) -/
def getArray (D : List (Str × NdArray S)) (key : Str) : Res (NdArray S) :=
  match D.find? (fun p => decide (p.1 = key)) with
  | none => throw .throw
  | some p => pure p.2

/-- `D[key] = X` (examples_helpers.py:42-46, 111-126) -/
def setArray (D : List (Str × NdArray S)) (key : Str) (X : NdArray S) : List (Str × NdArray S) :=
  if D.any (fun p => decide (p.1 = key)) then D.map (fun p => if p.1 = key then (key, X) else p) else D ++ [(key, X)]

/-- `np.diag(X)` of a matrix (of an array with another number of axes: not modelled, an error) (examples_helpers.py:105-106) -/
def npDiag (X : NdArray S) : Res (NdArray S) :=
  match X.shape with
  | [m, n] => pure ⟨[min m n], fun idx => X.elem [idx.headD 0, idx.headD 0]⟩
  | _ => throw .throw

/-- `v.reshape(-1, 1, ..., 1)` with `k` ones (examples_helpers.py:111-126) -/
def npColumn (k : Nat) (v : NdArray S) : NdArray S := ⟨v.shape.headD 0 :: List.replicate k 1, fun idx => v.elem [idx.headD 0]⟩

/-- the common shape of two arrays, lengths in reverse order: missing axes and axes of length one are stretched (numpy broadcasting in examples_helpers.py:111-126) -/
def npShape : List Nat → List Nat → Option (List Nat)
  | [], l => some l
  | l, [] => some l
  | a :: l, b :: l' =>
    if a = b then (npShape l l').map (a :: ·)
    else if a = 1 then (npShape l l').map (b :: ·)
    else if b = 1 then (npShape l l').map (a :: ·)
    else none

/-- the element of a stretched array at `idx` is the element of the array at this place (numpy broadcasting in examples_helpers.py:111-126) -/
def npProject (shape idx : List Nat) : List Nat := (shape.zip (idx.drop (idx.length - shape.length))).map (fun p => if p.1 = 1 then 0 else p.2)

/-- an elementwise operation with broadcasting (examples_helpers.py:111-126) -/
def npZip (op : S → S → S) (X Y : NdArray S) : Res (NdArray S) :=
  match npShape X.shape.reverse Y.shape.reverse with
  | none => throw .throw
  | some l => pure ⟨l.reverse, fun idx => op (X.elem (npProject X.shape idx)) (Y.elem (npProject Y.shape idx))⟩

/-- `1.0 / X` (exact arithmetic; a zero is not divided by) (examples_helpers.py:111-119) -/
def npInv (X : NdArray S) : NdArray S := ⟨X.shape, fun idx => (X.elem idx)⁻¹⟩

/-- `fo.reshape(-1, 1) - fv` (examples_helpers.py:111) -/
def denominator1 (fo fv : NdArray S) : Res (NdArray S) := npZip (· - ·) (npColumn 1 fo) fv

/-- examples_helpers.py:114-116 -/
def denominator2 (fo fv : NdArray S) : Res (NdArray S) := do
  let x ← npZip (· + ·) (npColumn 3 fo) (npColumn 2 fo)
  let x ← npZip (· - ·) x (npColumn 1 fv)
  npZip (· - ·) x fv

/-- examples_helpers.py:119-126 -/
def denominator3 (fo fv : NdArray S) : Res (NdArray S) := do
  let x ← npZip (· + ·) (npColumn 5 fo) (npColumn 4 fo)
  let x ← npZip (· + ·) x (npColumn 3 fo)
  let x ← npZip (· - ·) x (npColumn 2 fv)
  let x ← npZip (· - ·) x (npColumn 1 fv)
  npZip (· - ·) x fv

/-- `compute_inverse_denominators(H, nocc, nvir, rank)` (examples_helpers.py:101-131); the parameters `nocc` and `nvir` are not used -/
def inverseDenominators (H : List (Str × NdArray S)) (rank : Int) : Res (List (Str × NdArray S)) := do
  let fo ← npDiag (← getArray H "oo".toList)
  let fv ← npDiag (← getArray H "vv".toList)
  let D : List (Str × NdArray S) := []
  let D ← if rank ≥ 1 then do pure (setArray D "ov".toList (npInv (← denominator1 fo fv))) else pure D
  let D ← if rank ≥ 2 then do pure (setArray D "oovv".toList (npInv (← denominator2 fo fv))) else pure D
  let D ← if rank ≥ 3 then do pure (setArray D "ooovvv".toList (npInv (← denominator3 fo fv))) else pure D
  if rank > 3 then throw .throw
  return D

/-- `compute_inverse_denominators` of the spin-integrated examples (examples_helpers_spin_integrated.py:120-156) -/
def inverseDenominatorsSpin (H : List (Str × NdArray S)) (rank : Int) : Res (List (Str × NdArray S)) := do
  let fo ← npDiag (← getArray H "oo".toList)
  let fv ← npDiag (← getArray H "vv".toList)
  let D : List (Str × NdArray S) := []
  let D ← if rank ≥ 1 then do
      let X := npInv (← denominator1 fo fv)
      pure (setArray (setArray D "ov".toList X) "OV".toList X)
    else pure D
  let D ← if rank ≥ 2 then do
      let X := npInv (← denominator2 fo fv)
      pure (setArray (setArray (setArray D "oovv".toList X) "OOVV".toList X) "oOvV".toList X)
    else pure D
  let D ← if rank ≥ 3 then do
      let X := npInv (← denominator3 fo fv)
      pure (setArray (setArray (setArray (setArray D "ooovvv".toList X) "OOOVVV".toList X) "ooOvvV".toList X) "oOOvVV".toList X)
    else pure D
  if rank > 3 then throw .throw
  return D

/-- `T[key] += np.einsum("x,x->x", R[key], invD[key])`: elementwise products; the axes must have the same lengths (numpy also stretches axes of length one: not modelled, an
error) (examples_helpers.py:42-46) -/
def updateBlock (T R invD : List (Str × NdArray S)) (key : Str) : Res (List (Str × NdArray S)) := do
  let t ← getArray T key
  let r ← getArray R key
  let d ← getArray invD key
  if r.shape = d.shape ∧ t.shape = r.shape then
    return setArray T key ⟨t.shape, fun idx => t.elem idx + r.elem idx * d.elem idx⟩
  else throw .throw

/-- `update_cc_amplitudes(T, R, invD, rank)` (examples_helpers.py:26-46): the blocks in the order of the source -/
def updateAmplitudes (T R invD : List (Str × NdArray S)) (rank : Int) : Res (List (Str × NdArray S)) := do
  let T ← if rank ≥ 1 then updateBlock T R invD "ov".toList else pure T
  let T ← if rank ≥ 2 then updateBlock T R invD "oovv".toList else pure T
  if rank ≥ 3 then updateBlock T R invD "ooovvv".toList else pure T

/-- `update_cc_amplitudes` of the spin-integrated examples (examples_helpers_spin_integrated.py:24-50) -/
def updateAmplitudesSpin (T R invD : List (Str × NdArray S)) (rank : Int) : Res (List (Str × NdArray S)) := do
  let T ← if rank ≥ 1 then ["ov".toList, "OV".toList].foldlM (fun T key => updateBlock T R invD key) T else pure T
  let T ← if rank ≥ 2 then ["oovv".toList, "OOVV".toList, "oOvV".toList].foldlM (fun T key => updateBlock T R invD key) T else pure T
  if rank ≥ 3 then ["ooovvv".toList, "OOOVVV".toList, "ooOvvV".toList, "oOOvVV".toList].foldlM (fun T key => updateBlock T R invD key) T else pure T
end

end Wicked
