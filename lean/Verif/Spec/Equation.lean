import Verif.Model.Equation
/-! # Specification vocabulary for many-body equations -/
namespace Wicked

/-- number of creation (`cre = true`) or annihilation operators of space `s` in a term -/
def opCount (t : STerm) (cre : Bool) (s : Nat) : Nat :=
  t.ops.countP (fun a => decide (a.isCre = cre) && decide (a.index.space = (s : Int)))

/-- every label of a space repeated as often as `n` says, in the order of the registry -/
def repeatLabels (o : OSI) (n : Nat → Nat) : Str :=
  o.spaces.zipIdx.flatMap (fun p => List.replicate (n p.2) p.1.label)

/-- the key of a term: the spaces of its annihilation operators, a bar, and the spaces of its creation
operators in reverse order -/
def manybodyKey (o : OSI) (t : STerm) : Str :=
  repeatLabels o (opCount t false) ++ '|' :: (repeatLabels o (opCount t true)).reverse

/-- the equation of the term `c t`: on the left a tensor with the indices of the creation operators below and
those of the annihilation operators, in reverse order, above; on the right the tensors of `t` and the factor `c` -/
def manybodyEquation (label : Str) (t : STerm) (c : Rational) : Equation :=
  ⟨⟨false, [], [⟨label, (t.ops.filter (·.isCre)).map (·.index), ((t.ops.filter (fun a => !a.isCre)).map (·.index)).reverse,
    .antisymmetric, false⟩]⟩, ⟨false, [], t.tensors⟩, c⟩

/-- all operators of the term belong to registered spaces -/
def OpsRegistered (o : OSI) (t : STerm) : Prop := ∀ a ∈ t.ops, 0 ≤ a.index.space ∧ a.index.space < o.numSpaces

end Wicked

namespace Wicked

/-- all index occurrences of an equation with left-hand-side tensor `t`, in the order upper, lower -/
def einsumIndices (t : Tensor) (q : Equation) : List Index :=
  q.rhs.tensors.flatMap (fun x => x.upper ++ x.lower) ++ (t.upper ++ t.lower)

/-- the labels of the spaces of the upper and lower indices of a tensor -/
def spaceText (o : OSI) (t : Tensor) : Str :=
  (t.upper ++ t.lower).map (fun i => ((o.spaces[i.space.toNat]?).map (·.label)).getD ' ')

/-- the line of Python that `compile("einsum")` produces, given the letter of every index -/
def einsumText (o : OSI) (fmt : Rational → Str) (letter : Index → Char) (t : Tensor) (q : Equation) : Str :=
  t.label ++ spaceText o t ++ " += ".toList ++ fmt q.factor ++ " * np.einsum(".toList ++
    join ",".toList
      (("\"".toList ++ join ",".toList (q.rhs.tensors.map (fun x => (x.upper ++ x.lower).map letter)) ++ "->".toList ++
        (t.upper ++ t.lower).map letter ++ "\"".toList) ::
        q.rhs.tensors.map (fun x => x.label ++ "[\"".toList ++ spaceText o x ++ "\"]".toList)) ++
    ",optimize=\"optimal\")".toList

end Wicked
