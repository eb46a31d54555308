import Verif.Spec.OpMake
import Verif.Model.MakeOp
/-! # Specification vocabulary for `operator_expr` (C36) -/
namespace Wicked

/-- a component written out: the operators `x` or `x+` (any second character) separated by non-empty runs of
spaces and commas, possibly followed by such a run -/
inductive Spelled : Str → Component → Prop
  | one (x : Char × Bool) (d : Char) (hx : isSep x.1 = false) (hd : isSep d = false) : Spelled (tokenText x d) [x]
  | last (x : Char × Bool) (d : Char) (sep : Str) (hx : isSep x.1 = false) (hd : isSep d = false)
      (hs : ∀ c ∈ sep, isSep c = true) : Spelled (tokenText x d ++ sep) [x]
  | cons (x : Char × Bool) (d : Char) (sep : Str) (hx : isSep x.1 = false) (hd : isSep d = false)
      (hs : ∀ c ∈ sep, isSep c = true) (hne : sep ≠ []) {s : Str} {t : Component} (h : Spelled s t) :
      Spelled (tokenText x d ++ sep ++ s) (x :: t)

/-- `T` is the operator `label` with the operators of component `l`: creation operators in the order of `l`, then
annihilation operators in the order of `l`, with the spaces that `l` names; the indices of each space are
`0, 1, ..., n - 1`, each on exactly one operator and on exactly one place of the tensor, which carries the creation
indices below and the annihilation indices, reversed, above. -/
structure IsComponentTerm (o : OSI) (label : Str) (normalOrdered : Bool) (symmetry : Symmetry) (l : Component) (C A : List Index) (T : STerm) : Prop where
  normal : T.normalOrdered = normalOrdered
  ops : T.ops = C.map (fun i => ⟨.creation, i⟩) ++ A.map (fun i => ⟨.annihilation, i⟩)
  tensors : T.tensors = [⟨label, C, A.reverse, symmetry, false⟩]
  nodup : (C ++ A).Nodup
  cre : C.map (fun i => (Except.ok i.space : Res Int)) = (l.filter (fun x => x.2)).map (fun x => o.labelToSpace x.1)
  ann : A.map (fun i => (Except.ok i.space : Res Int)) = (l.filter (fun x => !x.2)).map (fun x => o.labelToSpace x.1)
  dense : ∀ s p, (⟨s, p⟩ : Index) ∈ C ++ A ↔ 0 ≤ p ∧ p < (l.countP (fun x => decide (o.labelToSpace x.1 = .ok s)) : Int)

end Wicked
