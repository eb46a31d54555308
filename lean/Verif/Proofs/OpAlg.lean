import Verif.Spec.OpAlg
import Verif.Proofs.Lin
import Verif.Proofs.TermOrder
import Mathlib.Algebra.MonoidAlgebra.Defs
import Mathlib.Algebra.FreeMonoid.Basic
import Mathlib.Tactic.NoncommRing
import Mathlib.Algebra.Algebra.Basic
import Mathlib.Algebra.MonoidAlgebra.Basic
/-! Operator expressions as elements of the free associative algebra on the operators -/
namespace Wicked
open CppLt CppEq Rational Lin

noncomputable section

theorem wordVal_congr (a b : OperatorProduct) (h : eqv a b = true) : wordVal a = wordVal b := by
  rw [eqv_eq] at h; rw [h]

theorem coeff_opVal {e : OpExpr} (h : Lin.Ok e) (w : OperatorProduct) :
    (opVal e).coeff (FreeMonoid.ofList w) = Lin.coef e w := by
  classical
  rw [coef_eq_sum h, opVal, eval]
  clear h
  induction e with
  | nil => simp
  | cons p e ih =>
    simp only [List.map_cons, List.sum_cons, MonoidAlgebra.coeff_add, Finsupp.add_apply]
    erw [ih]
    congr 1
    rw [MonoidAlgebra.coeff_smul_apply, wordVal, MonoidAlgebra.coeff_single_apply]
    by_cases hw : p.1 = w
    · simp [hw, eqv_refl]
    · have h1 : ¬ FreeMonoid.ofList p.1 = FreeMonoid.ofList w := fun h => hw (FreeMonoid.ofList.injective h)
      have h2 : ¬ eqv p.1 w = true := by rw [eqv_eq]; exact hw
      simp [h1, h2]

theorem opVal_ext {e f : OpExpr} (h : Lin.Ok e) (h' : Lin.Ok f) :
    opVal e = opVal f ↔ ∀ w, coef e w = coef f w := by
  constructor
  · intro he w; rw [← coeff_opVal h, ← coeff_opVal h', he]
  · intro hc
    ext w
    have := hc (FreeMonoid.toList w)
    rw [← coeff_opVal h, ← coeff_opVal h'] at this
    simpa using this

/-- `==` of operator expressions is equality in the free algebra -/
theorem isEqual_opVal {e f : OpExpr} (h : Lin.WF e) (h' : Lin.WF f) :
    Lin.isEqual e f = true ↔ opVal e = opVal f := by
  rw [isEqual_iff h h', opVal_ext h.toOk h'.toOk]

theorem opVal_nil : opVal [] = 0 := rfl

theorem opVal_add {e : OpExpr} (h : Lin.Ok e) (w : OperatorProduct) {c : Rational} (hc : Canon c) :
    opVal (Lin.add e w c) = opVal e + toRat c • wordVal w := eval_add _ wordVal_congr h w hc

theorem opVal_plus {e f : OpExpr} (h : Lin.Ok e) (h' : Lin.Ok f) : opVal (OpExpr.plus e f) = opVal e + opVal f :=
  eval_fold_add wordVal wordVal_congr f Prod.fst Prod.snd (fun p hp => h'.canon p hp) e h

theorem opVal_minus {e f : OpExpr} (h : Lin.Ok e) (h' : Lin.Ok f) : opVal (OpExpr.minus e f) = opVal e - opVal f := by
  refine (eval_fold_add wordVal wordVal_congr f Prod.fst (fun p => Rational.neg p.2) (fun p hp => canon_neg (h'.canon p hp)) e h).trans ?_
  rw [sub_eq_add_neg]
  congr 1
  rw [opVal, eval]
  clear h'
  induction f with
  | nil => simp
  | cons p f ih => rw [List.map_cons, List.sum_cons, ih, List.map_cons, List.sum_cons, neg_add, toRat_neg, neg_smul]

theorem opVal_neg {e : OpExpr} (h : Lin.Ok e) : opVal (Lin.neg e) = - opVal e := by
  have := opVal_minus (ok_nil (κ := OperatorProduct)) h
  rw [opVal_nil, zero_sub] at this
  exact this

theorem opVal_smul (e : OpExpr) (c : Rational) : opVal (Lin.smul e c) = toRat c • opVal e := by
  unfold opVal eval Lin.smul
  induction e with
  | nil => simp
  | cons p e ih =>
    simp only [List.map_cons, List.sum_cons, ih, smul_add, toRat_mul]
    rw [mul_comm, mul_smul]

theorem wordVal_mul (u v : OperatorProduct) : wordVal (u ++ v) = wordVal u * wordVal v := by
  rw [wordVal, wordVal, wordVal, MonoidAlgebra.single_mul_single, mul_one]; rfl

theorem sum_flatMap' {α β M : Type _} [AddCommMonoid M] (l : List α) (g : α → List β) (f : β → M) :
    ((l.flatMap g).map f).sum = (l.map (fun a => ((g a).map f).sum)).sum := by
  induction l with
  | nil => simp
  | cons a l ih => simp [ih]

theorem opVal_mul {e f : OpExpr} (h : Lin.Ok e) (h' : Lin.Ok f) : opVal (OpExpr.mul e f) = opVal e * opVal f := by
  unfold OpExpr.mul
  rw [mul_eq_fold]
  refine (eval_fold_add wordVal wordVal_congr _ (fun b : (OperatorProduct × Rational) × (OperatorProduct × Rational) => OperatorProduct.mul b.1.1 b.2.1)
    (fun b => Rational.mul b.1.2 b.2.2) ?_ [] ok_nil).trans ?_
  · intro b hb
    obtain ⟨p, hp, hb⟩ := List.mem_flatMap.1 hb
    obtain ⟨q, hq, rfl⟩ := List.mem_map.1 hb
    exact canon_mul (h.canon p hp) (h'.canon q hq)
  · rw [eval_nil, zero_add, sum_flatMap']
    simp only [List.map_map, Function.comp_def, toRat_mul, OperatorProduct.mul, wordVal_mul]
    unfold opVal eval
    rw [← List.sum_map_mul_right]
    congr 1
    apply List.map_congr_left
    intro p _
    rw [← List.sum_map_mul_left]
    congr 1
    apply List.map_congr_left
    intro q _
    rw [smul_mul_smul_comm]

end
end Wicked
