import Verif.Props.VnoSum
import Verif.Props.MakeOp
import Verif.Props.Program
/-! # C88: products of expressions under the summation convention -/
namespace Wicked
open CppLt CppEq Rational Lin STerm Wick

section
variable {Ω R A : Type} [Inhabited Ω] [CommRing R] [Ring A] [Algebra R A]

omit [Inhabited Ω] in
theorem inst_cat (v : OrbSystem Ω R A) (σ : Index → Ω) (a b : STerm) : v.inst σ (a.cat b) = v.inst σ a * v.inst σ b := by
  unfold OrbSystem.inst
  simp only [STerm.cat, List.map_append, List.prod_append, smul_mul_smul_comm]

theorem allIdx_cat (a b : STerm) : (a.cat b).allIdx.toFinset = a.allIdx.toFinset ∪ b.allIdx.toFinset := by
  ext i
  simp only [STerm.allIdx, STerm.cat, List.map_append, List.flatMap_append, List.mem_toFinset, List.mem_append, Finset.mem_union]
  tauto

omit [Inhabited Ω] in
theorem inst_local (v : OrbSystem Ω R A) (t : STerm) (x y : Index → Ω) (h : ∀ i ∈ t.allIdx, x i = y i) : v.inst x t = v.inst y t := by
  unfold OrbSystem.inst
  have h1 : t.tensors.map (fun z => v.T z.label (z.lower.map x) (z.upper.map x)) = t.tensors.map (fun z => v.T z.label (z.lower.map y) (z.upper.map y)) := by
    apply List.map_congr_left
    intro z hz
    have hz' : ∀ i ∈ z.lower ++ z.upper, x i = y i := fun i hi => h i (List.mem_append_right _ (List.mem_flatMap.2 ⟨z, hz, hi⟩))
    rw [List.map_congr_left (fun i hi => hz' i (List.mem_append_left _ hi)), List.map_congr_left (fun i hi => hz' i (List.mem_append_right _ hi))]
  have h2 : t.ops.map (fun z => v.op z.type (x z.index)) = t.ops.map (fun z => v.op z.type (y z.index)) := by
    apply List.map_congr_left
    intro z hz
    rw [h z.index (List.mem_append_left _ (List.mem_map_of_mem hz))]
  rw [h1, h2]

theorem value_cat (v : OrbSystem Ω R A) {a b : STerm} (h : ∀ i ∈ a.allIdx, i ∉ b.allIdx) : v.value (a.cat b) = v.value a * v.value b := by
  rw [value_sumOver, value_sumOver, value_sumOver, allIdx_cat]
  simp only [inst_cat]
  apply sumOver_mul
  · rw [Finset.disjoint_left]
    intro i hi hj
    exact h i (List.mem_toFinset.1 hi) (List.mem_toFinset.1 hj)
  · intro x y hxy
    exact inst_local v a x y (fun i hi => hxy i (List.mem_toFinset.2 hi))
  · intro x y hxy
    exact inst_local v b x y (fun i hi => hxy i (List.mem_toFinset.2 hi))

variable [Algebra ℚ A]

/-- **C88**, for expressions without a common index: under the summation convention (every index of a term is summed over the
orbitals of its space) the value of `a @ b` is the product of the values of `a` and `b`, for every system of orbitals, tensor elements and
operators. -/
theorem C88_product_of_sums_partial (v : OrbSystem Ω R A) {a b c : Expr} (ha : Ok a) (hb : Ok b) (h : Expr.mul a b = .ok c)
    (hd : ∀ p ∈ a, ∀ q ∈ b, ∀ i ∈ p.1.allIdx, i ∉ q.1.allIdx) :
    Lin.eval v.value c = Lin.eval v.value a * Lin.eval v.value b := by
  rcases expr_mul_cases a b with ⟨_, h'⟩ | ⟨_, h'⟩
  · rw [h'] at h; cases h
  · rw [h'] at h; cases h
    rw [eval_mul v.value (value_congr v) STerm.cat ha hb, sum_mul_sum]
    congr 1
    apply List.map_congr_left
    intro p hp
    congr 1
    apply List.map_congr_left
    intro q hq
    rw [value_cat v (hd p hp q hq)]

/-- **C88**, together with normal ordering: if in addition the second-quantized operators satisfy the (anti)commutation relations and every index
of an operator is carried by a tensor of its term, `vacuum_normal_ordered` of `a @ b` does not raise and its value is the product of the values of `a` and `b`. -/
theorem C88_normal_ordered_product_partial [DecidableEq Ω] {v : OrbSystem Ω R A} {o : OSI} (hv : v.CCR o) {a b c : Expr} (ha : Ok a) (hb : Ok b)
    (h : Expr.mul a b = .ok c) (hd : ∀ p ∈ a, ∀ q ∈ b, ∀ i ∈ p.1.allIdx, i ∉ q.1.allIdx)
    (hra : a.OpsRegistered o) (hrb : b.OpsRegistered o) (hca : ∀ p ∈ a, p.1.Covered) (hcb : ∀ p ∈ b, p.1.Covered) :
    ∃ e, c.vacuumNormalOrdered o false = .ok e ∧ Lin.eval v.value e = Lin.eval v.value a * Lin.eval v.value b := by
  rw [← C88_product_of_sums_partial v ha hb h hd]
  rcases expr_mul_cases a b with ⟨_, h'⟩ | ⟨_, h'⟩
  · rw [h'] at h; cases h
  · rw [h'] at h; cases h
    have hk : ∀ t ∈ Lin.mul STerm.cat a b, ∃ p ∈ a, ∃ q ∈ b, t.1 = p.1.cat q.1 := by
      rw [mul_eq_fold]
      refine mem_fold_add (fun t : STerm => ∃ p ∈ a, ∃ q ∈ b, t = p.1.cat q.1) _ _ _ [] (by simp) ?_
      intro b' hb'
      obtain ⟨p, hp, hb'⟩ := List.mem_flatMap.1 hb'
      obtain ⟨q, hq, rfl⟩ := List.mem_map.1 hb'
      exact ⟨p, hp, q, hq, rfl⟩
    apply C65_summed_value_partial hv (mul_spec _ ha hb).1.toOk
    · intro t ht
      obtain ⟨p, hp, q, hq, h⟩ := hk t ht
      rw [h]
      intro x hx
      rcases List.mem_append.1 hx with hx | hx
      · exact hra p hp x hx
      · exact hrb q hq x hx
    · exact unlabelled_mul a b
    · intro t ht
      obtain ⟨p, hp, q, hq, h⟩ := hk t ht
      apply pairsCarried_of_covered
      rw [h]
      intro x hx
      rcases List.mem_append.1 hx with hx | hx
      · obtain ⟨z, hz, h2⟩ := hca p hp x hx
        exact ⟨z, List.mem_append_left _ hz, h2⟩
      · obtain ⟨z, hz, h2⟩ := hcb q hq x hx
        exact ⟨z, List.mem_append_right _ hz, h2⟩
end

/-- `operator_expr("t", ["v+"])` and `operator_expr("t", ["v"])` -/
def oneCre : Expr := [(⟨false, [⟨.creation, ⟨1, 0⟩⟩], [⟨['t'], [⟨1, 0⟩], [], .antisymmetric, false⟩]⟩, ⟨1, 1⟩)]
def oneAnn : Expr := [(⟨false, [⟨.annihilation, ⟨1, 0⟩⟩], [⟨['t'], [], [⟨1, 0⟩], .antisymmetric, false⟩]⟩, ⟨1, 1⟩)]
/-- their product: the index is the same in both factors -/
def sharedProd : Expr := [(⟨false, [⟨.creation, ⟨1, 0⟩⟩, ⟨.annihilation, ⟨1, 0⟩⟩], [⟨['t'], [⟨1, 0⟩], [], .antisymmetric, false⟩, ⟨['t'], [], [⟨1, 0⟩], .antisymmetric, false⟩]⟩, ⟨1, 1⟩)]

section
variable {Ω R A : Type} [Inhabited Ω] [CommRing R] [Ring A] [Algebra R A]

theorem value_one [DecidableEq Ω] (v : OrbSystem Ω R A) (t : STerm) (i : Index) (h : t.allIdx.toFinset = {i}) : v.value t = ∑ x ∈ v.dom i.space, v.inst (fun _ => x) t := by
  rw [value_sumOver, h, ← insert_empty_eq, sumOver_insert _ _ (by simp)]
  apply Finset.sum_congr rfl
  intro x _
  rw [sumOver_empty]
  apply inst_local
  intro j hj
  have : j ∈ t.allIdx.toFinset := List.mem_toFinset.2 hj
  rw [h, Finset.mem_singleton] at this
  subst this
  simp
end

/-- a system with two orbitals in every space -/
def jwPair : OrbSystem Bool ℚ (Matrix (Fin 4) (Fin 4) ℚ) := ⟨fun _ => Finset.univ, fun _ _ _ => 1, jwOp⟩

/-- **C88**, negation: `operator_expr` numbers the indices of every operator from 0, and `@` does not rename them. The product of `Σ_i t_i a†_i` and `Σ_i t^i a_i`
comes out as `Σ_i t_i t^i a†_i a_i`: the terms `i ≠ j` are lost. Here with two orbitals and genuine fermionic operators. -/
theorem C88_shared_indices :
    operatorExpr (runReg OSI.empty ccHistory) ['t'] ["v+".toList] false .antisymmetric ⟨1, 1⟩ = .ok oneCre ∧
    operatorExpr (runReg OSI.empty ccHistory) ['t'] ["v".toList] false .antisymmetric ⟨1, 1⟩ = .ok oneAnn ∧
    Expr.mul oneCre oneAnn = .ok sharedProd ∧ IsCAR jwPair.op ∧
    Lin.eval jwPair.value oneCre = ∑ x, jwOp .creation x ∧ Lin.eval jwPair.value oneAnn = ∑ x, jwOp .annihilation x ∧
    Lin.eval jwPair.value sharedProd = ∑ x, jwOp .creation x * jwOp .annihilation x ∧
    Lin.eval jwPair.value sharedProd ≠ Lin.eval jwPair.value oneCre * Lin.eval jwPair.value oneAnn := by
  have h1 : Lin.eval jwPair.value oneCre = ∑ x, jwOp .creation x := by
    have : toRat ⟨1, 1⟩ = 1 := by decide +kernel
    simp only [Lin.eval, oneCre, List.map_cons, List.map_nil, List.sum_cons, List.sum_nil, add_zero, this, one_smul]
    rw [value_one jwPair _ ⟨1, 0⟩ (by decide)]
    simp [jwPair, OrbSystem.inst]
  have h2 : Lin.eval jwPair.value oneAnn = ∑ x, jwOp .annihilation x := by
    have : toRat ⟨1, 1⟩ = 1 := by decide +kernel
    simp only [Lin.eval, oneAnn, List.map_cons, List.map_nil, List.sum_cons, List.sum_nil, add_zero, this, one_smul]
    rw [value_one jwPair _ ⟨1, 0⟩ (by decide)]
    simp [jwPair, OrbSystem.inst]
  have h3 : Lin.eval jwPair.value sharedProd = ∑ x, jwOp .creation x * jwOp .annihilation x := by
    have : toRat ⟨1, 1⟩ = 1 := by decide +kernel
    simp only [Lin.eval, sharedProd, List.map_cons, List.map_nil, List.sum_cons, List.sum_nil, add_zero, this, one_smul]
    rw [value_one jwPair _ ⟨1, 0⟩ (by decide)]
    simp [jwPair, OrbSystem.inst]
  refine ⟨by decide +kernel, by decide +kernel, by decide +kernel, jw_car, h1, h2, h3, ?_⟩
  rw [h1, h2, h3]
  decide +kernel

-- two expressions without a common index: the operators of a one-body operator times those of another
example : let a : Expr := [(⟨false, [⟨.creation, ⟨1, 0⟩⟩, ⟨.annihilation, ⟨1, 1⟩⟩], [⟨['f'], [⟨1, 0⟩], [⟨1, 1⟩], .antisymmetric, false⟩]⟩, ⟨1, 2⟩)]
    let b : Expr := [(⟨false, [⟨.creation, ⟨1, 2⟩⟩, ⟨.annihilation, ⟨1, 3⟩⟩], [⟨['g'], [⟨1, 2⟩], [⟨1, 3⟩], .antisymmetric, false⟩]⟩, ⟨1, 3⟩)]
    Ok a ∧ Ok b ∧ (Expr.mul a b).toOption.isSome = true ∧ (∀ p ∈ a, ∀ q ∈ b, ∀ i ∈ p.1.allIdx, i ∉ q.1.allIdx) ∧ (∀ p ∈ a, p.1.Covered) ∧ (∀ p ∈ b, p.1.Covered) := by
  intro a b
  have hc : ∀ d : Int, 0 < d → d ≤ 3 → Canon ⟨1, d⟩ := by
    intro d h1 h2
    exact ⟨h1, by simp⟩
  refine ⟨⟨by decide, ?_⟩, ⟨by decide, ?_⟩, by decide +kernel, by decide, ?_, ?_⟩
  · intro p hp; rw [List.mem_singleton] at hp; subst hp; exact hc 2 (by decide) (by decide)
  · intro p hp; rw [List.mem_singleton] at hp; subst hp; exact hc 3 (by decide) (by decide)
  · unfold STerm.Covered; decide
  · unfold STerm.Covered; decide

end Wicked
