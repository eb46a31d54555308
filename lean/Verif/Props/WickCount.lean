import Verif.Proofs.WickCount
import Verif.Props.WickGraph
/-! C50: the combinatorial factor -/
namespace Wicked
open CppLt CppEq Rational
namespace Wick

/-- **C50, what the code computes**: for every product of valid operators and every list of elementary
contractions that fits into it, the combinatorial factor is the number of sets of second-quantized
operators that realise the list, times `(m-1)!` for every elementary contraction that occurs `m` times. -/
theorem C50_factor {o : OSI} (h8 : o.spaces.length ≤ 8) {ops : OperatorProduct} (hv : ∀ p ∈ ops, p.Valid o.spaces.length)
    {m : Int} {cs : CContr} (hcs : ∀ e ∈ cs, IsElementary o m ops e)
    (hav : ∀ A < ops.length, ∀ s < o.spaces.length, takenCre cs A s ≤ (opAt ops A).gm.cre s ∧ takenAnn cs A s ≤ (opAt ops A).gm.ann s) :
    toRat (combFactor o.spaces.length ops cs) =
      ((realisations o.spaces.length ops cs).card : ℚ) * ∏ e ∈ cs.toFinset, ((cs.count e - 1).factorial : ℚ) :=
  combFactor_evalList h8 hv (elementary_evalList hcs hav)

/-- **C50**, the part of the claim that holds: when no elementary contraction occurs more than twice, the
combinatorial factor is the number of sets of second-quantized operators that realise the contraction. -/
theorem C50_factor_counts_partial {o : OSI} (h8 : o.spaces.length ≤ 8) {ops : OperatorProduct} (hv : ∀ p ∈ ops, p.Valid o.spaces.length)
    {m : Int} {cs : CContr} (hcs : ∀ e ∈ cs, IsElementary o m ops e)
    (hav : ∀ A < ops.length, ∀ s < o.spaces.length, takenCre cs A s ≤ (opAt ops A).gm.cre s ∧ takenAnn cs A s ≤ (opAt ops A).gm.ann s)
    (h2 : ∀ e ∈ cs, cs.count e ≤ 2) :
    toRat (combFactor o.spaces.length ops cs) = ((realisations o.spaces.length ops cs).card : ℚ) := by
  rw [C50_factor h8 hv hcs hav, Finset.prod_eq_one, mul_one]
  intro e he
  have := h2 e (List.mem_toFinset.1 he)
  have : cs.count e - 1 = 0 ∨ cs.count e - 1 = 1 := by omega
  rcases this with h | h <;> simp [h]

/-- the contraction of one creation operator of factor 0 with one annihilation operator of factor 1 -/
def exPair : EContr := [GraphMatrix.zero.setCre 0 1, GraphMatrix.zero.setAnn 0 1]

theorem exPair_elementary (ops : OperatorProduct) (h : ops.length = 2) (h1 : 1 ≤ (opAt ops 0).gm.cre 0) (h2 : 1 ≤ (opAt ops 1).gm.ann 0) :
    IsElementary exO 100 ops exPair := by
  refine ⟨0, by decide, Or.inl ⟨rfl, 0, 1, by omega, by omega, h1, h2, ?_⟩⟩
  rw [h]
  exact legs_pair_cre_ann 2 0 0 1 (by omega) (by omega) (by omega) (by omega)

/-- **C50 is false in general**: for three equal contractions the code counts every set of contracted operators
twice.  (Three creation operators contracted with three annihilation operators: factor 12 for 6 sets.) -/
theorem C50_overcounts :
    let ops := [mkOp "v" [(3, 0)], mkOp "t" [(0, 3)]]
    let cs : CContr := [exPair, exPair, exPair]
    (∀ p ∈ ops, p.Valid exO.spaces.length) ∧ (∀ e ∈ cs, IsElementary exO 100 ops e) ∧
    (∀ A < ops.length, ∀ s < exO.spaces.length, takenCre cs A s ≤ (opAt ops A).gm.cre s ∧ takenAnn cs A s ≤ (opAt ops A).gm.ann s) ∧
    toRat (combFactor exO.spaces.length ops cs) = 12 ∧ (realisations exO.spaces.length ops cs).card = 6 := by
  intro ops cs
  have hv : ∀ p ∈ ops, p.Valid exO.spaces.length := by
    intro p hp
    simp only [ops, List.mem_cons, List.not_mem_nil, or_false] at hp
    rcases hp with rfl | rfl <;> exact mkOp_valid _ _ _ (by decide) (by simp)
  have hcs : ∀ e ∈ cs, IsElementary exO 100 ops e := by
    intro e he
    simp only [cs, List.mem_cons, List.not_mem_nil, or_false, or_self] at he
    subst he
    exact exPair_elementary ops rfl (by decide) (by decide)
  have hav : ∀ A < ops.length, ∀ s < exO.spaces.length, takenCre cs A s ≤ (opAt ops A).gm.cre s ∧ takenAnn cs A s ≤ (opAt ops A).gm.ann s := by
    decide
  have hf : combFactor exO.spaces.length ops cs = ⟨12, 1⟩ := by decide +kernel
  have h12 : toRat (combFactor exO.spaces.length ops cs) = 12 := by rw [hf]; simp [toRat]
  refine ⟨hv, hcs, hav, h12, ?_⟩
  have h := C50_factor (by decide) hv hcs hav
  rw [h12] at h
  have h3 : ∏ e ∈ cs.toFinset, ((cs.count e - 1).factorial : ℚ) = 2 := by
    have e1 : cs.toFinset = {exPair} := by decide +kernel
    have e2 : cs.count exPair = 3 := by decide +kernel
    rw [e1, Finset.prod_singleton, e2]
    norm_num [Nat.factorial]
  rw [h3] at h
  have : ((realisations exO.spaces.length ops cs).card : ℚ) = 6 := by linarith
  exact_mod_cast this

/-- non-vacuity of `C50_factor_counts_partial`: two equal contractions -/
example : let ops := [mkOp "v" [(2, 0)], mkOp "t" [(0, 2)]]
    (∀ e ∈ ([exPair, exPair] : CContr), IsElementary exO 100 ops e) ∧
    (∀ A < ops.length, ∀ s < exO.spaces.length, takenCre [exPair, exPair] A s ≤ (opAt ops A).gm.cre s ∧ takenAnn [exPair, exPair] A s ≤ (opAt ops A).gm.ann s) ∧
    toRat (combFactor exO.spaces.length ops [exPair, exPair]) = 2 := by
  intro ops
  refine ⟨?_, by decide, ?_⟩
  · intro e he
    simp only [List.mem_cons, List.not_mem_nil, or_false, or_self] at he
    subst he
    exact exPair_elementary ops rfl (by decide) (by decide)
  · have hf : combFactor exO.spaces.length ops [exPair, exPair] = ⟨2, 1⟩ := by decide +kernel
    rw [hf]; simp [toRat]

end Wick
end Wicked
